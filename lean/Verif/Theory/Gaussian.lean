import Mathlib.Algebra.Order.Star.Real
import Mathlib.Analysis.Matrix.LDL
import Mathlib.Analysis.Matrix.PosDef
import Mathlib.Data.List.GetD
import Mathlib.LinearAlgebra.Matrix.Block
import Mathlib.LinearAlgebra.Matrix.SchurComplement
import Verif.Model.Gaussian
import Verif.Spec.Gaussian

/-!
# Determinants of principal submatrices, Cholesky decompositions
-/

namespace PSP.Theory

open PSP.Spec PSP.Model Matrix

variable {V : Type} [DecidableEq V]

/-- Determinant of a principal submatrix. -/
noncomputable def pdet (A : Matrix V V ℝ) (S : Finset V) : ℝ :=
  (A.submatrix (fun v : S => v.1) fun v : S => v.1).det

theorem pdet_pos {A : Matrix V V ℝ} (hA : A.PosDef) (S : Finset V) : 0 < pdet A S :=
  (hA.submatrix Subtype.val_injective).det_pos

theorem gaussEntropy_eq {A : Matrix V V ℝ} {S : Finset V} (hS : 0 < pdet A S) :
    gaussEntropy A S = (S.card * Real.log (2 * Real.pi * Real.exp 1) + Real.log (pdet A S)) / 2 := by
  have h : 0 < 2 * Real.pi * Real.exp 1 := by positivity
  unfold gaussEntropy
  rw [det_smul, Fintype.card_coe]
  change Real.log (_ * pdet A S) / 2 = _
  rw [Real.log_mul (pow_pos h _).ne' hS.ne', Real.log_pow]

section Fin
variable [Fintype V]

/-- The quadratic form of `A`. -/
def quad (A : Matrix V V ℝ) (c : V → ℝ) : ℝ := c ⬝ᵥ A *ᵥ c

omit [Fintype V] [DecidableEq V] in
theorem posDef_symm {A : Matrix V V ℝ} (hA : A.PosDef) (u v : V) : A u v = A v u := by
  have := hA.isHermitian.apply u v; simpa using this.symm

omit [DecidableEq V] in
theorem quad_add {A : Matrix V V ℝ} (hA : A.PosDef) (c d : V → ℝ) :
    quad A (c + d) = quad A c + 2 * (d ⬝ᵥ A *ᵥ c) + quad A d := by
  have h : c ⬝ᵥ A *ᵥ d = d ⬝ᵥ A *ᵥ c := by
    have hT : Aᵀ = A := by ext u v; exact posDef_symm hA v u
    rw [dotProduct_mulVec, ← mulVec_transpose, hT, dotProduct_comm]
  unfold quad
  rw [mulVec_add, dotProduct_add, add_dotProduct, add_dotProduct, h]
  ring

omit [DecidableEq V] in
theorem quad_nonneg {A : Matrix V V ℝ} (hA : A.PosDef) (d : V → ℝ) : 0 ≤ quad A d := by
  by_cases h : d = 0
  · rw [h]; simp [quad]
  · exact (by simpa using hA.dotProduct_mulVec_pos h : (0 : ℝ) < d ⬝ᵥ A *ᵥ d).le

theorem sum_support_insert {S : Finset V} {i : V} (hi : i ∉ S) (g : V → ℝ)
    (hg : ∀ j, j ∉ insert i S → g j = 0) : ∑ v, g v = g i + ∑ v : S, g v.1 := by
  rw [← Finset.sum_subset (Finset.subset_univ (insert i S)) fun j _ hj => hg j hj, Finset.sum_insert hi,
    ← Finset.sum_coe_sort S]

/-- One more row: the determinant is multiplied by the minimum of the quadratic form. -/
theorem pdet_insert {A : Matrix V V ℝ} (hA : A.PosDef) {S : Finset V} {i : V} (hi : i ∉ S) :
    ∃ s, pdet A (insert i S) = pdet A S * s ∧
      (∃ c : V → ℝ, c i = 1 ∧ (∀ j, j ∉ insert i S → c j = 0) ∧ s = quad A c) ∧
      ∀ c : V → ℝ, c i = 1 → (∀ j, j ∉ insert i S → c j = 0) → s ≤ quad A c := by
  set AS : Matrix S S ℝ := A.submatrix (fun v : S => v.1) fun v : S => v.1 with hAS
  have hdet : IsUnit AS.det := (pdet_pos hA S).ne'.isUnit
  let _ : Invertible AS := invertibleOfIsUnitDet AS hdet
  let b : S → ℝ := fun j => A j.1 i
  let c0 : S → ℝ := AS⁻¹ *ᵥ b
  have hc0 : AS *ᵥ c0 = b := by
    simp only [c0, mulVec_mulVec, mul_nonsing_inv AS hdet, one_mulVec]
  let e : S ⊕ Unit ≃ (insert i S : Finset V) :=
    (Equiv.optionEquivSumPUnit S).symm.trans (Finset.subtypeInsertEquivOption hi).symm
  have e1 : ∀ v : S, (e (.inl v)).1 = v.1 := fun v => rfl
  have e2 : (e (.inr ())).1 = i := rfl
  have hblock : (A.submatrix (fun v : (insert i S : Finset V) => v.1)
      fun v : (insert i S : Finset V) => v.1).submatrix e e =
      fromBlocks AS (Matrix.of fun v _ => b v) (Matrix.of fun _ v => b v) (Matrix.of fun _ _ => A i i) := by
    ext x y
    rcases x with x | x <;> rcases y with y | y
    · rfl
    · rfl
    · exact posDef_symm hA _ _
    · rfl
  let s : ℝ := A i i - b ⬝ᵥ c0
  have hs : pdet A (insert i S) = pdet A S * s := by
    unfold pdet
    rw [← det_submatrix_equiv_self e, hblock, det_fromBlocks₁₁]
    congr 1
    rw [det_unique, invOf_eq_nonsing_inv]
    rw [Matrix.sub_apply, mul_apply, of_apply]
    simp only [s, c0, dotProduct, mulVec, mul_apply, of_apply]
    congr 1
    rw [Finset.sum_congr rfl fun x _ => by rw [Finset.sum_mul], Finset.sum_comm]
    apply Finset.sum_congr rfl
    intro x _
    rw [Finset.mul_sum]
    apply Finset.sum_congr rfl
    intro y _
    ring
  let c : V → ℝ := fun v => if v = i then 1 else if h : v ∈ S then - c0 ⟨v, h⟩ else 0
  have hci : c i = 1 := if_pos rfl
  have hcS : ∀ v : S, c v.1 = - c0 v := by
    intro v
    have : v.1 ≠ i := fun h => hi (h ▸ v.2)
    simp only [c, if_neg this, dif_pos v.2]
  have hcn : ∀ j, j ∉ insert i S → c j = 0 := by
    intro j hj
    rw [Finset.mem_insert, not_or] at hj
    simp only [c, if_neg hj.1, dif_neg hj.2]
  have hAc : ∀ u, (A *ᵥ c) u = A u i - ∑ v : S, A u v.1 * c0 v := by
    intro u
    change ∑ v, A u v * c v = _
    rw [sum_support_insert hi _ fun j hj => by rw [hcn j hj, mul_zero], hci, mul_one, sub_eq_add_neg,
      ← Finset.sum_neg_distrib]
    congr 1
    exact Finset.sum_congr rfl fun v _ => by rw [hcS]; ring
  have hAcS : ∀ v : S, (A *ᵥ c) v.1 = 0 := by
    intro v
    rw [hAc, sub_eq_zero]
    exact (congrFun hc0 v).symm
  have hAci : (A *ᵥ c) i = s := by
    rw [hAc]
    simp only [s, dotProduct, b]
    congr 1
    exact Finset.sum_congr rfl fun v _ => by rw [posDef_symm hA]
  have hq : ∀ d : V → ℝ, (∀ j, j ∉ insert i S → d j = 0) → d ⬝ᵥ A *ᵥ c = d i * s := by
    intro d hd
    change ∑ v, d v * (A *ᵥ c) v = _
    rw [sum_support_insert hi _ fun j hj => by rw [hd j hj, zero_mul], hAci,
      Finset.sum_eq_zero fun v _ => by rw [hAcS, mul_zero], add_zero]
  have hqc : s = quad A c := by
    unfold quad; rw [hq c hcn, hci, one_mul]
  refine ⟨s, hs, ⟨c, hci, hcn, hqc⟩, fun c' h1 h2 => ?_⟩
  have h := quad_add hA c (c' - c)
  rw [add_sub_cancel, hq (c' - c) fun j hj => by simp [hcn j hj, h2 j hj]] at h
  rw [h, hqc]
  simp only [Pi.sub_apply, h1, hci, sub_self, zero_mul, mul_zero, add_zero]
  linarith [quad_nonneg hA (c' - c)]

/-- Diminishing returns of the determinant. -/
theorem pdet_step {A : Matrix V V ℝ} (hA : A.PosDef) {S T : Finset V} (hST : S ⊆ T) {i : V} (hi : i ∉ T) :
    pdet A (insert i T) * pdet A S ≤ pdet A (insert i S) * pdet A T := by
  obtain ⟨s, h1, ⟨c, h2, h3, h4⟩, _⟩ := pdet_insert hA (S := S) fun h => hi (hST h)
  obtain ⟨t, h5, _, h6⟩ := pdet_insert hA hi
  have : t ≤ s := h4 ▸ h6 c h2 fun j hj => h3 j fun h => hj (Finset.insert_subset_insert i hST h)
  rw [h1, h5]
  have := mul_le_mul_of_nonneg_left this (mul_pos (pdet_pos hA T) (pdet_pos hA S)).le
  linarith

/-- Determinants of principal submatrices are log-submodular. -/
theorem pdet_submodular {A : Matrix V V ℝ} (hA : A.PosDef) (S T : Finset V) :
    pdet A (S ∪ T) * pdet A (S ∩ T) ≤ pdet A S * pdet A T := by
  suffices h : ∀ U R : Finset V, R ⊆ S → Disjoint U S → pdet A (S ∪ U) * pdet A R ≤ pdet A S * pdet A (R ∪ U) by
    have := h (T \ S) (S ∩ T) Finset.inter_subset_left Finset.sdiff_disjoint
    have e : S ∩ T ∪ T \ S = T := by ext v; simp only [Finset.mem_union, Finset.mem_inter, Finset.mem_sdiff]; tauto
    rwa [Finset.union_sdiff_self_eq_union, e] at this
  intro U
  induction U using Finset.induction_on with
  | empty => intro R _ _; simp
  | insert i U hiU ih =>
    intro R hR hd
    rw [Finset.disjoint_insert_left] at hd
    have h1 := ih R hR hd.2
    have h2 := pdet_step hA (S := R ∪ U) (T := S ∪ U) (Finset.union_subset_union_left hR) (i := i)
      (by rw [Finset.mem_union]; tauto)
    rw [Finset.union_insert, Finset.union_insert]
    have p1 := pdet_pos hA (S ∪ U)
    have p2 := pdet_pos hA (R ∪ U)
    have p3 := pdet_pos hA R
    have p4 := pdet_pos hA (insert i (S ∪ U))
    have p5 := pdet_pos hA (insert i (R ∪ U))
    have p6 := pdet_pos hA S
    have h3 : (pdet A (insert i (S ∪ U)) * pdet A R) * (pdet A (R ∪ U) * pdet A (S ∪ U)) ≤
        (pdet A S * pdet A (insert i (R ∪ U))) * (pdet A (R ∪ U) * pdet A (S ∪ U)) := by
      calc _ = (pdet A (insert i (S ∪ U)) * pdet A (R ∪ U)) * (pdet A (S ∪ U) * pdet A R) := by ring
        _ ≤ (pdet A (insert i (R ∪ U)) * pdet A (S ∪ U)) * (pdet A S * pdet A (R ∪ U)) :=
          mul_le_mul h2 h1 (mul_pos p1 p3).le (mul_pos p5 p1).le
        _ = _ := by ring
    exact le_of_mul_le_mul_right h3 (mul_pos p2 p1)

/-- Entropy of Gaussian vectors is submodular. -/
theorem gaussEntropy_submodular {A : Matrix V V ℝ} (hA : A.PosDef) (S T : Finset V) :
    gaussEntropy A (S ∪ T) + gaussEntropy A (S ∩ T) ≤ gaussEntropy A S + gaussEntropy A T := by
  have h := Real.log_le_log (mul_pos (pdet_pos hA _) (pdet_pos hA _)) (pdet_submodular hA S T)
  rw [Real.log_mul (pdet_pos hA _).ne' (pdet_pos hA _).ne',
    Real.log_mul (pdet_pos hA _).ne' (pdet_pos hA _).ne'] at h
  have hc : ((S ∪ T).card : ℝ) + (S ∩ T).card = S.card + T.card := by
    exact_mod_cast Finset.card_union_add_card_inter S T
  simp only [gaussEntropy_eq (pdet_pos hA _)]
  have hl := congrArg (· * Real.log (2 * Real.pi * Real.exp 1)) hc
  simp only [add_mul] at hl
  linarith

end Fin

/-! ### Cholesky decompositions -/

theorem addLogs_eq (lg : ℝ → ℝ) {k : ℕ} (L : Matrix (Fin k) (Fin k) ℝ) (d : ℝ) :
    addLogs lg L d = d + ∑ i, lg (L i i) := by
  have h : ∀ (l : List (Fin k)) (d : ℝ), l.foldl (fun d i => d + lg (L i i)) d =
      d + (l.map fun i => lg (L i i)).sum := by
    intro l
    induction l with
    | nil => intro d; simp
    | cons a l ih => intro d; rw [List.foldl_cons, ih, List.map_cons, List.sum_cons, add_assoc]
  unfold addLogs
  rw [h, ← List.ofFn_eq_map, List.sum_ofFn]

theorem log_det_of_cholesky {k : ℕ} {L T : Matrix (Fin k) (Fin k) ℝ} (h0 : ∀ i j, i < j → L i j = 0)
    (hp : ∀ i, 0 < L i i) (hT : L * L.transpose = T) : ∑ i, Real.log (L i i) = Real.log T.det / 2 := by
  have h : L.det = ∏ i, L i i := det_of_isLowerTriangular L fun i j h => h0 i j h
  rw [← hT, det_mul, det_transpose, h, ← Real.log_prod fun i _ => (hp i).ne', ← sq, Real.log_pow]
  push_cast; ring

theorem cholesky_exists {k : ℕ} {T : Matrix (Fin k) (Fin k) ℝ} (hT : T.PosDef) :
    ∃ L : Matrix (Fin k) (Fin k) ℝ, (∀ i j, i < j → L i j = 0) ∧ (∀ i, 0 < L i i) ∧ L * L.transpose = T := by
  have hlow : ∀ i j, i < j → LDL.lower hT i j = 0 := by
    intro i j hij
    have h : BlockTriangular (LDL.lowerInv hT) OrderDual.toDual := fun i j h => LDL.lowerInv_triangular hT h
    exact blockTriangular_inv_of_blockTriangular h hij
  have hinv : IsUnit (LDL.lowerInv hT).det := (isUnit_iff_isUnit_det _).1 (isUnit_of_invertible _)
  have hdet : (LDL.lower hT).det ≠ 0 := (isUnit_nonsing_inv_det _ hinv).ne_zero
  have hdiag : ∀ i, LDL.lower hT i i ≠ 0 := by
    rw [det_of_isLowerTriangular _ fun i j h => hlow i j h, Finset.prod_ne_zero_iff] at hdet
    exact fun i => hdet i (Finset.mem_univ i)
  have hpos : ∀ i, 0 < LDL.diagEntries hT i := by
    intro i
    have h : (LDL.diag hT).PosDef := by
      rw [LDL.diag_eq_lowerInv_conj]
      exact hT.mul_mul_conjTranspose_same (vecMul_injective_of_isUnit (isUnit_of_invertible _))
    have := h.diag_pos (i := i)
    simpa [LDL.diag] using this
  let r : Fin k → ℝ := fun j => SignType.sign (LDL.lower hT j j) * Real.sqrt (LDL.diagEntries hT j)
  refine ⟨LDL.lower hT * diagonal r, ?_, ?_, ?_⟩
  · intro i j hij
    rw [mul_diagonal, hlow i j hij, zero_mul]
  · intro i
    rw [mul_diagonal, ← mul_assoc, self_mul_sign]
    exact mul_pos (abs_pos.2 (hdiag i)) (Real.sqrt_pos.2 (hpos i))
  · conv_rhs => rw [← LDL.lower_conj_diag hT]
    rw [transpose_mul, diagonal_transpose, ← Matrix.mul_assoc, Matrix.mul_assoc (LDL.lower hT), diagonal_mul_diagonal,
      conjTranspose_eq_transpose_of_trivial]
    congr 3
    ext j
    have h1 : (SignType.sign (LDL.lower hT j j) : ℝ) * SignType.sign (LDL.lower hT j j) = 1 := by
      rcases lt_or_gt_of_ne (hdiag j) with h | h
      · rw [sign_neg h]; norm_num
      · rw [sign_pos h]; norm_num
    have h2 := Real.mul_self_sqrt (hpos j).le
    calc r j * r j = ((SignType.sign (LDL.lower hT j j) : ℝ) * SignType.sign (LDL.lower hT j j)) *
          (Real.sqrt (LDL.diagEntries hT j) * Real.sqrt (LDL.diagEntries hT j)) := by simp only [r]; ring
      _ = _ := by rw [h1, h2, one_mul]

theorem exactLLT_exists : ∃ llt : LLT, ExactLLT llt := by
  classical
  let low : (k : ℕ) → Matrix (Fin k) (Fin k) ℝ → Matrix (Fin k) (Fin k) ℝ := fun k S =>
    Matrix.of fun i j => if j ≤ i then S i j else S j i
  have hl : ∀ (k : ℕ) (S T : Matrix (Fin k) (Fin k) ℝ), T.IsSymm → (∀ i j, j ≤ i → S i j = T i j) → low k S = T := by
    intro k S T hT h
    ext i j
    simp only [low, of_apply]
    split
    · rename_i hij; exact h i j hij
    · rename_i hij
      rw [h j i (not_le.1 hij).le, hT.apply]
  refine ⟨fun k S => if h : (low k S).PosDef then some (cholesky_exists h).choose else none, ?_, ?_⟩
  · intro k S T hT h
    have e := hl k S T (by ext i j; exact posDef_symm hT j i) h
    have h' : (low k S).PosDef := e ▸ hT
    refine ⟨_, dif_pos h', ?_⟩
    have h3 := (cholesky_exists h').choose_spec
    exact ⟨h3.1, h3.2.1, h3.2.2.trans e⟩
  · intro k S T hs hT h
    have e := hl k S T hs h
    exact dif_neg (e ▸ hT)

/-- The matrix that is decomposed for a list of components. -/
def listMat (A : Matrix V V ℝ) (R : List V) : Matrix (Fin R.length) (Fin R.length) ℝ :=
  A.submatrix (fun i => R[i]) fun i => R[i]

theorem listMat_det (A : Matrix V V ℝ) {R : List V} (hR : R.Nodup) : (listMat A R).det = pdet A R.toFinset := by
  let e : Fin R.length ≃ R.toFinset := (hR.getEquiv R).trans (Equiv.subtypeEquivRight fun v => by simp)
  unfold pdet
  rw [← det_submatrix_equiv_self e]
  rfl

omit [DecidableEq V] in
theorem listMat_posDef {A : Matrix V V ℝ} (hA : A.PosDef) {R : List V} (hR : R.Nodup) : (listMat A R).PosDef :=
  hA.submatrix (List.nodup_iff_injective_get.1 hR)

omit [DecidableEq V] in
theorem listMat_symm {A : Matrix V V ℝ} (hA : A.IsSymm) (R : List V) : (listMat A R).IsSymm :=
  hA.submatrix _

omit [DecidableEq V] in
/-- A repeated component makes the matrix singular. -/
theorem listMat_not_posDef (A : Matrix V V ℝ) {R : List V} (hR : ¬ R.Nodup) : ¬ (listMat A R).PosDef := by
  intro h
  rw [List.nodup_iff_injective_get] at hR
  unfold Function.Injective at hR
  push Not at hR
  obtain ⟨i, j, h1, h2⟩ := hR
  refine h.det_pos.ne' (det_zero_of_row_eq h2 ?_)
  ext c
  change A (R.get i) _ = A (R.get j) _
  rw [h1]

theorem llt_value {llt : LLT} (hl : ExactLLT llt) {A : Matrix V V ℝ} {R : List V} (hA : (listMat A R).PosDef) :
    ∃ L, llt R.length (listMat A R) = some L ∧ (∀ i, 0 < L i i) ∧
      ∑ i, Real.log (L i i) = Real.log (pdet A R.toFinset) / 2 := by
  have hR : R.Nodup := by
    by_contra h; exact listMat_not_posDef A h hA
  obtain ⟨L, h1, h2, h3, h4⟩ := hl.some _ (listMat A R) _ hA fun _ _ _ => rfl
  exact ⟨L, h1, h3, by rw [log_det_of_cholesky h2 h3 h4, listMat_det A hR]⟩

/-! ### `ScalarGaussianEntropy` -/

theorem scalarVal_eq (llt : LLT) {Sigma : EMat} (hs : Sigma.rows = Sigma.cols) (B : List (Fin Sigma.rows)) :
    scalarVal llt Sigma (B.map Fin.val) = scalarH llt (listMat Sigma.square B) := by
  unfold scalarVal
  rw [if_pos]
  · have key : ∀ (R : List ℕ) (k : ℕ) (hk : R.length = k) (S : Matrix (Fin k) (Fin k) ℝ),
        (∀ i j : Fin R.length, Sigma.e R[i] R[j] = S (Fin.cast hk i) (Fin.cast hk j)) →
        scalarH llt (k := R.length) (Matrix.of fun i j => Sigma.e R[i] R[j]) = scalarH llt S := by
      rintro R k rfl S h
      congr 1
      ext i j
      exact h i j
    apply key _ _ (List.length_map _)
    intro i j
    simp [EMat.square, listMat]
  · intro b hb
    obtain ⟨x, _, rfl⟩ := List.mem_map.1 hb
    exact ⟨x.2, hs ▸ x.2⟩

theorem scalarH_value {llt : LLT} (hl : ExactLLT llt) {A : Matrix V V ℝ} {R : List V} (hA : (listMat A R).PosDef) :
    scalarH llt (listMat A R) = .ok (gaussEntropy A R.toFinset) := by
  have hR : R.Nodup := by
    by_contra h; exact listMat_not_posDef A h hA
  obtain ⟨L, h1, _, h2⟩ := llt_value hl hA
  unfold scalarH
  rw [h1]
  simp only [addLogs_eq, h2, gaussEntropy_eq (listMat_det A hR ▸ hA.det_pos), List.toFinset_card_of_nodup hR]
  congr 1
  ring

theorem scalarH_lower {llt : LLT} (hl : ExactLLT llt) {k : ℕ} {S T : Matrix (Fin k) (Fin k) ℝ} (hT : T.PosDef)
    (h : ∀ i j, j ≤ i → S i j = T i j) :
    scalarH llt S = .ok (Real.log (2 * Real.pi * Real.exp 1) / 2 * k + Real.log T.det / 2) := by
  obtain ⟨L, h1, h2, h3, h4⟩ := hl.some k S T hT h
  unfold scalarH
  rw [h1]
  simp only [addLogs_eq, log_det_of_cholesky h2 h3 h4]

omit [DecidableEq V] in
theorem scalarH_exc {llt : LLT} (hl : ExactLLT llt) {A : Matrix V V ℝ} {R : List V} (hA : (listMat A R).IsSymm)
    (hn : ¬ (listMat A R).PosDef) : scalarH llt (listMat A R) = .exc "S must be an SPD matrix." := by
  unfold scalarH
  rw [hl.none _ _ _ hA hn fun _ _ _ => rfl]

/-! ### `GaussianEntropy` -/

/-- First rows of the blocks. -/
def blockStarts : ℕ → List ℕ → List ℕ
  | _, [] => []
  | s, r :: rs => s :: blockStarts (s + r) rs

theorem rowIdx_eq (rows : List ℕ) : rowIdx rows = (blockStarts 0 rows, rows.sum) := by
  have h : ∀ (rows : List ℕ) (acc : List ℕ) (s : ℕ),
      rows.foldl (fun (s : List ℕ × ℕ) r => (s.1 ++ [s.2], s.2 + r)) (acc, s) =
        (acc ++ blockStarts s rows, s + rows.sum) := by
    intro rows
    induction rows with
    | nil => intro acc s; simp [blockStarts]
    | cons r rs ih =>
      intro acc s
      rw [List.foldl_cons, ih]
      simp [blockStarts, add_assoc]
  unfold rowIdx
  rw [h]; simp

/-- The rows of the matrices below each other. -/
def stackRows (Ms : List EMat) : List (ℕ → ℝ) :=
  Ms.flatMap fun A => (List.range A.rows).map A.e

theorem length_stackRows (Ms : List EMat) : (stackRows Ms).length = (Ms.map EMat.rows).sum := by
  induction Ms with
  | nil => rfl
  | cons A Ms ih =>
    rw [List.map_cons, List.sum_cons, ← ih]
    simp [stackRows]

theorem stack_fold (Ms : List EMat) : ∀ (s : ℕ) (f : ℕ → ℕ → ℝ) (r : ℕ),
    (((blockStarts s (Ms.map EMat.rows)).zip ((blockStarts s (Ms.map EMat.rows)).tail ++ [s + (Ms.map EMat.rows).sum])).zip
      Ms).foldl (fun f b => fun r c => if b.1.1 ≤ r ∧ r < b.1.2 then b.2.e (r - b.1.1) c else f r c) f r =
    if s ≤ r then (stackRows Ms).getD (r - s) (f r) else f r := by
  induction Ms with
  | nil => intro s f r; simp [blockStarts, stackRows]
  | cons A Ms ih =>
    intro s f r
    have hz : ((blockStarts s ((A :: Ms).map EMat.rows)).zip ((blockStarts s ((A :: Ms).map EMat.rows)).tail ++
        [s + ((A :: Ms).map EMat.rows).sum])).zip (A :: Ms) =
        ((s, s + A.rows), A) :: ((blockStarts (s + A.rows) (Ms.map EMat.rows)).zip
          ((blockStarts (s + A.rows) (Ms.map EMat.rows)).tail ++ [s + A.rows + (Ms.map EMat.rows).sum])).zip Ms := by
      cases Ms with
      | nil => simp [blockStarts]
      | cons C Ms => simp [blockStarts, add_assoc]
    rw [hz, List.foldl_cons, ih]
    have hst : stackRows (A :: Ms) = (List.range A.rows).map A.e ++ stackRows Ms := rfl
    rw [hst]
    by_cases h1 : s ≤ r
    · rw [if_pos h1]
      by_cases h2 : s + A.rows ≤ r
      · rw [if_pos h2, List.getD_append_right _ _ _ _ (by simp; omega)]
        simp only [List.length_map, List.length_range]
        rw [show r - (s + A.rows) = r - s - A.rows by omega]
        congr 1
        ext c
        exact if_neg fun h => absurd h.2 (by omega)
      · rw [if_neg h2, List.getD_append _ _ _ _ (by simp; omega)]
        ext c
        rw [List.getD_eq_getElem _ _ (by simp; omega)]
        simp [h1, show r < s + A.rows by omega]
    · rw [if_neg h1, if_neg (by omega)]
      ext c
      exact if_neg fun h => h1 h.1

theorem stackBlocks_row (n : ℕ) (Ms : List EMat) {r : ℕ} (hr : r < (stackRows Ms).length) :
    (stackBlocks n (Ms.map EMat.rows).sum (((blockStarts 0 (Ms.map EMat.rows)).zip
      ((blockStarts 0 (Ms.map EMat.rows)).tail ++ [(Ms.map EMat.rows).sum])).zip Ms)).e r = (stackRows Ms)[r] := by
  have := stack_fold Ms 0 (fun _ _ => 0) r
  rw [zero_add] at this
  unfold stackBlocks
  simp only
  rw [this, if_pos (Nat.zero_le r), Nat.sub_zero, List.getD_eq_getElem _ _ hr]

/-- The rows of all sources. -/
abbrev RowIdx (M : List EMat) := Σ b : Fin M.length, Fin (M.get b).rows

/-- The entries of a row. -/
def sourceRow (M : List EMat) (x : RowIdx M) (c : Fin (gaussianCols M)) : ℝ := (M.get x.1).e x.2 c

/-- The rows of the sources in a list. -/
def rowList (M : List EMat) (B : List (Fin M.length)) : List (RowIdx M) :=
  B.flatMap fun b => (List.finRange (M.get b).rows).map (Sigma.mk b)

theorem stackRows_map (M : List EMat) (B : List (Fin M.length)) :
    stackRows (B.map M.get) = (rowList M B).map fun x => (M.get x.1).e x.2 := by
  unfold stackRows rowList
  rw [List.flatMap_map, List.map_flatMap]
  congr 1
  ext1 b
  rw [List.map_map, ← List.map_coe_finRange_eq_range, List.map_map]
  rfl

theorem gaussianVal_eq (llt : LLT) (M : List EMat) (B : List (Fin M.length)) :
    gaussianVal llt M (B.map Fin.val) =
      if (rowList M B).length = 0 ∨ gaussianCols M = 0 then .ok 0
      else match llt _ (listMat (gramMatrix (sourceRow M)) (rowList M B)) with
        | none => .exc "Rows must be linearly independent."
        | some L => .ok (addLogs (Real.logb 2) L
            (Real.logb 2 (2 * Real.pi * Real.exp 1) / 2 * (rowList M B).length)) := by
  unfold gaussianVal
  have h1 : ∀ b ∈ B.map Fin.val, b < M.length := by
    intro b hb
    obtain ⟨x, _, rfl⟩ := List.mem_map.1 hb
    exact x.2
  have h2 : (B.map Fin.val).map (fun b => M.getD b ⟨0, 0, fun _ _ => 0⟩) = B.map M.get := by
    rw [List.map_map]
    apply List.map_congr_left
    intro b _
    simp
  rw [if_pos h1]
  simp only [h2, rowIdx_eq]
  have hlen : (rowList M B).length = ((B.map M.get).map EMat.rows).sum := by
    rw [← length_stackRows, stackRows_map, List.length_map]
  have hrow : ∀ r (hr : r < (rowList M B).length), (stackBlocks (gaussianCols M) ((B.map M.get).map EMat.rows).sum
      (((blockStarts 0 ((B.map M.get).map EMat.rows)).zip ((blockStarts 0 ((B.map M.get).map EMat.rows)).tail ++
        [((B.map M.get).map EMat.rows).sum])).zip (B.map M.get))).e r =
      (M.get (rowList M B)[r].1).e (rowList M B)[r].2 := by
    intro r hr
    rw [stackBlocks_row _ _ (by rw [stackRows_map, List.length_map]; exact hr)]
    simp [stackRows_map]
  have hr0 : (stackBlocks (gaussianCols M) ((B.map M.get).map EMat.rows).sum
      (((blockStarts 0 ((B.map M.get).map EMat.rows)).zip ((blockStarts 0 ((B.map M.get).map EMat.rows)).tail ++
        [((B.map M.get).map EMat.rows).sum])).zip (B.map M.get))).rows = (rowList M B).length := hlen.symm
  have hc0 : (stackBlocks (gaussianCols M) ((B.map M.get).map EMat.rows).sum
      (((blockStarts 0 ((B.map M.get).map EMat.rows)).zip ((blockStarts 0 ((B.map M.get).map EMat.rows)).tail ++
        [((B.map M.get).map EMat.rows).sum])).zip (B.map M.get))).cols = gaussianCols M := rfl
  generalize stackBlocks _ _ _ = A at hrow hr0 hc0
  obtain ⟨rows, cols, e⟩ := A
  simp only at hrow hr0 hc0
  subst hr0 hc0
  unfold gaussianH
  simp only
  have hm : (Matrix.of fun i j : Fin (rowList M B).length => ∑ c ∈ Finset.range (gaussianCols M), e i c * e j c) =
      listMat (gramMatrix (sourceRow M)) (rowList M B) := by
    ext i j
    rw [of_apply, Finset.sum_range]
    simp only [hrow _ i.2, hrow _ j.2]
    rfl
  rw [hm]
  by_cases h : (rowList M B).length = 0 ∨ gaussianCols M = 0
  · rw [if_pos h, if_pos h]
  · rw [if_neg h, if_neg h]
    cases llt _ (listMat (gramMatrix (sourceRow M)) (rowList M B)) <;> rfl

theorem rowList_nodup {M : List EMat} {B : List (Fin M.length)} (hB : B.Nodup) : (rowList M B).Nodup := by
  unfold rowList
  rw [List.nodup_flatMap]
  refine ⟨fun b _ => (List.nodup_finRange _).map sigma_mk_injective, hB.imp ?_⟩
  intro a b hab x ha hb
  simp only [List.mem_map, List.mem_finRange, true_and] at ha hb
  obtain ⟨y, rfl⟩ := ha
  obtain ⟨z, hz⟩ := hb
  exact hab (congrArg Sigma.fst hz).symm

theorem rowList_toFinset (M : List EMat) (B : List (Fin M.length)) :
    (rowList M B).toFinset = B.toFinset.sigma fun _ => Finset.univ := by
  ext ⟨b, r⟩
  simp only [rowList, List.mem_toFinset, List.mem_flatMap, List.mem_map, List.mem_finRange, true_and,
    Finset.mem_sigma, Finset.mem_univ, and_true]
  constructor
  · rintro ⟨a, ha, y, h⟩
    cases h
    exact ha
  · intro h
    exact ⟨b, h, r, rfl⟩

/-- The covariance matrix is positive definite exactly if the rows are linearly independent. -/
theorem gram_posDef_iff {W : Type} [Fintype W] {n : ℕ} (rows : W → Fin n → ℝ) :
    (gramMatrix rows).PosDef ↔ LinearIndependent ℝ rows := by
  have he : gramMatrix rows = (Matrix.of rows) * (Matrix.of rows)ᴴ := by
    ext x y; simp [gramMatrix, mul_apply]
  constructor
  · intro h
    change LinearIndependent ℝ (Matrix.of rows).row
    rw [← vecMul_injective_iff]
    intro v w hvw
    by_contra hne
    have hd : v - w ≠ 0 := sub_ne_zero.2 hne
    have h0 : (v - w) ᵥ* Matrix.of rows = 0 := by rw [sub_vecMul]; exact sub_eq_zero.2 hvw
    have := h.dotProduct_mulVec_pos hd
    rw [he, dotProduct_mulVec, ← vecMul_vecMul, star_trivial, h0, zero_vecMul, zero_dotProduct] at this
    exact lt_irrefl _ this
  · intro h
    rw [he]
    exact PosDef.mul_conjTranspose_self _ (vecMul_injective_iff.2 h)

theorem listMat_gram {M : List EMat} (R : List (RowIdx M)) :
    listMat (gramMatrix (sourceRow M)) R = gramMatrix fun i : Fin R.length => sourceRow M R[i] := rfl

theorem gaussianVal_value {llt : LLT} (hl : ExactLLT llt) {M : List EMat} {B : List (Fin M.length)}
    (hA : (listMat (gramMatrix (sourceRow M)) (rowList M B)).PosDef) :
    gaussianVal llt M (B.map Fin.val) =
      .ok (gaussEntropy (gramMatrix (sourceRow M)) (B.toFinset.sigma fun _ => Finset.univ) / Real.log 2) := by
  have hR : (rowList M B).Nodup := by
    by_contra h; exact listMat_not_posDef _ h hA
  have hp := listMat_det (gramMatrix (sourceRow M)) hR ▸ hA.det_pos
  rw [gaussianVal_eq, ← rowList_toFinset]
  split
  · rename_i h0
    have h1 : rowList M B = [] := by
      rcases h0 with h0 | h0
      · exact List.length_eq_zero_iff.1 h0
      · by_contra hne
        have hpos : 0 < (rowList M B).length := List.length_pos_iff.2 hne
        have := hA.diag_pos (i := ⟨0, hpos⟩)
        have hz : listMat (gramMatrix (sourceRow M)) (rowList M B) ⟨0, hpos⟩ ⟨0, hpos⟩ = 0 := by
          change ∑ c : Fin (gaussianCols M), _ = (0 : ℝ)
          apply Finset.sum_eq_zero
          intro c
          exact absurd c.2 (by omega)
        rw [hz] at this
        exact absurd this (lt_irrefl _)
    rw [gaussEntropy_eq hp, h1]
    have he : pdet (gramMatrix (sourceRow M)) ([] : List (RowIdx M)).toFinset = 1 := by
      rw [← listMat_det _ List.nodup_nil]; exact det_isEmpty (n := Fin 0)
    rw [he]; simp
  · obtain ⟨L, h1, h3, h2⟩ := llt_value hl hA
    rw [h1]
    simp only [addLogs_eq, Real.logb, ← Finset.sum_div, h2, gaussEntropy_eq hp, List.toFinset_card_of_nodup hR]
    congr 1
    field_simp

theorem gaussianVal_exc {llt : LLT} (hl : ExactLLT llt) {M : List EMat} {B : List (Fin M.length)}
    (hA : ¬ (listMat (gramMatrix (sourceRow M)) (rowList M B)).PosDef) (hc : gaussianCols M ≠ 0) :
    gaussianVal llt M (B.map Fin.val) = .exc "Rows must be linearly independent." := by
  have hne : (rowList M B).length ≠ 0 := by
    intro h
    apply hA
    rw [List.length_eq_zero_iff] at h
    rw [h, listMat_gram, gram_posDef_iff]
    exact linearIndependent_empty_type (ι := Fin 0)
  rw [gaussianVal_eq, if_neg (by tauto), hl.none _ _ _ ?_ hA fun _ _ _ => rfl]
  ext i j
  change ∑ c : Fin (gaussianCols M), sourceRow M _ c * sourceRow M _ c =
    ∑ c : Fin (gaussianCols M), sourceRow M _ c * sourceRow M _ c
  exact Finset.sum_congr rfl fun c _ => mul_comm _ _

theorem listMat_posDef_iff (A : Matrix V V ℝ) (R : List V) : (listMat A R).PosDef ↔
    R.Nodup ∧ (A.submatrix (fun v : R.toFinset => v.1) fun v : R.toFinset => v.1).PosDef := by
  constructor
  · intro h
    have hR : R.Nodup := by
      by_contra h'; exact listMat_not_posDef A h' h
    refine ⟨hR, ?_⟩
    let e : Fin R.length ≃ R.toFinset := (hR.getEquiv R).trans (Equiv.subtypeEquivRight fun v => by simp)
    have h2 := h.submatrix (e := e.symm) e.symm.injective
    convert h2 using 1
    ext u v
    have key : ∀ w : R.toFinset, R[e.symm w] = w.1 := fun w => congrArg Subtype.val (e.apply_symm_apply w)
    change A u.1 v.1 = A R[e.symm u] R[e.symm v]
    rw [key, key]
  · rintro ⟨hR, h⟩
    let f : Fin R.length → R.toFinset := fun i => ⟨R[i], by simp⟩
    have hf : Function.Injective f := fun i j hij =>
      List.nodup_iff_injective_get.1 hR (congrArg Subtype.val hij)
    exact h.submatrix hf

theorem gaussEntropy_empty (A : Matrix V V ℝ) : gaussEntropy A ∅ = 0 := by
  have h : ((2 * Real.pi * Real.exp 1) • A.submatrix (fun v : (∅ : Finset V) => v.1)
      fun v : (∅ : Finset V) => v.1).det = 1 := det_isEmpty
  unfold gaussEntropy
  rw [h]; simp

theorem rowList_posDef_iff {M : List EMat} {B : List (Fin M.length)} (hB : (rowList M B).Nodup) :
    (listMat (gramMatrix (sourceRow M)) (rowList M B)).PosDef ↔
      LinearIndependent ℝ fun x : {x : RowIdx M // x.1 ∈ B} => sourceRow M x.1 := by
  rw [listMat_gram, gram_posDef_iff]
  have hm : ∀ x : RowIdx M, x ∈ rowList M B ↔ x.1 ∈ B := by
    intro x
    have := congrArg (x ∈ ·) (rowList_toFinset M B)
    simpa using this
  let e : Fin (rowList M B).length ≃ {x : RowIdx M // x.1 ∈ B} :=
    (hB.getEquiv _).trans (Equiv.subtypeEquivRight fun v => hm v)
  exact linearIndependent_equiv e (f := fun x : {x : RowIdx M // x.1 ∈ B} => sourceRow M x.1)

theorem rowList_repeated {M : List EMat} {B : List (Fin M.length)} {b : Fin M.length} (hb : 1 < B.count b)
    (hr : (M.get b).rows ≠ 0) : ¬ (rowList M B).Nodup := by
  intro h
  have h1 : [b, b].Sublist B := List.duplicate_iff_sublist.1 (List.duplicate_iff_two_le_count.2 hb)
  have h2 : (rowList M [b, b]).Nodup := h.sublist (h1.flatMap _)
  have h3 : rowList M [b, b] = rowList M [b] ++ rowList M [b] := by simp [rowList]
  rw [h3] at h2
  have h4 : (⟨b, ⟨0, Nat.pos_of_ne_zero hr⟩⟩ : RowIdx M) ∈ rowList M [b] := by simp [rowList]
  exact (List.nodup_append'.1 h2).2.2 h4 h4

theorem posDef_two {a b d : ℝ} (ha : 0 < a) (hd : b * b < a * d) : (!![a, b; b, d] : Matrix (Fin 2) (Fin 2) ℝ).PosDef := by
  refine PosDef.of_dotProduct_mulVec_pos ?_ fun x hx => ?_
  · ext i j; fin_cases i <;> fin_cases j <;> rfl
  · have e : star x ⬝ᵥ (!![a, b; b, d] *ᵥ x) = a * x 0 * x 0 + 2 * b * x 0 * x 1 + d * x 1 * x 1 := by
      simp [dotProduct, mulVec, Fin.sum_univ_two]; ring
    rw [e]
    by_cases h1 : x 1 = 0
    · have h0 : x 0 ≠ 0 := by
        intro h0; apply hx; ext i; fin_cases i <;> simp [h0, h1]
      have := mul_pos ha (mul_self_pos.2 h0)
      rw [h1]; linarith
    · have h2 : 0 < x 1 * x 1 := mul_self_pos.2 h1
      have h3 : 0 < a * (a * x 0 * x 0 + 2 * b * x 0 * x 1 + d * x 1 * x 1) := by
        have : a * (a * x 0 * x 0 + 2 * b * x 0 * x 1 + d * x 1 * x 1) =
          (a * x 0 + b * x 1) * (a * x 0 + b * x 1) + (a * d - b * b) * (x 1 * x 1) := by ring
        rw [this]
        have := mul_pos (sub_pos.2 hd) h2
        linarith [mul_self_nonneg (a * x 0 + b * x 1)]
      exact pos_of_mul_pos_right h3 ha.le

end PSP.Theory
