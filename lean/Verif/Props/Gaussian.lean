import Verif.Theory.Gaussian

/-!
# Properties of `ScalarGaussianEntropy` and `GaussianEntropy` (C50, C51)
-/

namespace PSP.Props

open PSP.Spec PSP.Model PSP.Theory Matrix

/-! ### C50: Gaussian vectors given by a covariance matrix -/

/-- The constructor accepts exactly the square matrices. -/
theorem C50_new (S : EMat) : (∃ T, scalarNew S = .ok T) ↔ S.rows = S.cols := by
  unfold scalarNew
  by_cases h : S.rows = S.cols
  · simp [h]
  · simp [h]

/-- For a positive definite matrix the value of a list without repetition is the differential entropy of
these components, in whatever order they are. -/
theorem C50_value {llt : LLT} (hl : ExactLLT llt) {Sigma : EMat} (hs : Sigma.rows = Sigma.cols)
    (hP : Sigma.square.PosDef) {B : List (Fin Sigma.rows)} (hB : B.Nodup) :
    scalarVal llt Sigma (B.map Fin.val) = .ok (gaussEntropy Sigma.square B.toFinset) := by
  rw [scalarVal_eq llt hs, scalarH_value hl (listMat_posDef hP hB)]

/-- For a symmetric matrix the call throws exactly if an element is repeated or the components are
dependent; otherwise the value is the differential entropy. -/
theorem C50_throws {llt : LLT} (hl : ExactLLT llt) {Sigma : EMat} (hs : Sigma.rows = Sigma.cols)
    (hS : Sigma.square.IsSymm) (B : List (Fin Sigma.rows)) :
    scalarVal llt Sigma (B.map Fin.val) =
      open Classical in
      if B.Nodup ∧ (Sigma.square.submatrix (fun v : B.toFinset => v.1) fun v : B.toFinset => v.1).PosDef then
        .ok (gaussEntropy Sigma.square B.toFinset)
      else .exc "S must be an SPD matrix." := by
  have hiff := listMat_posDef_iff Sigma.square B
  rw [scalarVal_eq llt hs]
  split
  · rename_i h
    exact scalarH_value hl (hiff.2 h)
  · rename_i h
    exact scalarH_exc hl (listMat_symm hS B) fun h' => h (hiff.1 h')

/-- Entropy is submodular. -/
theorem C50_submodular {llt : LLT} (hl : ExactLLT llt) {Sigma : EMat} (hs : Sigma.rows = Sigma.cols)
    (hP : Sigma.square.PosDef) {B C D I : List (Fin Sigma.rows)} (hB : B.Nodup) (hC : C.Nodup) (hD : D.Nodup)
    (hI : I.Nodup) (hD' : ∀ v, v ∈ D ↔ v ∈ B ∨ v ∈ C) (hI' : ∀ v, v ∈ I ↔ v ∈ B ∧ v ∈ C) :
    ∃ b c d i, scalarVal llt Sigma (B.map Fin.val) = .ok b ∧ scalarVal llt Sigma (C.map Fin.val) = .ok c ∧
      scalarVal llt Sigma (D.map Fin.val) = .ok d ∧ scalarVal llt Sigma (I.map Fin.val) = .ok i ∧
      d + i ≤ b + c := by
  refine ⟨_, _, _, _, C50_value hl hs hP hB, C50_value hl hs hP hC, C50_value hl hs hP hD,
    C50_value hl hs hP hI, ?_⟩
  have e1 : D.toFinset = B.toFinset ∪ C.toFinset := by ext v; simp [hD']
  have e2 : I.toFinset = B.toFinset ∩ C.toFinset := by ext v; simp [hI']
  rw [e1, e2]
  exact gaussEntropy_submodular hP _ _

/-- `mutual_info` of disjoint sets is not negative. -/
theorem C50_mutual_info {llt : LLT} (hl : ExactLLT llt) {Sigma : EMat} (hs : Sigma.rows = Sigma.cols)
    (hP : Sigma.square.PosDef) {B C : List (Fin Sigma.rows)} (hBC : (B ++ C).Nodup) :
    ∃ v, mutualInfoR (scalarVal llt Sigma) (B.map Fin.val) (C.map Fin.val) = .ok v ∧
      v = gaussEntropy Sigma.square B.toFinset + gaussEntropy Sigma.square C.toFinset -
        gaussEntropy Sigma.square (B.toFinset ∪ C.toFinset) ∧ 0 ≤ v := by
  refine ⟨_, ?_, rfl, ?_⟩
  · unfold mutualInfoR
    rw [C50_value hl hs hP hBC.of_append_left, C50_value hl hs hP hBC.of_append_right, ← List.map_append,
      C50_value hl hs hP hBC, List.toFinset_append]
    rfl
  · have h := gaussEntropy_submodular hP B.toFinset C.toFinset
    have e : B.toFinset ∩ C.toFinset = ∅ := by
      rw [← Finset.disjoint_iff_inter_eq_empty, List.disjoint_toFinset_iff_disjoint]
      exact (List.nodup_append'.1 hBC).2.2
    rw [e, gaussEntropy_empty] at h
    linarith

/-- An index outside of the matrix is not checked. -/
theorem C50_unchecked (llt : LLT) (Sigma : EMat) {B : List ℕ} {b : ℕ} (hb : b ∈ B) (h : Sigma.rows ≤ b) :
    scalarVal llt Sigma B = .ub "index out of bounds" := by
  unfold scalarVal
  rw [if_neg]
  intro h'
  exact absurd (h' b hb).1 (by omega)

/-- Matrices that are not symmetric are accepted, although the message says that only SPD matrices are,
and the value then depends on the order of the elements. -/
theorem C50_asymmetric_violated {llt : LLT} (hl : ExactLLT llt) : ∃ Sigma : EMat, scalarNew Sigma = .ok Sigma ∧
    ∃ x y, scalarVal llt Sigma [0, 1] = .ok x ∧ scalarVal llt Sigma [1, 0] = .ok y ∧ x ≠ y := by
  refine ⟨⟨2, 2, fun i j => if i = j then 2 else if i < j then 1 else 0⟩, rfl, ?_⟩
  have h4 : (!![2, 0; 0, 2] : Matrix (Fin 2) (Fin 2) ℝ).PosDef := posDef_two (by norm_num) (by norm_num)
  have h3 : (!![2, 1; 1, 2] : Matrix (Fin 2) (Fin 2) ℝ).PosDef := posDef_two (by norm_num) (by norm_num)
  refine ⟨_, _, (if_pos (by simp)).trans (scalarH_lower hl h4 ?_), (if_pos (by simp)).trans
    (scalarH_lower hl h3 ?_), ?_⟩
  · intro i j hij; fin_cases i <;> fin_cases j <;> simp_all
  · intro i j hij; fin_cases i <;> fin_cases j <;> simp_all
  rw [det_fin_two_of, det_fin_two_of]
  intro h
  have h5 : Real.log (2 * 2 - 0 * 0) = Real.log (2 * 2 - 1 * 1) :=
    (div_left_inj' two_ne_zero).1 (add_left_cancel h)
  have h6 := Real.log_injOn_pos (by norm_num : (2 * 2 - 0 * 0 : ℝ) ∈ Set.Ioi 0) (by norm_num) h5
  norm_num at h6

/-- The matrix with 2 on the diagonal and 1 elsewhere: all hypotheses hold, and the entropy of the two
components is `log (3 (2πe)²) / 2`. -/
example {llt : LLT} (hl : ExactLLT llt) : scalarVal llt ⟨2, 2, fun i j => if i = j then 2 else 1⟩ [1, 0] =
    .ok (Real.log (3 * (2 * Real.pi * Real.exp 1) ^ 2) / 2) := by
  have e : (⟨2, 2, fun i j => if i = j then 2 else 1⟩ : EMat).square = !![2, 1; 1, 2] := by
    ext i j; fin_cases i <;> fin_cases j <;> simp [EMat.square]
  have h := C50_value hl (Sigma := ⟨2, 2, fun i j => if i = j then 2 else 1⟩) rfl
    (e ▸ posDef_two (by norm_num) (by norm_num)) (B := [1, 0]) (by decide)
  rw [show [(1 : Fin 2), 0].map Fin.val = [1, 0] from rfl] at h
  have hd : pdet !![2, 1; 1, (2 : ℝ)] [(1 : Fin 2), 0].toFinset = 3 := by
    rw [← listMat_det _ (by decide)]
    refine (det_fin_two (listMat !![2, 1; 1, (2 : ℝ)] [(1 : Fin 2), 0] : Matrix (Fin 2) (Fin 2) ℝ)).trans ?_
    norm_num [listMat]
  rw [h, e, gaussEntropy_eq (by rw [hd]; norm_num), hd,
    Real.log_mul (x := 3) (by norm_num) (by positivity), Real.log_pow]
  congr 2
  rw [add_comm]; congr 1

/-- An exact decomposition exists. -/
example : ∃ llt : LLT, ExactLLT llt := exactLLT_exists

/-! ### C51: Gaussian sources given by linear mappings -/

/-- The constructor accepts exactly the lists of matrices with the same number of columns. -/
theorem C51_new (M : List EMat) :
    (∃ M', gaussianNew M = .ok M') ↔ ∀ A ∈ M, ∀ C ∈ M, A.cols = C.cols := by
  unfold gaussianNew
  cases M with
  | nil => simp
  | cons A M =>
    simp only
    split
    · rename_i h
      simp only [Outcome.ok.injEq, exists_eq', true_iff]
      exact fun C hC D hD => (h C hC).trans (h D hD).symm
    · rename_i h
      simp only [reduceCtorEq, exists_false, false_iff]
      exact fun h' => h fun C hC => h' C hC A (by simp)

/-- If the rows of the sources in `B` are linearly independent, the value is the differential entropy in
bits (the other class uses nats). -/
theorem C51_value {llt : LLT} (hl : ExactLLT llt) {M : List EMat} {B : List (Fin M.length)} (hB : B.Nodup)
    (hli : LinearIndependent ℝ fun x : {x : RowIdx M // x.1 ∈ B} => sourceRow M x.1) :
    gaussianVal llt M (B.map Fin.val) =
      .ok (gaussEntropy (gramMatrix (sourceRow M)) (B.toFinset.sigma fun _ => Finset.univ) / Real.log 2) :=
  gaussianVal_value hl ((rowList_posDef_iff (rowList_nodup hB)).2 hli)

/-- Otherwise the call throws, if there are columns. -/
theorem C51_throws {llt : LLT} (hl : ExactLLT llt) {M : List EMat} (hc : gaussianCols M ≠ 0)
    {B : List (Fin M.length)}
    (hli : ¬ LinearIndependent ℝ fun x : {x : RowIdx M // x.1 ∈ B} => sourceRow M x.1) :
    gaussianVal llt M (B.map Fin.val) = .exc "Rows must be linearly independent." := by
  refine gaussianVal_exc hl (fun h => hli ?_) hc
  have hR : (rowList M B).Nodup := by
    by_contra h'; exact listMat_not_posDef _ h' h
  exact (rowList_posDef_iff hR).1 h

/-- A repeated source that is not empty also makes the call throw. -/
theorem C51_repeated {llt : LLT} (hl : ExactLLT llt) {M : List EMat} (hc : gaussianCols M ≠ 0)
    {B : List (Fin M.length)} {b : Fin M.length} (hb : 1 < B.count b) (hr : (M.get b).rows ≠ 0) :
    gaussianVal llt M (B.map Fin.val) = .exc "Rows must be linearly independent." :=
  gaussianVal_exc hl (listMat_not_posDef _ (rowList_repeated hb hr)) hc

/-- Without columns the rows are dependent, but the value is 0. -/
theorem C51_no_columns_violated (llt : LLT) {M : List EMat} (hc : gaussianCols M = 0) (B : List (Fin M.length)) :
    gaussianVal llt M (B.map Fin.val) = .ok 0 := by
  rw [gaussianVal_eq, if_pos (.inr hc)]

/-- Entropy is submodular. -/
theorem C51_submodular {llt : LLT} (hl : ExactLLT llt) {M : List EMat} (hli : LinearIndependent ℝ (sourceRow M))
    {B C D I : List (Fin M.length)} (hB : B.Nodup) (hC : C.Nodup) (hD : D.Nodup) (hI : I.Nodup)
    (hD' : ∀ v, v ∈ D ↔ v ∈ B ∨ v ∈ C) (hI' : ∀ v, v ∈ I ↔ v ∈ B ∧ v ∈ C) :
    ∃ b c d i, gaussianVal llt M (B.map Fin.val) = .ok b ∧ gaussianVal llt M (C.map Fin.val) = .ok c ∧
      gaussianVal llt M (D.map Fin.val) = .ok d ∧ gaussianVal llt M (I.map Fin.val) = .ok i ∧
      d + i ≤ b + c := by
  have hsub : ∀ B : List (Fin M.length), LinearIndependent ℝ fun x : {x : RowIdx M // x.1 ∈ B} => sourceRow M x.1 :=
    fun B => hli.comp _ Subtype.val_injective
  refine ⟨_, _, _, _, C51_value hl hB (hsub B), C51_value hl hC (hsub C), C51_value hl hD (hsub D),
    C51_value hl hI (hsub I), ?_⟩
  have e1 : (D.toFinset.sigma fun _ => Finset.univ : Finset (RowIdx M)) =
      (B.toFinset.sigma fun _ => Finset.univ) ∪ (C.toFinset.sigma fun _ => Finset.univ) := by ext v; simp [hD']
  have e2 : (I.toFinset.sigma fun _ => Finset.univ : Finset (RowIdx M)) =
      (B.toFinset.sigma fun _ => Finset.univ) ∩ (C.toFinset.sigma fun _ => Finset.univ) := by ext v; simp [hI']
  rw [← add_div, ← add_div, e1, e2]
  exact div_le_div_of_nonneg_right (gaussEntropy_submodular ((gram_posDef_iff _).2 hli) _ _)
    (Real.log_pos (by norm_num)).le

/-- `mutual_info` of disjoint sets of sources is not negative. -/
theorem C51_mutual_info {llt : LLT} (hl : ExactLLT llt) {M : List EMat} (hli : LinearIndependent ℝ (sourceRow M))
    {B C : List (Fin M.length)} (hBC : (B ++ C).Nodup) :
    ∃ v, mutualInfoR (gaussianVal llt M) (B.map Fin.val) (C.map Fin.val) = .ok v ∧ 0 ≤ v := by
  obtain ⟨b, c, d, i, h1, h2, h3, h4, h5⟩ := C51_submodular hl hli hBC.of_append_left hBC.of_append_right hBC
    (I := []) (by simp) (by simp) (by
      intro v
      simp only [List.not_mem_nil, false_iff]
      exact fun h => (List.nodup_append'.1 hBC).2.2 h.1 h.2)
  refine ⟨b + c - d, ?_, ?_⟩
  · unfold mutualInfoR
    rw [h1, h2, ← List.map_append, h3]
    rfl
  · have h6 : gaussianVal llt M (([] : List (Fin M.length)).map Fin.val) = .ok 0 := by
      rw [gaussianVal_eq, if_pos (.inl rfl)]
    rw [h6] at h4
    cases h4
    linarith

/-- Two sources with two columns; the second has two rows. -/
private def exM : List EMat :=
  [⟨1, 2, fun _ c => if c = 0 then 3 else 0⟩, ⟨2, 2, fun r c => if r = c then 1 else 0⟩]

private def ex0 : Fin exM.length := ⟨0, by decide⟩

private def ex1 : Fin exM.length := ⟨1, by decide⟩

/-- The rows of the first source are independent, those of both together are not. -/
example {llt : LLT} (hl : ExactLLT llt) :
    gaussianVal llt exM [0] = .ok (Real.logb 2 (9 * (2 * Real.pi * Real.exp 1)) / 2) ∧
    gaussianVal llt exM [1, 0] = .exc "Rows must be linearly independent." := by
  let x0 : RowIdx exM := ⟨ex0, (0 : Fin 1)⟩
  let x1 : RowIdx exM := ⟨ex1, (0 : Fin 2)⟩
  constructor
  · have hd : pdet (gramMatrix (sourceRow exM)) ([ex0].toFinset.sigma fun _ => Finset.univ) = 9 := by
      rw [← rowList_toFinset, ← listMat_det _ (rowList_nodup (by decide))]
      refine (det_fin_one (listMat (gramMatrix (sourceRow exM)) (rowList exM [ex0]) : Matrix (Fin 1) (Fin 1) ℝ)).trans ?_
      change ∑ c : Fin 2, sourceRow exM x0 c * sourceRow exM x0 c = 9
      rw [Fin.sum_univ_two]
      norm_num [sourceRow, exM, x0, ex0]
    have hli : LinearIndependent ℝ fun x : {x : RowIdx exM // x.1 ∈ [ex0]} => sourceRow exM x.1 := by
      have : Subsingleton {x : RowIdx exM // x.1 ∈ [ex0]} := by
        constructor
        rintro ⟨⟨a, r⟩, ha⟩ ⟨⟨b, s⟩, hb⟩
        rw [List.mem_singleton] at ha hb
        simp only at ha hb
        subst ha hb
        have : r = s := Subsingleton.elim (α := Fin 1) r s
        rw [this]
      rw [linearIndependent_subsingleton_index_iff]
      rintro ⟨⟨a, r⟩, ha⟩ h0
      rw [List.mem_singleton] at ha
      simp only at ha
      subst ha
      have h1 : (3 : ℝ) = 0 := congrFun h0 (0 : Fin 2)
      norm_num at h1
    have := C51_value hl (M := exM) (B := [ex0]) (by decide) hli
    refine this.trans ?_
    have hc : ([ex0].toFinset.sigma fun _ => Finset.univ : Finset (RowIdx exM)).card = 1 := by
      rw [Finset.card_sigma]; rfl
    rw [gaussEntropy_eq (by rw [hd]; norm_num), hd, Real.logb, Real.log_mul (x := 9) (by norm_num) (by positivity), hc]
    congr 1
    push_cast
    ring
  · refine C51_throws hl (M := exM) (by simp [gaussianCols, exM]) (B := [ex1, ex0]) fun h => ?_
    have hne : x0 ≠ x1 := fun h => absurd (congrArg Sigma.fst h) (by decide)
    have h2 := h.comp (fun i : Fin 2 => if i = 0 then (⟨x0, by simp [x0]⟩ : {x : RowIdx exM // x.1 ∈ [ex1, ex0]})
      else ⟨x1, by simp [x1]⟩) (by
        intro i j hij
        fin_cases i <;> fin_cases j
        · rfl
        · exact absurd (congrArg Subtype.val hij) hne
        · exact absurd (congrArg Subtype.val hij).symm hne
        · rfl)
    rw [Fintype.linearIndependent_iff] at h2
    have := h2 ![1, -3] (by
      ext c
      rw [Fin.sum_univ_two]
      have hc : c.1 < 2 := c.2
      obtain ⟨c, _⟩ := c
      simp only at hc
      interval_cases c <;> norm_num [sourceRow, exM, x0, x1, ex0, ex1]) 0
    norm_num at this

end PSP.Props
