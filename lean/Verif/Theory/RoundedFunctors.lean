import Verif.Theory.RoundedRound
import Verif.Theory.FLS
import Verif.Model.RoundedFunctors

/-!
# The functors of `hypergraph.hpp` and `FLS.hpp` in floating-point arithmetic
-/

namespace PSP.Theory

open PSP.Model PSP.Spec

variable {fl : ℚ → ℚ} {u R W : ℚ} {n m : ℕ}

/-- For subadditive functions the values of the elements limit all values. -/
theorem NearFunctor.of_subadditive {f : SF} {φ : Finset ℕ → ℚ} (h0 : φ ∅ = 0)
    (hnn : ∀ S, S ⊆ Finset.range n → 0 ≤ φ S)
    (hsub : ∀ S T, S ⊆ Finset.range n → T ⊆ Finset.range n → φ (S ∪ T) ≤ φ S + φ T)
    (hW : ∑ v ∈ Finset.range n, φ {v} ≤ W)
    (hnear : ∀ B : List ℕ, B.Nodup → B ≠ [] → (∀ b ∈ B, b < n) →
      |f.val B - φ B.toFinset| ≤ 2 * m * u * φ B.toFinset ∧ fl (f.val B) = f.val B) :
    NearFunctor fl f φ n m u W := by
  have h1 : ∀ S, S ⊆ Finset.range n → φ S ≤ ∑ v ∈ S, φ {v} := by
    intro S
    induction S using Finset.induction_on with
    | empty => intro _; simp [h0]
    | insert v S hv ih =>
      intro hS
      have hS' : S ⊆ Finset.range n := fun x hx => hS (Finset.mem_insert_of_mem hx)
      have hv' : {v} ⊆ Finset.range n := Finset.singleton_subset_iff.2 (hS (Finset.mem_insert_self _ _))
      have := hsub {v} S hv' hS'
      rw [Finset.sum_insert hv, Finset.insert_eq]
      linarith [ih hS']
  have h2 : ∀ S, S ⊆ Finset.range n → ∑ v ∈ S, φ {v} ≤ W := fun S hS =>
    (Finset.sum_le_sum_of_subset_of_nonneg hS fun v hv _ => hnn _ (Finset.singleton_subset_iff.2 hv)).trans hW
  refine ⟨hnn, fun S hS => (h1 S hS).trans (h2 S hS), hnear, ?_⟩
  intro k C T hb hT _
  have hTn : T.biUnion C ⊆ Finset.range n :=
    Finset.biUnion_subset.2 fun i hi => hb.subset (Finset.mem_range.1 (hT hi))
  constructor
  · clear hTn
    induction T using Finset.induction_on with
    | empty => simp [h0]
    | insert i T hi ih =>
      have hT' : T ⊆ Finset.range k := fun x hx => hT (Finset.mem_insert_of_mem hx)
      rw [Finset.sum_insert hi, Finset.biUnion_insert]
      have h3 := hsub (C i) (T.biUnion C) (hb.subset (Finset.mem_range.1 (hT (Finset.mem_insert_self _ _))))
        (Finset.biUnion_subset.2 fun i hi => hb.subset (Finset.mem_range.1 (hT' hi)))
      by_cases hne : T.Nonempty
      · linarith [ih hT' hne]
      · rw [Finset.not_nonempty_iff_eq_empty] at hne
        subst hne
        simpa [h0] using h3
  · have h3 : ∑ i ∈ T, φ (C i) ≤ ∑ i ∈ T, ∑ v ∈ C i, φ {v} :=
      Finset.sum_le_sum fun i hi => h1 _ (hb.subset (Finset.mem_range.1 (hT hi)))
    rw [← Finset.sum_biUnion (by
      intro i hi j hj hij
      refine Finset.disjoint_left.2 fun v hvi hvj => hij ?_
      exact hb.disjoint i j v (Finset.mem_range.1 (hT hi)) (Finset.mem_range.1 (hT hj)) hvi hvj)] at h3
    linarith [h2 _ hTn, hnn _ hTn]

/-! ### hypergraphs -/

theorem weightMax_nonneg {M : List (List ℚ)} {cols : ℕ} (h0 : ∀ r c, 0 ≤ (M.getD r []).getD c 0) (S : Finset ℕ) :
    0 ≤ weightMax M cols S := by
  unfold weightMax
  split_ifs with h
  · refine Finset.sum_nonneg fun c _ => ?_
    obtain ⟨v, hv⟩ := h
    exact (h0 v c).trans (Finset.le_sup' (fun r => (M.getD r []).getD c 0) hv)
  · exact le_rfl

theorem weightMax_subadditive {M : List (List ℚ)} {cols : ℕ} (h0 : ∀ r c, 0 ≤ (M.getD r []).getD c 0) (S T : Finset ℕ) :
    weightMax M cols (S ∪ T) ≤ weightMax M cols S + weightMax M cols T := by
  rcases S.eq_empty_or_nonempty with rfl | hS
  · rw [Finset.empty_union]
    linarith [weightMax_nonneg (cols := cols) h0 ∅]
  rcases T.eq_empty_or_nonempty with rfl | hT
  · rw [Finset.union_empty]
    linarith [weightMax_nonneg (cols := cols) h0 ∅]
  have hU : (S ∪ T).Nonempty := hS.mono Finset.subset_union_left
  unfold weightMax
  rw [dif_pos hS, dif_pos hT, dif_pos hU, ← Finset.sum_add_distrib]
  refine Finset.sum_le_sum fun c _ => Finset.sup'_le _ _ fun b hb => ?_
  obtain ⟨s, hs⟩ := hS
  obtain ⟨t, ht⟩ := hT
  have h1 := (h0 s c).trans (Finset.le_sup' (fun r => (M.getD r []).getD c 0) hs)
  have h2 := (h0 t c).trans (Finset.le_sup' (fun r => (M.getD r []).getD c 0) ht)
  rcases Finset.mem_union.1 hb with hb | hb
  · have := Finset.le_sup' (fun r => (M.getD r []).getD c 0) hb
    linarith
  · have := Finset.le_sup' (fun r => (M.getD r []).getD c 0) hb
    linarith

/-- `HypergraphEntropy`. -/
theorem hypergraph_nearFunctor (h : Sums fl u R) {M : List (List ℚ)} {cols : ℕ}
    (h0 : ∀ r c, 0 ≤ (M.getD r []).getD c 0) (hfix : ∀ r c, fl ((M.getD r []).getD c 0) = (M.getD r []).getD c 0)
    (hW : ∑ v ∈ Finset.range M.length, weightMax M cols {v} ≤ W) (hWR : 2 * W ≤ R) (hm : 2 * (cols : ℚ) * u ≤ 1) :
    NearFunctor fl (hypergraphEntropyF fl M cols) (weightMax M cols) M.length cols u W := by
  have hnn := fun S => weightMax_nonneg (M := M) (cols := cols) h0 S
  have hle : ∀ S, S ⊆ Finset.range M.length → weightMax M cols S ≤ W := by
    have := NearFunctor.of_subadditive (fl := id) (u := 0) (m := 0) (f := ⟨0, fun B => weightMax M cols B.toFinset⟩)
      (φ := weightMax M cols) (n := M.length) rfl (fun S _ => hnn S) (fun S T _ _ => weightMax_subadditive h0 S T) hW
      (fun B _ _ _ => ⟨by simp, rfl⟩)
    exact this.le
  refine .of_subadditive rfl (fun S _ => hnn S) (fun S T _ _ => weightMax_subadditive h0 S T) hW ?_
  intro B _ hB hBn
  set l := (List.range cols).map fun c => maxCoeff (B.map fun r => (M.getD r []).getD c 0) with hl
  have hterm : ∀ x ∈ l, ∃ r c, x = (M.getD r []).getD c 0 := by
    intro x hx
    obtain ⟨c, -, rfl⟩ := List.mem_map.1 hx
    obtain ⟨h1, -⟩ := maxCoeff_spec (B.map fun r => (M.getD r []).getD c 0) (by simpa using hB)
    obtain ⟨r, -, he⟩ := List.mem_map.1 h1
    exact ⟨r, c, he.symm⟩
  have hsum : l.sum = weightMax M cols B.toFinset := hypergraphEntropy_val M cols hB
  have := h.flSum_err' hm (l := l) (by simp [hl]) (fun x hx => by
    obtain ⟨r, c, rfl⟩ := hterm x hx
    exact hfix r c) (B := weightMax M cols B.toFinset) (by
    rw [← hsum]
    refine le_of_eq (congrArg _ ((List.map_congr_left fun x hx => abs_of_nonneg ?_).trans (List.map_id _)))
    obtain ⟨r, c, rfl⟩ := hterm x hx
    exact h0 r c) (by
    have := hle B.toFinset (fun b hb => Finset.mem_range.2 (hBn b (List.mem_toFinset.1 hb)))
    linarith)
  rw [hsum] at this
  exact this

/-! ### finite linear sources -/

/-- `FiniteLinearEntropy`. -/
theorem linear_nearFunctor {p : ℕ} (hfl : FloatingPoint p fl) {F : Type} [Field F] [DecidableEq F] {unit : ℚ}
    (hu1 : 1 ≤ unit) {cols : ℕ} {M : List (List (List ℤ))} (hM : ∀ A ∈ M, ∀ r ∈ A, r.length = cols)
    (hW : ∑ v ∈ Finset.range M.length, unit * rowRank F cols M {v} ≤ W) (hWR : 2 * W ≤ 2 ^ p) :
    NearFunctor fl (finiteLinearF F fl unit cols M) (fun B => unit * rowRank F cols M B) M.length 1 (2 ^ p)⁻¹ W := by
  have h2 : (0 : ℚ) < 2 ^ p := by positivity
  have h1p : (1 : ℚ) ≤ 2 ^ p := one_le_pow₀ (by norm_num)
  have hnn : ∀ S, 0 ≤ unit * (rowRank F cols M S : ℚ) := fun S => by positivity
  have h0 : unit * (rowRank F cols M ∅ : ℚ) = 0 := by rw [rowRank_empty]; simp
  have hsub : ∀ S T, unit * (rowRank F cols M (S ∪ T) : ℚ) ≤ unit * rowRank F cols M S + unit * rowRank F cols M T := by
    intro S T
    rw [← mul_add]
    refine mul_le_mul_of_nonneg_left ?_ (by linarith)
    have := rowRank_submodular (F := F) cols M S T
    have h3 : rowRank F cols M (S ∪ T) ≤ rowRank F cols M S + rowRank F cols M T := by omega
    exact_mod_cast h3
  have hle : ∀ S, S ⊆ Finset.range M.length → unit * (rowRank F cols M S : ℚ) ≤ W := by
    have := NearFunctor.of_subadditive (fl := id) (u := 0) (m := 0) (f := ⟨0, fun B => unit * rowRank F cols M B.toFinset⟩)
      (φ := fun B => unit * rowRank F cols M B) (n := M.length) h0 (fun S _ => hnn S) (fun S T _ _ => hsub S T) hW
      (fun B _ _ _ => ⟨by simp, rfl⟩)
    exact this.le
  refine .of_subadditive h0 (fun S _ => hnn S) (fun S T _ _ => hsub S T) hW ?_
  intro B _ _ hBn
  have hval : (finiteLinearF F fl unit cols M).val B = fl (unit * rowRank F cols M B.toFinset) :=
    congrArg fl (finiteLinear_val hM B)
  rw [hval]
  have hB := hle B.toFinset (fun b hb => Finset.mem_range.2 (hBn b (List.mem_toFinset.1 hb)))
  set x := unit * (rowRank F cols M B.toFinset : ℚ) with hx
  have hx0 : 0 ≤ x := hnn _
  constructor
  · have hr := (FloatingPoint.rounds hfl).rel' x (by
      rw [abs_of_nonneg hx0, inv_mul_le_iff₀ h2]
      nlinarith)
    rcases Nat.eq_zero_or_pos (rowRank F cols M B.toFinset) with hz | hz
    · have hx' : x = 0 := by rw [hx, hz]; simp
      have := (FloatingPoint.rounds hfl).int 0 (by simp)
      rw [Int.cast_zero] at this
      simp [hx', this]
    · have h1 : (1 : ℚ) ≤ rowRank F cols M B.toFinset := by exact_mod_cast hz
      have hx1 : 1 ≤ x := by rw [hx]; nlinarith
      rw [abs_of_nonneg hx0, max_eq_left ((inv_le_one_of_one_le₀ h1p).trans hx1)] at hr
      refine hr.trans ?_
      have : 0 ≤ (2 ^ p : ℚ)⁻¹ * x := by positivity
      push_cast
      linarith
  · refine (FloatingPoint.sums hfl).idem x ?_
    rw [abs_of_nonneg hx0]
    have : (4 : ℚ) ^ p = 2 ^ p * 2 ^ p := by rw [← mul_pow]; norm_num
    nlinarith

end PSP.Theory
