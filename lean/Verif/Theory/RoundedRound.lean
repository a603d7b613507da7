import Verif.Theory.RoundedEntropy
import Verif.Theory.MinNormExists

/-!
# The critical value found by one call of `agglomerate`, in floating-point arithmetic
-/

namespace PSP.Theory

open PSP.Model PSP.Spec

section merge

variable {h : Finset ℕ → ℚ} {V : Finset ℕ} {k : ℕ} {C : ℕ → Finset ℕ} {gam : ℚ}

/-- Merge the blocks of `T`. -/
def mergeSet (k : ℕ) (C : ℕ → Finset ℕ) (T : Finset ℕ) : Finset (Finset ℕ) :=
  insert (T.biUnion C) ((Finset.range k \ T).image C)

theorem mergeSet_partition (hb : Blocks V k C) {T : Finset ℕ} (hT : T ⊆ Finset.range k) (hne : T.Nonempty) :
    IsPartition V (mergeSet k C T) := by
  unfold mergeSet
  constructor
  · intro B hB
    rcases Finset.mem_insert.1 hB with rfl | hB
    · obtain ⟨i, hi⟩ := hne
      obtain ⟨v, hv⟩ := hb.nonempty i (Finset.mem_range.1 (hT hi))
      exact ⟨⟨v, Finset.mem_biUnion.2 ⟨i, hi, hv⟩⟩, hb.biUnion_subset hT⟩
    · obtain ⟨i, hi, rfl⟩ := Finset.mem_image.1 hB
      have hik := Finset.mem_range.1 (Finset.mem_sdiff.1 hi).1
      exact ⟨hb.nonempty i hik, hb.subset hik⟩
  · intro v hv
    obtain ⟨i, hi, hvi⟩ := (hb.all v).1 hv
    by_cases hiT : i ∈ T
    · refine ⟨T.biUnion C, ⟨Finset.mem_insert_self _ _, Finset.mem_biUnion.2 ⟨i, hiT, hvi⟩⟩, ?_⟩
      rintro B ⟨hB, hvB⟩
      rcases Finset.mem_insert.1 hB with rfl | hB
      · rfl
      · obtain ⟨j, hj, rfl⟩ := Finset.mem_image.1 hB
        obtain ⟨hj1, hj2⟩ := Finset.mem_sdiff.1 hj
        have := hb.disjoint j i v (Finset.mem_range.1 hj1) hi hvB hvi
        exact absurd (this ▸ hiT) hj2
    · refine ⟨C i, ⟨Finset.mem_insert_of_mem (Finset.mem_image_of_mem _
        (Finset.mem_sdiff.2 ⟨Finset.mem_range.2 hi, hiT⟩)), hvi⟩, ?_⟩
      rintro B ⟨hB, hvB⟩
      rcases Finset.mem_insert.1 hB with rfl | hB
      · obtain ⟨j, hj, hvj⟩ := Finset.mem_biUnion.1 hvB
        have := hb.disjoint j i v (Finset.mem_range.1 (hT hj)) hi hvj hvi
        exact absurd (this ▸ hj) hiT
      · obtain ⟨j, hj, rfl⟩ := Finset.mem_image.1 hB
        rw [hb.disjoint j i v (Finset.mem_range.1 (Finset.mem_sdiff.1 hj).1) hi hvB hvi]

theorem mergeSet_refines {T : Finset ℕ} : Refines (blockSet k C) (mergeSet k C T) := by
  intro B hB
  obtain ⟨i, hi, rfl⟩ := Finset.mem_image.1 hB
  by_cases hiT : i ∈ T
  · exact ⟨_, Finset.mem_insert_self _ _, fun v hv => Finset.mem_biUnion.2 ⟨i, hiT, hv⟩⟩
  · exact ⟨C i, Finset.mem_insert_of_mem (Finset.mem_image_of_mem _ (Finset.mem_sdiff.2 ⟨hi, hiT⟩)), subset_rfl⟩

theorem mergeSet_cost (hb : Blocks V k C) {T : Finset ℕ} (hT : T ⊆ Finset.range k) (hne : T.Nonempty) (lam : ℚ) :
    costSF h lam (mergeSet k C T) = costSF h lam (blockSet k C) + price h C lam T := by
  rw [hb.cost_coarser (mergeSet_partition hb hT hne) mergeSet_refines]
  congr 1
  have hin : ∀ S : Finset ℕ, S ⊆ Finset.range k → inside k C (S.biUnion C) = S := by
    intro S hS
    ext i
    rw [mem_inside]
    constructor
    · rintro ⟨hi, h1⟩
      obtain ⟨v, hv⟩ := hb.nonempty i hi
      obtain ⟨j, hj, hvj⟩ := Finset.mem_biUnion.1 (h1 hv)
      rwa [hb.disjoint i j v hi (Finset.mem_range.1 (hS hj)) hv hvj]
    · intro hi
      exact ⟨Finset.mem_range.1 (hS hi), fun v hv => Finset.mem_biUnion.2 ⟨i, hi, hv⟩⟩
  unfold mergeSet
  rw [Finset.sum_insert, hin T hT, Finset.sum_eq_zero, add_zero]
  · intro B hB
    obtain ⟨i, hi, rfl⟩ := Finset.mem_image.1 hB
    have := hin {i} (Finset.singleton_subset_iff.2 (Finset.mem_sdiff.1 hi).1)
    rw [Finset.singleton_biUnion] at this
    rw [this, price_single]
  · intro hB
    obtain ⟨i, hi, he⟩ := Finset.mem_image.1 hB
    obtain ⟨hi1, hi2⟩ := Finset.mem_sdiff.1 hi
    obtain ⟨v, hv⟩ := hb.nonempty i (Finset.mem_range.1 hi1)
    rw [he] at hv
    obtain ⟨j, hj, hvj⟩ := Finset.mem_biUnion.1 hv
    have hv' : v ∈ C i := by rw [he]; exact hv
    have := hb.disjoint i j v (Finset.mem_range.1 hi1) (Finset.mem_range.1 (hT hj)) hv' hvj
    exact hi2 (this ▸ hj)

/-- What the minimum norm bases say about the next critical value. -/
theorem Round.mergeValue {x : ℕ → ℕ → ℚ} (hr : Round h k C x gam) (hb : Blocks V k C) (hh : Intersecting V h) (lam : ℚ) :
    gam ≤ lam ↔ ∀ R, IsPartition V R → Refines (blockSet k C) R →
      costSF h lam (blockSet k C) ≤ costSF h lam R := by
  constructor
  · intro hl R hR hPR
    rw [hb.cost_coarser hR hPR]
    have : 0 ≤ ∑ B ∈ R, price h C lam (inside k C B) := by
      refine Finset.sum_nonneg fun B hB => ?_
      have hne := hb.inside_nonempty hR hPR hB
      have hin : inside k C B ⊆ Finset.range k := Finset.filter_subset _ _
      have h1 := hr.price_nonneg hin hne
      have h2 : (1 : ℚ) ≤ (inside k C B).card := by exact_mod_cast hne.card_pos
      have h3 : price h C lam (inside k C B) = price h C gam (inside k C B) +
          (lam - gam) * ((inside k C B).card - 1) := by unfold price; ring
      rw [h3]
      have := mul_nonneg (sub_nonneg.2 hl) (sub_nonneg.2 h2)
      linarith
    linarith
  · intro hR
    obtain ⟨j, i, hj, hi, hji⟩ := hr.attained
    set T := insert j ((Finset.range j).filter fun i => x j i = -gam) with hT
    have hfree := hr.free_level hb hh hj
    have hTk : T ⊆ Finset.range k := insert_subset_range hj (Finset.filter_subset _ _)
    have hne : T.Nonempty := ⟨j, Finset.mem_insert_self _ _⟩
    have hcard : (2 : ℚ) ≤ T.card := by
      have : ({j, i} : Finset ℕ) ⊆ T := by
        intro a ha
        rcases Finset.mem_insert.1 ha with rfl | ha
        · exact Finset.mem_insert_self _ _
        · rw [Finset.mem_singleton.1 ha]
          exact Finset.mem_insert_of_mem (Finset.mem_filter.2 ⟨Finset.mem_range.2 hi, hji⟩)
      have := Finset.card_le_card this
      rw [Finset.card_pair (by omega)] at this
      exact_mod_cast this
    have h1 := hR _ (mergeSet_partition hb hTk hne) mergeSet_refines
    rw [mergeSet_cost hb hTk hne] at h1
    have h3 : price h C lam T = price h C gam T + (lam - gam) * (T.card - 1) := by unfold price; ring
    rw [hfree] at h3
    by_contra hn
    rw [not_le] at hn
    have : (lam - gam) * ((T.card : ℚ) - 1) < 0 := mul_neg_of_neg_of_pos (by linarith) (by linarith)
    linarith

end merge

/-- The critical value computed from points close to the minimum norm bases. -/
theorem gamma_close {k : ℕ} {y : ℕ → ℕ → ℚ} {xs : List (List ℚ)} {gam D : ℚ} (hk : 1 < k) (hxs : xs.length = k - 1)
    (hlen : ∀ j, 1 ≤ j → j < k → (xs.getD (j - 1) []).length = j)
    (hd : ∀ j i, 1 ≤ j → j < k → i < j → ((xs.getD (j - 1) []).getD i 0 - y j i) ^ 2 ≤ D)
    (hbound : ∀ j i, j < k → i < j → -gam ≤ y j i) (hatt : ∃ j i, j < k ∧ i < j ∧ y j i = -gam) {g : ℚ}
    (hg : aicGamma xs = some g) : (g - gam) ^ 2 ≤ D := by
  have hne : xs ≠ [] := by
    intro h; rw [h] at hxs; simp at hxs; omega
  obtain ⟨g', hg', hg2, hg1⟩ := aicGamma_spec hne
  rw [hg] at hg'
  cases hg'
  have hgetx : ∀ x ∈ xs, ∃ j, 1 ≤ j ∧ j < k ∧ x = xs.getD (j - 1) [] := by
    intro x hx
    obtain ⟨i, hi, rfl⟩ := List.mem_iff_getElem.1 hx
    refine ⟨i + 1, by omega, by omega, ?_⟩
    rw [Nat.add_sub_cancel, List.getD_eq_getElem _ _ hi]
  -- the coordinate that gives `g`
  obtain ⟨x, hx, hgx⟩ := hg1
  obtain ⟨j, hj1, hjk, rfl⟩ := hgetx x hx
  have hxl := hlen j hj1 hjk
  obtain ⟨i, hi, hmi⟩ := List.mem_iff_getElem.1 (minCoeff_mem (xs.getD (j - 1) []) (by
    intro h; rw [h] at hxl; simp at hxl; omega))
  rw [hxl] at hi
  have e1 : (xs.getD (j - 1) []).getD i 0 = -g := by
    rw [List.getD_eq_getElem _ _ (by omega), hmi]
    linarith
  have d1 := hd j i hj1 hjk hi
  rw [e1] at d1
  have b1 := hbound j i hjk hi
  -- the coordinate that gives `gam`
  obtain ⟨j', i', hj', hi', hy'⟩ := hatt
  have hx'l := hlen j' (by omega) hj'
  have hmem : xs.getD (j' - 1) [] ∈ xs := getD_mem (by omega)
  have h2 := hg2 _ hmem
  have h3 := minCoeff_le (xs.getD (j' - 1) []) ((xs.getD (j' - 1) []).getD i' 0) (by
    generalize xs.getD (j' - 1) [] = l at hx'l
    rw [List.getD_eq_getElem _ _ (by omega)]
    exact List.getElem_mem _)
  have d2 := hd j' i' (by omega) hj' hi'
  rw [hy'] at d2
  rcases le_total g gam with hle | hle
  · have : (g - gam) ^ 2 ≤ ((xs.getD (j' - 1) []).getD i' 0 - -gam) ^ 2 := by
      apply sq_le_sq'
      · nlinarith
      · linarith
    exact this.trans d2
  · have : (g - gam) ^ 2 ≤ (-g - y j i) ^ 2 := by
      rw [show (-g - y j i) ^ 2 = (g + y j i) ^ 2 by ring]
      apply sq_le_sq'
      · linarith
      · linarith
    exact this.trans d1

/-! ### one call of `agglomerate` -/

variable {fl : ℚ → ℚ} {N : NumericsF} {g u d R M η c eps tol : ℚ} {φ : Finset ℕ → ℚ}

/-- The result of `min_norm_base` in terms of one number `c`. -/
theorem minNormBaseF_certificate {f : SF} {fuel : ℕ} (hN : CloseNumerics fl N g u R f.size) (hc1 : c ≤ 1 / 64)
    (hgc : g ≤ 4 * c) (hηc : η ≤ 2 * c * M) (hd0 : 0 ≤ d) (hu1 : u ≤ 1) (hud : 4 * u ≤ g * d) (heps : d ≤ eps)
    (hdM : d ≤ M) (hR : 8 * f.size * M ^ 2 + 4 * M + 1 ≤ R) (hfv : FormatValues fl f R) (hf : NearlyComputes f φ η)
    (hφ : Submodular (Finset.range f.size) φ)
    (hM : ∀ S T, S ⊆ Finset.range f.size → T ⊆ Finset.range f.size → |φ S - φ T| ≤ M) (hn : 2 ≤ f.size)
    {x : List ℚ} {flag : Bool} (hdtol : 0 ≤ tol → d ≤ tol)
    (h : minNormBaseF fl N f tol eps fuel = .ok (x, flag)) :
    x.length = f.size ∧
    (flag = true → ∀ y, InBase (Finset.range f.size) φ y →
      ∑ i ∈ Finset.range f.size, x.getD i 0 * x.getD i 0 ≤
        ∑ i ∈ Finset.range f.size, x.getD i 0 * y i + ((1 + 8 * c) * tol + 50 * f.size * c * M ^ 2)) ∧
    (x = List.replicate f.size 0 ∨
      (∃ b, InBase (Finset.range f.size) φ b ∧ ∀ i < f.size, |x.getD i 0 - b i| ≤ 40 * c * M) ∧
      (flag = true → ∀ y, IsMinNorm (Finset.range f.size) φ y →
        ∑ i ∈ Finset.range f.size, (x.getD i 0 - y i) ^ 2 ≤ (1 + 8 * c) * tol + 90 * f.size * c * M ^ 2)) := by
  have hM0 : 0 ≤ M := by
    have := hM ∅ ∅ (Finset.empty_subset _) (Finset.empty_subset _)
    simpa using this
  have hη : 0 ≤ η := (abs_nonneg _).trans (hf [] (by simp) (by simp))
  have hc : 0 ≤ c := by linarith [hN.nonneg]
  have hg := hN.nonneg
  have hgd : ∀ t, d ≤ t → 4 * u ≤ g * t := fun t ht => hud.trans (mul_le_mul_of_nonneg_left ht hg)
  have hu0 := hN.abs_nonneg
  have hρ := (err_le (n := f.size) hc hc1 hN.nonneg hgc hM0 hη hηc le_rfl (tol := 0)).1
  have hκ := pointErr_ge hg hη hM0
  have hcM : 40 * c * M ≤ M := by
    have := mul_le_mul_of_nonneg_right (show 40 * c ≤ 1 by linarith) hM0
    linarith
  have hn0 : (0 : ℚ) ≤ 8 * f.size * M ^ 2 := by positivity
  obtain ⟨h1, h2⟩ := minNormBaseF_near hN hη hM0 (hd0.trans heps) (by linarith [hgd eps heps]) (by linarith [hgd M hdM])
    (by linarith) hfv hf hφ hM hn h
  have hl : x.length = f.size := by
    rcases h1 with h | h
    · exact h.1
    · rw [h]; simp
  have htol : flag = true → 0 ≤ tol := fun hfl => by
    obtain ⟨q, -, hq⟩ := h2 hfl
    exact (abs_nonneg _).trans hq.le
  have hgap : flag = true → ∀ y, InBase (Finset.range f.size) φ y →
      ∑ i ∈ Finset.range f.size, x.getD i 0 * x.getD i 0 ≤
        ∑ i ∈ Finset.range f.size, x.getD i 0 * y i + ((1 + 8 * c) * tol + 50 * f.size * c * M ^ 2) := by
    intro hfl y hy
    have h3 := certified_gap hN hη hM0 (hgd tol (hdtol (htol hfl))) hu1 (by
      have h0 : 0 ≤ pointErr M η g := le_trans (by unfold greedyErr; positivity) hκ
      have h3 : (M + pointErr M η g) ^ 2 ≤ (2 * M) ^ 2 := pow_le_pow_left₀ (by linarith) (by linarith) 2
      have h4 : 2 * (f.size : ℚ) * (M + pointErr M η g) ^ 2 ≤ 2 * f.size * (2 * M) ^ 2 :=
        mul_le_mul_of_nonneg_left h3 (by positivity)
      have e : 2 * (f.size : ℚ) * (2 * M) ^ 2 = 8 * f.size * M ^ 2 := by ring
      linarith) hfv hf hφ hM h1 (h2 hfl) hy
    have h4 := (err_le (n := f.size) hc hc1 hN.nonneg hgc hM0 hη hηc (htol hfl)).2
    unfold Spec.inner at h3
    linarith
  refine ⟨hl, hgap, ?_⟩
  rcases h1 with h1 | h1
  · right
    have h5 := hρ
    obtain ⟨-, b, hb, hxb⟩ := h1
    refine ⟨⟨b, hb, fun i hi => (hxb i hi).trans h5⟩, fun hfl y hy => ?_⟩
    have h6 := gap_dist (ρ := 40 * c * M) (by positivity) hM hM0 ⟨hl, b, hb, fun i hi => (hxb i hi).trans h5⟩ hy
      (hgap hfl y hy.1)
    have e : (f.size : ℚ) * (M * (40 * c * M)) = 40 * f.size * c * M ^ 2 := by ring
    linarith
  · exact .inl h1

/-- For a functor on one element the value itself is returned. -/
theorem minNormBaseF_single {f : SF} {fuel : ℕ} (hf : f.size = 1) :
    minNormBaseF fl N f tol eps fuel = .ok ([f.val [0]], true) := by
  unfold minNormBaseF
  rw [if_neg (by omega), if_pos hf]

variable {E : List Arc} {n p : ℕ} {ai ao : List Arc → List Arc} {rel : ℕ → ℕ → Prop} {L : List (List ℕ)}

/-- The arithmetic of `min_norm_base` for up to `n` elements, with weights up to `W`: the errors are small, the absolute
ones also in comparison with `W`, the precision and the tolerance. -/
structure CloseUpTo (fl : ℚ → ℚ) (N : NumericsF) (c R W eps tol : ℚ) (n : ℕ) : Prop where
  close : ∀ j ≤ n, ∃ g u d, g ≤ 4 * c ∧ CloseNumerics fl N g u R j ∧ 0 ≤ d ∧ u ≤ 1 ∧ 4 * u ≤ g * d ∧ d ≤ eps ∧ d ≤ W ∧ d ≤ tol
  range : 8 * n * W ^ 2 + 4 * W + 1 ≤ R

/-- All the calls of `min_norm_base` in one call of `agglomerate` end by the test of optimality, none with the point of
the empty corral. -/
def AllCertified (fl : ℚ → ℚ) (N : NumericsF) (f : SF) (tol eps : ℚ) (fuel : ℕ) (L : List (List ℕ)) : Prop :=
  ∀ j, 1 ≤ j → j < L.length → ∃ x, minNormBaseF fl N (sfJoin (sfContractF fl f L) j) tol eps fuel = .ok (x, true) ∧
    (2 ≤ j → x ≠ List.replicate j 0)

theorem clustering_length_le (hL : IsClustering n rel L) : L.length ≤ n := by
  have hb := clustering_blocks hL
  have h1 := (clustering_partition hL).card_le
  rw [toPartition_eq, hb.card, Finset.card_range] at h1
  exact h1

/-- A call of `min_norm_base` that ends by the test of optimality, for any functor that is nearly precise. -/
theorem functor_call_close {f : SF} {φ : Finset ℕ → ℚ} {m : ℕ} {v W : ℚ} {fuel : ℕ} (hfl : Sums fl v M)
    (hf : NearFunctor fl f φ n m v W) (hφ : Intersecting (Finset.range n) φ) (hL : IsClustering n rel L) (hWM : 8 * W ≤ M)
    (hN : CloseUpTo fl N c R W eps tol n) (hc : c = 4 * (m + n + 2) * v) (hc1 : c ≤ 1 / 64)
    (htol : 0 ≤ tol) {j : ℕ} (hj1 : 1 ≤ j) (hj : j < L.length) {x : List ℚ}
    (hx : minNormBaseF fl N (sfJoin (sfContractF fl f L) j) tol eps fuel = .ok (x, true))
    (hne : 2 ≤ j → x ≠ List.replicate j 0) {y : ℕ → ℚ}
    (hy : IsMinNorm (Finset.range j) (joinFn φ (blockAt L) j) y) :
    x.length = j ∧ ∑ i ∈ Finset.range j, (x.getD i 0 - y i) ^ 2 ≤
      (1 + 8 * c) * tol + 90 * n * c * W ^ 2 := by
  have hv := hfl.nonneg
  have hLn := clustering_length_le hL
  have hb := clustering_blocks hL
  have hW0 : 0 ≤ W := (hf.nonneg ∅ (Finset.empty_subset _)).trans (hf.le ∅ (Finset.empty_subset _))
  obtain ⟨hnear', hfv'⟩ := functor_join_near hfl hf hWM hL hLn (by rw [hc] at hc1; linarith) hj
  have hnear : NearlyComputes _ _ (2 * c * W) := fun B h1 h2 => (hnear' B h1 h2).trans (le_of_eq (by rw [hc]; ring))
  set F := sfJoin (sfContractF fl f L) j with hF
  have hFs : F.size = j := rfl
  have hc0 : 0 ≤ c := by rw [hc]; positivity
  have hjn : (j : ℚ) ≤ n := by exact_mod_cast (hj.le.trans hLn)
  have hn1 : (1 : ℚ) ≤ n := by exact_mod_cast (hj1.trans (hj.le.trans hLn))
  have hcW : 0 ≤ c * W ^ 2 := by positivity
  rcases Nat.lt_or_ge j 2 with hj2 | hj2
  · have hj' : j = 1 := by omega
    rw [minNormBaseF_single (by rw [hFs, hj'])] at hx
    cases hx
    have h1 := hnear [0] (by simp) (by simp [hFs, hj'])
    have h2 := hy.1.1
    rw [joinFn_empty, sub_zero] at h2
    rw [hj'] at h1 h2 ⊢
    refine ⟨rfl, ?_⟩
    simp only [Finset.sum_range_one, List.getD_cons_zero, Finset.range_one, List.toFinset_cons, List.toFinset_nil,
      insert_empty_eq, Finset.sum_singleton] at h1 h2 ⊢
    rw [h2]
    have h3 := sq_le_sq' (abs_le.1 h1).1 (abs_le.1 h1).2
    have e : (2 * c * W) ^ 2 = 4 * c * (c * W ^ 2) := by ring
    have h4 : 4 * c * (c * W ^ 2) ≤ 90 * n * (c * W ^ 2) := mul_le_mul_of_nonneg_right (by linarith) hcW
    have h5 : 0 ≤ (1 + 8 * c) * tol := by positivity
    linarith
  · obtain ⟨g, u, d, hgc, hNj, hd0, hu1, hud, hd1, hd2, hd3⟩ := hN.close j (hj.le.trans hLn)
    have hrange := hN.range
    have hjW : 8 * (j : ℚ) * W ^ 2 ≤ 8 * n * W ^ 2 := mul_le_mul_of_nonneg_right (by linarith) (sq_nonneg W)
    have hn8 : 0 ≤ 8 * (n : ℚ) * W ^ 2 := by positivity
    obtain ⟨h1, -, h2⟩ := minNormBaseF_certificate (f := F) (M := W) hNj hc1 hgc le_rfl hd0 hu1 hud hd1 hd2
      (by rw [hFs]; linarith)
      (fun B k1 k2 => ⟨(hfv' B k1 k2).1, (hfv' B k1 k2).2.trans (by linarith)⟩) hnear
      (hb.joinFn_submodular hφ hj)
      (functor_joinFn_range hf hb hj) hj2 (fun _ => hd3) hx
    refine ⟨h1, ?_⟩
    rcases h2 with h2 | ⟨-, h2⟩
    · exact absurd h2 (hne hj2)
    · refine (h2 rfl y hy).trans ?_
      have : 90 * (j : ℚ) * (c * W ^ 2) ≤ 90 * n * (c * W ^ 2) := mul_le_mul_of_nonneg_right (by linarith) hcW
      rw [hFs]
      linarith

theorem call_close {v W : ℚ} {fuel : ℕ} (hfl : Sums fl v M) (hai : ∀ l, (ai l).Perm l) (hao : ∀ l, (ao l).Perm l)
    (hE : ∀ a ∈ E, a.src < a.dst) (h0 : NonnegE E) (hfix : ∀ a ∈ E, fl a.cap = a.cap) (hL : IsClustering n rel L)
    (hW : (E.map Arc.cap).sum ≤ W) (hWM : 8 * W ≤ M)
    (hN : CloseUpTo fl N c R W eps tol n) (hc : c = 4 * (E.length + n + 2) * v) (hc1 : c ≤ 1 / 64)
    (htol : 0 ≤ tol) {j : ℕ} (hj1 : 1 ≤ j) (hj : j < L.length) {x : List ℚ}
    (hx : minNormBaseF fl N (sfJoin (sfContractF fl (digraphEntropyF fl ai ao ⟨List.range n, E⟩) L) j) tol eps fuel =
      .ok (x, true)) (hne : 2 ≤ j → x ≠ List.replicate j 0) {y : ℕ → ℚ}
    (hy : IsMinNorm (Finset.range j) (joinFn (incident E) (blockAt L) j) y) :
    x.length = j ∧ ∑ i ∈ Finset.range j, (x.getD i 0 - y i) ^ 2 ≤
      (1 + 8 * c) * tol + 90 * n * c * W ^ 2 := by
  have hv := hfl.nonneg
  have hW0 : 0 ≤ W := ((incident_nonneg h0 ∅).trans (incident_le h0 ∅)).trans hW
  have hv' : (0 : ℚ) ≤ (n : ℚ) * v := mul_nonneg n.cast_nonneg hv
  exact functor_call_close hfl (digraph_nearFunctor hfl hai hao hE h0 hfix hW (by linarith) (by
    rw [hc] at hc1
    nlinarith)) (incident_intersecting h0 _) hL hWM hN hc hc1 htol hj1 hj hx hne hy

theorem bind_fst_ok {α β : Type} {o : Outcome (α × β)} {a : α} {b : β} (h : o = .ok (a, b)) :
    (do let r ← o; return r.1 : Outcome α) = .ok a := by
  rw [h]; rfl

/-- The critical value of one call of `agglomerate`, from the distances of the points to the minimum norm bases; `F` is the
contracted function as computed. -/
theorem gamma_of_points {mnb : SF → Outcome (List ℚ)} {F : SF} {δ : ℚ} (hE : ∀ a ∈ E, a.src < a.dst ∧ a.dst < n)
    (h0 : NonnegE E) (hL : IsClustering n rel L) (hk : 2 ≤ L.length)
    (hcall : ∀ j, 1 ≤ j → j < L.length → ∀ y, IsMinNorm (Finset.range j) (joinFn (incident E) (blockAt L) j) y →
      ∃ x, mnb (sfJoin F j) = .ok x ∧ x.length = j ∧ ∑ i ∈ Finset.range j, (x.getD i 0 - y i) ^ 2 ≤ δ) :
    ∃ (xs : List (List ℚ)) (gc gam : ℚ), aicPoints mnb F ((List.range L.length).drop 1) = .ok xs ∧
      aicGamma xs = ((gc : ℚ) : WithBot ℚ) ∧ IsMergeValue E (Finset.range n) (toPartition L) gam ∧
      (gc - gam) ^ 2 ≤ δ := by
  have hb := clustering_blocks hL
  have hh := incident_intersecting h0 (Finset.range n)
  set C := blockAt L with hC
  set k := L.length with hkdef
  have hex : ∀ j, ∃ y, j < k → IsMinNorm (Finset.range j) (joinFn (incident E) C j) y := by
    intro j
    by_cases hj : j < k
    · obtain ⟨y, hy⟩ := exists_minNorm (hb.joinFn_submodular hh hj)
      exact ⟨y, fun _ => hy⟩
    · exact ⟨fun _ => 0, fun h => absurd h hj⟩
  choose y hy using hex
  have hpts : ∀ j ∈ (List.range k).drop 1, ∃ x, mnb (sfJoin F j) = .ok x ∧
      (x.length = j ∧ ∑ i ∈ Finset.range j, (x.getD i 0 - y j i) ^ 2 ≤ δ) := by
    intro j hj
    have hjk : 1 ≤ j ∧ j < k := by
      rw [List.range_eq_range', List.drop_range', List.mem_range'_1] at hj
      omega
    exact hcall j hjk.1 hjk.2 _ (hy j hjk.2)
  obtain ⟨xs, hxs, hall⟩ := aicPoints_spec _ hpts
  have hxslen : xs.length = k - 1 := by
    rw [← hall.length_eq]; simp
  have hget : ∀ j, 1 ≤ j → j < k → (xs.getD (j - 1) []).length = j ∧
      ∑ i ∈ Finset.range j, ((xs.getD (j - 1) []).getD i 0 - y j i) ^ 2 ≤ δ := by
    intro j hj1 hjk
    have hlt : j - 1 < xs.length := by omega
    have hlt' : j - 1 < ((List.range k).drop 1).length := by simp; omega
    have := List.forall₂_iff_get.1 hall |>.2 (j - 1) hlt' hlt
    simp only [List.get_eq_getElem, List.getElem_drop, List.getElem_range] at this
    have e : 1 + (j - 1) = j := by omega
    rw [e] at this
    rw [List.getD_eq_getElem _ _ hlt]
    exact this
  -- the exact value
  have hpairs : (((Finset.range k) ×ˢ (Finset.range k)).filter fun p => p.2 < p.1).Nonempty :=
    ⟨(1, 0), by simp; omega⟩
  obtain ⟨⟨j0, i0⟩, hji0, hmin⟩ := Finset.exists_min_image _ (fun p => y p.1 p.2) hpairs
  simp only [Finset.mem_filter, Finset.mem_product, Finset.mem_range] at hji0 hmin
  have hbound : ∀ j i, j < k → i < j → -(-(y j0 i0)) ≤ y j i := by
    intro j i hj hi
    rw [neg_neg]
    exact hmin (j, i) ⟨⟨hj, hi.trans hj⟩, hi⟩
  have hround : Round (incident E) k C y (-(y j0 i0)) :=
    ⟨fun j _ h2 => hy j h2, hbound, j0, i0, hji0.1.1, hji0.2, by rw [neg_neg]⟩
  obtain ⟨gc, hgc', -, -⟩ := aicGamma_spec (xs := xs) (by
    intro h; rw [h] at hxslen; simp at hxslen; omega)
  refine ⟨xs, gc, -(y j0 i0), hxs, hgc', ?_, ?_⟩
  · intro lam
    have hW : Within E (Finset.range n) := fun e he => by
      have := hE e he
      constructor <;> rw [Finset.mem_range] <;> omega
    have hcost : ∀ Q, IsPartition (Finset.range n) Q → costSF (incident E) lam Q = (E.map Arc.cap).sum + cost E lam Q := by
      intro Q hQ
      rw [costSF_eq, sum_incident hW hQ]
      unfold cost
      ring
    rw [hround.mergeValue hb hh lam, toPartition_eq]
    constructor
    · intro H Q hQ hPQ
      have := H Q hQ hPQ
      rw [hcost _ hb.partition, hcost _ hQ] at this
      linarith
    · intro H Q hQ hPQ
      have := H Q hQ hPQ
      rw [hcost _ hb.partition, hcost _ hQ]
      linarith
  · refine gamma_close (y := y) (by omega) hxslen (fun j h1 h2 => (hget j h1 h2).1) ?_ hbound
      ⟨j0, i0, hji0.1.1, hji0.2, by rw [neg_neg]⟩ hgc'
    intro j i h1 h2 hi
    refine le_trans ?_ (hget j h1 h2).2
    exact Finset.single_le_sum (f := fun i => ((xs.getD (j - 1) []).getD i 0 - y j i) ^ 2)
      (fun i _ => sq_nonneg _) (Finset.mem_range.2 hi)

/-- The critical value of one call of `agglomerate`. -/
theorem agglomerateF_gamma {v W : ℚ} {fuel : ℕ} (hfl : Sums fl v M) (hai : ∀ l, (ai l).Perm l)
    (hao : ∀ l, (ao l).Perm l) (hE : ∀ a ∈ E, a.src < a.dst ∧ a.dst < n) (h0 : NonnegE E)
    (hfix : ∀ a ∈ E, fl a.cap = a.cap) {hcl : HC} (hP : hcl.getPartition ⊥ = .ok L) (hL : IsClustering n rel L)
    (hk : 2 ≤ L.length) (hW : (E.map Arc.cap).sum ≤ W) (hWM : 8 * W ≤ M) (hN : CloseUpTo fl N c R W eps tol n)
    (hc : c = 4 * (E.length + n + 2) * v) (hc1 : c ≤ 1 / 64) (htol : 0 ≤ tol)
    (hcert : AllCertified fl N (digraphEntropyF fl ai ao ⟨List.range n, E⟩) tol eps fuel L) :
    ∃ (gc gam : ℚ) (cs : List Link),
      agglomerateF fl (mnbOfF fl N tol eps fuel) (digraphEntropyF fl ai ao ⟨List.range n, E⟩) tol hcl =
        (do let h' ← hcl.mergeAll cs; return (h', true)) ∧
      (∀ l ∈ cs, l.val = gc) ∧ IsMergeValue E (Finset.range n) (toPartition L) gam ∧
      (gc - gam) ^ 2 ≤ (1 + 8 * c) * tol + 90 * n * c * W ^ 2 := by
  set f := digraphEntropyF fl ai ao ⟨List.range n, E⟩ with hf
  obtain ⟨xs, gc, gam, hxs, hgc, hgam, hclose⟩ := gamma_of_points (mnb := mnbOfF fl N tol eps fuel)
    (F := sfContractF fl f L) (δ := (1 + 8 * c) * tol + 90 * n * c * W ^ 2) hE h0 hL hk (by
    intro j h1 h2 y hy
    obtain ⟨x, hx, hne⟩ := hcert j h1 h2
    exact ⟨x, bind_fst_ok hx, call_close hfl hai hao (fun a ha => (hE a ha).1) h0 hfix hL hW hWM hN hc hc1 htol h1 h2
      hx hne hy⟩)
  refine ⟨gc, gam, aicMergesF fl L xs tol gc, ?_, ?_, hgam, hclose⟩
  · unfold agglomerateF
    rw [hP]
    simp only [Outcome.ok_bind]
    rw [if_neg (by omega), hxs]
    simp only [Outcome.ok_bind]
    rw [hgc]
  · intro l hl
    unfold aicMergesF at hl
    obtain ⟨j, -, hl⟩ := List.mem_flatMap.1 hl
    obtain ⟨i, -, hl⟩ := List.mem_filterMap.1 hl
    split at hl
    · cases hl; rfl
    · cases hl

end PSP.Theory
