import Mathlib.Logic.Relation
import Verif.Theory.SFSeq
import Verif.Theory.Greedy

/-!
# One round of agglomeration

`C 0, …, C (k-1)` are the blocks of the current partition.  From the minimum norm bases of the
functions `S ↦ h(⋃_{S ∪ {j}} C) - ∑ h(C)` one obtains the next critical value and the next partition.
-/

namespace PSP.Theory

open PSP.Model PSP.Spec
open Relation (EqvGen)

variable {h : Finset ℕ → ℚ} {V : Finset ℕ} {k : ℕ} {C : ℕ → Finset ℕ}

/-- The sets `C 0, …, C (k-1)` partition `V`. -/
structure Blocks (V : Finset ℕ) (k : ℕ) (C : ℕ → Finset ℕ) : Prop where
  nonempty : ∀ i, i < k → (C i).Nonempty
  disjoint : ∀ i j v, i < k → j < k → v ∈ C i → v ∈ C j → i = j
  all : ∀ v, v ∈ V ↔ ∃ i, i < k ∧ v ∈ C i

/-- The partition formed by the blocks. -/
def blockSet (k : ℕ) (C : ℕ → Finset ℕ) : Finset (Finset ℕ) := (Finset.range k).image C

/-- Price of merging the blocks with indices in `T`. -/
def price (h : Finset ℕ → ℚ) (C : ℕ → Finset ℕ) (lam : ℚ) (T : Finset ℕ) : ℚ :=
  h (T.biUnion C) - ∑ i ∈ T, h (C i) + lam * (T.card - 1)

/-- Indices of the blocks inside `B`. -/
def inside (k : ℕ) (C : ℕ → Finset ℕ) (B : Finset ℕ) : Finset ℕ :=
  (Finset.range k).filter fun i => C i ⊆ B

theorem Blocks.inj (hb : Blocks V k C) {i j : ℕ} (hi : i < k) (hj : j < k) (he : C i = C j) :
    i = j := by
  obtain ⟨v, hv⟩ := hb.nonempty i hi
  exact hb.disjoint i j v hi hj hv (he ▸ hv)

theorem Blocks.subset (hb : Blocks V k C) {i : ℕ} (hi : i < k) : C i ⊆ V :=
  fun v hv => (hb.all v).2 ⟨i, hi, hv⟩

theorem Blocks.partition (hb : Blocks V k C) : IsPartition V (blockSet k C) := by
  rw [isPartition_iff]
  refine ⟨?_, ?_, ?_⟩
  · intro B hB
    obtain ⟨i, hi, rfl⟩ := Finset.mem_image.1 hB
    rw [Finset.mem_range] at hi
    exact ⟨hb.nonempty i hi, hb.subset hi⟩
  · intro v hv
    obtain ⟨i, hi, hvi⟩ := (hb.all v).1 hv
    exact ⟨C i, Finset.mem_image_of_mem _ (Finset.mem_range.2 hi), hvi⟩
  · intro B hB D hD v hvB hvD
    obtain ⟨i, hi, rfl⟩ := Finset.mem_image.1 hB
    obtain ⟨j, hj, rfl⟩ := Finset.mem_image.1 hD
    rw [Finset.mem_range] at hi hj
    rw [hb.disjoint i j v hi hj hvB hvD]

theorem same_blockSet {u v : ℕ} :
    Same (blockSet k C) u v ↔ ∃ i, i < k ∧ u ∈ C i ∧ v ∈ C i := by
  unfold Same blockSet
  simp

theorem Blocks.card (hb : Blocks V k C) : (blockSet k C).card = k := by
  unfold blockSet
  rw [Finset.card_image_of_injOn, Finset.card_range]
  intro i hi j hj he
  exact hb.inj (Finset.mem_range.1 hi) (Finset.mem_range.1 hj) he

theorem Blocks.biUnion_subset (hb : Blocks V k C) {T : Finset ℕ} (hT : T ⊆ Finset.range k) :
    T.biUnion C ⊆ V := by
  intro v hv
  obtain ⟨i, hi, hvi⟩ := Finset.mem_biUnion.1 hv
  exact hb.subset (Finset.mem_range.1 (hT hi)) hvi

theorem mem_inside {B : Finset ℕ} {i : ℕ} : i ∈ inside k C B ↔ i < k ∧ C i ⊆ B := by
  simp [inside]

theorem Blocks.biUnion_inside (hb : Blocks V k C) {R : Finset (Finset ℕ)} (hR : IsPartition V R)
    (hPR : Refines (blockSet k C) R) {B : Finset ℕ} (hB : B ∈ R) :
    (inside k C B).biUnion C = B := by
  ext v
  rw [Finset.mem_biUnion]
  constructor
  · rintro ⟨i, hi, hv⟩
    exact (mem_inside.1 hi).2 hv
  · intro hv
    obtain ⟨i, hi, hvi⟩ := (hb.all v).1 (hR.subset hB hv)
    obtain ⟨D, hD, hCD⟩ := hPR (C i) (Finset.mem_image_of_mem _ (Finset.mem_range.2 hi))
    have := hR.eq_of_mem hD hB (hCD hvi) hv
    subst this
    exact ⟨i, mem_inside.2 ⟨hi, hCD⟩, hvi⟩

theorem Blocks.inside_nonempty (hb : Blocks V k C) {R : Finset (Finset ℕ)} (hR : IsPartition V R)
    (hPR : Refines (blockSet k C) R) {B : Finset ℕ} (hB : B ∈ R) : (inside k C B).Nonempty := by
  obtain ⟨v, hv⟩ := hR.nonempty hB
  rw [← hb.biUnion_inside hR hPR hB] at hv
  obtain ⟨i, hi, -⟩ := Finset.mem_biUnion.1 hv
  exact ⟨i, hi⟩

/-- The cost of a coarser partition is the cost of the blocks plus the prices. -/
theorem Blocks.cost_coarser (hb : Blocks V k C) {R : Finset (Finset ℕ)} (hR : IsPartition V R)
    (hPR : Refines (blockSet k C) R) (lam : ℚ) :
    costSF h lam R = costSF h lam (blockSet k C) + ∑ B ∈ R, price h C lam (inside k C B) := by
  have hun : (Finset.range k) = R.biUnion fun B => inside k C B := by
    ext i
    simp only [Finset.mem_range, Finset.mem_biUnion, mem_inside]
    constructor
    · intro hi
      obtain ⟨D, hD, hCD⟩ := hPR (C i) (Finset.mem_image_of_mem _ (Finset.mem_range.2 hi))
      exact ⟨D, hD, hi, hCD⟩
    · rintro ⟨D, -, hi, -⟩; exact hi
  have hdis : (R : Set (Finset ℕ)).PairwiseDisjoint fun B => inside k C B := by
    intro B hB D hD hne
    rw [Function.onFun, Finset.disjoint_left]
    intro i hi hi'
    obtain ⟨hik, h1⟩ := mem_inside.1 hi
    obtain ⟨-, h2⟩ := mem_inside.1 hi'
    obtain ⟨v, hv⟩ := hb.nonempty i hik
    exact hne (hR.eq_of_mem hB hD (h1 hv) (h2 hv))
  have h1 : costSF h lam (blockSet k C) = ∑ i ∈ Finset.range k, (h (C i) - lam) := by
    unfold costSF blockSet
    rw [Finset.sum_image]
    intro i hi j hj he
    exact hb.inj (Finset.mem_range.1 hi) (Finset.mem_range.1 hj) he
  rw [h1, hun, Finset.sum_biUnion hdis, ← Finset.sum_add_distrib]
  unfold costSF
  refine Finset.sum_congr rfl fun B hB => ?_
  unfold price
  rw [hb.biUnion_inside hR hPR hB, Finset.sum_sub_distrib, Finset.sum_const, nsmul_eq_mul]
  ring

theorem price_single (lam : ℚ) (i : ℕ) : price h C lam {i} = 0 := by
  unfold price; simp

theorem Blocks.biUnion_inter (hb : Blocks V k C) {S T : Finset ℕ} (hS : S ⊆ Finset.range k)
    (hT : T ⊆ Finset.range k) : S.biUnion C ∩ T.biUnion C = (S ∩ T).biUnion C := by
  ext v
  simp only [Finset.mem_inter, Finset.mem_biUnion]
  constructor
  · rintro ⟨⟨i, hi, hvi⟩, j, hj, hvj⟩
    have := hb.disjoint i j v (Finset.mem_range.1 (hS hi)) (Finset.mem_range.1 (hT hj)) hvi hvj
    subst this
    exact ⟨i, ⟨hi, hj⟩, hvi⟩
  · rintro ⟨i, ⟨hi, hj⟩, hvi⟩
    exact ⟨⟨i, hi, hvi⟩, i, hj, hvi⟩

/-- Prices are submodular on intersecting sets. -/
theorem Blocks.price_submodular (hb : Blocks V k C) (hh : Intersecting V h) (lam : ℚ)
    {S T : Finset ℕ} (hS : S ⊆ Finset.range k) (hT : T ⊆ Finset.range k) (hne : (S ∩ T).Nonempty) :
    price h C lam (S ∪ T) + price h C lam (S ∩ T) ≤ price h C lam S + price h C lam T := by
  have h1 : ((S.biUnion C) ∩ (T.biUnion C)).Nonempty := by
    rw [hb.biUnion_inter hS hT]
    obtain ⟨i, hi⟩ := hne
    obtain ⟨v, hv⟩ := hb.nonempty i (Finset.mem_range.1 (hS (Finset.mem_inter.1 hi).1))
    exact ⟨v, Finset.mem_biUnion.2 ⟨i, hi, hv⟩⟩
  have h2 := hh _ _ (hb.biUnion_subset hS) (hb.biUnion_subset hT) h1
  rw [hb.biUnion_inter hS hT, ← Finset.union_biUnion] at h2
  have h3 := Finset.sum_union_inter (s₁ := S) (s₂ := T) (f := fun i => h (C i))
  have h4 : ((S ∪ T).card : ℚ) + (S ∩ T).card = S.card + T.card := by
    exact_mod_cast Finset.card_union_add_card_inter S T
  unfold price
  have h5 : lam * ((S ∪ T).card : ℚ) + lam * (S ∩ T).card = lam * S.card + lam * T.card := by
    rw [← mul_add, h4, mul_add]
  linarith

/-- The function whose minimum norm base is computed for index `j`. -/
def joinFn (h : Finset ℕ → ℚ) (C : ℕ → Finset ℕ) (j : ℕ) (S : Finset ℕ) : ℚ :=
  h ((insert j S).biUnion C) - ∑ i ∈ insert j S, h (C i)

theorem joinFn_empty (j : ℕ) : joinFn h C j ∅ = 0 := by unfold joinFn; simp

theorem joinFn_price {j : ℕ} {S : Finset ℕ} (hS : S ⊆ Finset.range j) (lam : ℚ) :
    price h C lam (insert j S) = joinFn h C j S + lam * S.card := by
  have : j ∉ S := fun hj => absurd (Finset.mem_range.1 (hS hj)) (lt_irrefl _)
  unfold price joinFn
  rw [Finset.card_insert_of_notMem this]
  push_cast; ring

theorem insert_subset_range {j : ℕ} (hj : j < k) {S : Finset ℕ} (hS : S ⊆ Finset.range j) :
    insert j S ⊆ Finset.range k := by
  intro i hi
  rcases Finset.mem_insert.1 hi with rfl | hi
  · exact Finset.mem_range.2 hj
  · exact Finset.mem_range.2 ((Finset.mem_range.1 (hS hi)).trans hj)

theorem Blocks.joinFn_submodular (hb : Blocks V k C) (hh : Intersecting V h) {j : ℕ} (hj : j < k) :
    Submodular (Finset.range j) (joinFn h C j) := by
  intro S T hS hT
  have hun : insert j (S ∪ T) = insert j S ∪ insert j T := by
    ext v; simp only [Finset.mem_insert, Finset.mem_union]; tauto
  have hin : insert j (S ∩ T) = insert j S ∩ insert j T := by
    ext v; simp only [Finset.mem_insert, Finset.mem_inter]; tauto
  have := hb.price_submodular hh 0 (insert_subset_range hj hS) (insert_subset_range hj hT)
    ⟨j, Finset.mem_inter.2 ⟨by simp, by simp⟩⟩
  rw [← hun, ← hin] at this
  rw [joinFn_price (Finset.union_subset hS hT), joinFn_price hS, joinFn_price hT,
    joinFn_price (Finset.inter_subset_left.trans hS)] at this
  simpa using this

/-- What one round starts from: minimum norm bases, and the next critical value `gam`. -/
structure Round (h : Finset ℕ → ℚ) (k : ℕ) (C : ℕ → Finset ℕ) (x : ℕ → ℕ → ℚ) (gam : ℚ) :
    Prop where
  base : ∀ j, 1 ≤ j → j < k → IsMinNorm (Finset.range j) (joinFn h C j) (x j)
  bound : ∀ j i, j < k → i < j → -gam ≤ x j i
  attained : ∃ j i, j < k ∧ i < j ∧ x j i = -gam

variable {x : ℕ → ℕ → ℚ} {gam : ℚ}

/-- Split a nonempty index set at its largest element. -/
theorem exists_insert {T : Finset ℕ} (hT : T ⊆ Finset.range k) (hne : T.Nonempty) :
    ∃ j S, j < k ∧ S ⊆ Finset.range j ∧ T = insert j S := by
  refine ⟨T.max' hne, T.erase (T.max' hne), Finset.mem_range.1 (hT (T.max'_mem hne)), ?_,
    (Finset.insert_erase (T.max'_mem hne)).symm⟩
  intro i hi
  obtain ⟨h1, h2⟩ := Finset.mem_erase.1 hi
  exact Finset.mem_range.2 (lt_of_le_of_ne (T.le_max' i h2) h1)

theorem Round.sum_ge (hr : Round h k C x gam) {j : ℕ} (hj : j < k) {S : Finset ℕ}
    (hS : S ⊆ Finset.range j) : 0 ≤ ∑ i ∈ S, (x j i + gam) :=
  Finset.sum_nonneg fun i hi => by
    have := hr.bound j i hj (Finset.mem_range.1 (hS hi)); linarith

theorem Round.price_ge (hr : Round h k C x gam) {j : ℕ} (hj : j < k) {S : Finset ℕ}
    (hS : S ⊆ Finset.range j) : ∑ i ∈ S, (x j i + gam) ≤ price h C gam (insert j S) := by
  rw [joinFn_price hS, Finset.sum_add_distrib, Finset.sum_const, nsmul_eq_mul, mul_comm]
  by_cases h0 : S = ∅
  · subst h0; simp [joinFn_empty]
  · obtain ⟨i, hi⟩ := Finset.nonempty_iff_ne_empty.2 h0
    have hj1 : 1 ≤ j := by
      have := Finset.mem_range.1 (hS hi); omega
    have := (hr.base j hj1 hj).1.2 S hS
    rw [joinFn_empty, sub_zero] at this
    linarith

/-- At the critical value no merge pays off. -/
theorem Round.price_nonneg (hr : Round h k C x gam) {T : Finset ℕ} (hT : T ⊆ Finset.range k)
    (hne : T.Nonempty) : 0 ≤ price h C gam T := by
  obtain ⟨j, S, hj, hS, rfl⟩ := exists_insert hT hne
  exact (hr.sum_ge hj hS).trans (hr.price_ge hj hS)

/-- If a merge is free at the critical value, all its blocks are linked to the last one. -/
theorem Round.linked_of_free (hr : Round h k C x gam) {j : ℕ} (hj : j < k) {S : Finset ℕ}
    (hS : S ⊆ Finset.range j) (hp : price h C gam (insert j S) = 0) :
    ∀ i ∈ S, x j i = -gam := by
  have h1 := hr.price_ge hj hS
  rw [hp] at h1
  have h2 := le_antisymm h1 (hr.sum_ge hj hS)
  intro i hi
  have := (Finset.sum_eq_zero_iff_of_nonneg (fun i hi => by
    have := hr.bound j i hj (Finset.mem_range.1 (hS hi)); linarith)).1 h2 i hi
  linarith

/-- Merging `j` with all blocks linked to it is free. -/
theorem Round.free_level (hr : Round h k C x gam) (hb : Blocks V k C) (hh : Intersecting V h)
    {j : ℕ} (hj : j < k) :
    price h C gam (insert j ((Finset.range j).filter fun i => x j i = -gam)) = 0 := by
  rcases Nat.eq_zero_or_pos j with rfl | hj1
  · simp [price]
  have hS : (Finset.range j).filter (fun i => x j i = -gam) ⊆ Finset.range j :=
    Finset.filter_subset _ _
  rw [joinFn_price hS]
  have hl := level_tight (hb.joinFn_submodular hh hj) (hr.base j hj1 hj) (-gam)
  have he : (Finset.range j).filter (fun i => x j i ≤ -gam) =
      (Finset.range j).filter fun i => x j i = -gam := by
    ext i
    simp only [Finset.mem_filter, Finset.mem_range]
    constructor
    · rintro ⟨h1, h2⟩; exact ⟨h1, le_antisymm h2 (hr.bound j i hj h1)⟩
    · rintro ⟨h1, h2⟩; exact ⟨h1, h2.le⟩
  rw [he, joinFn_empty, sub_zero,
    Finset.sum_congr rfl fun i hi => (Finset.mem_filter.1 hi).2, Finset.sum_const,
    nsmul_eq_mul] at hl
  rw [← hl]; ring

/-- `u` and `v` lie in a union of blocks that can be merged for free. -/
def FreeJoin (h : Finset ℕ → ℚ) (k : ℕ) (C : ℕ → Finset ℕ) (gam : ℚ) (u v : ℕ) : Prop :=
  ∃ T, T ⊆ Finset.range k ∧ price h C gam T = 0 ∧ u ∈ T.biUnion C ∧ v ∈ T.biUnion C

theorem Round.free_union (hr : Round h k C x gam) (hb : Blocks V k C) (hh : Intersecting V h)
    {S T : Finset ℕ} (hS : S ⊆ Finset.range k) (hT : T ⊆ Finset.range k) (hne : (S ∩ T).Nonempty)
    (h1 : price h C gam S = 0) (h2 : price h C gam T = 0) : price h C gam (S ∪ T) = 0 := by
  have := hb.price_submodular hh gam hS hT hne
  have a := hr.price_nonneg (Finset.union_subset hS hT)
    (hne.mono (Finset.inter_subset_left.trans Finset.subset_union_left))
  have b := hr.price_nonneg (Finset.inter_subset_left.trans hS) hne
  linarith

theorem Round.freeJoin_trans (hr : Round h k C x gam) (hb : Blocks V k C) (hh : Intersecting V h)
    {u v w : ℕ} (h1 : FreeJoin h k C gam u v) (h2 : FreeJoin h k C gam v w) :
    FreeJoin h k C gam u w := by
  obtain ⟨S, hS, p1, hu, hv⟩ := h1
  obtain ⟨T, hT, p2, hv', hw⟩ := h2
  have hne : (S ∩ T).Nonempty := by
    have : v ∈ S.biUnion C ∩ T.biUnion C := Finset.mem_inter.2 ⟨hv, hv'⟩
    rw [hb.biUnion_inter hS hT] at this
    obtain ⟨i, hi, -⟩ := Finset.mem_biUnion.1 this
    exact ⟨i, hi⟩
  refine ⟨S ∪ T, Finset.union_subset hS hT, hr.free_union hb hh hS hT hne p1 p2, ?_, ?_⟩
  · rw [Finset.union_biUnion]; exact Finset.mem_union_left _ hu
  · rw [Finset.union_biUnion]; exact Finset.mem_union_right _ hw

/-- The relation generated by the merges of a round. -/
def RoundRel (k : ℕ) (C : ℕ → Finset ℕ) (x : ℕ → ℕ → ℚ) (gam : ℚ) : ℕ → ℕ → Prop :=
  EqvGen fun a b => (∃ i, i < k ∧ a ∈ C i ∧ b ∈ C i) ∨
    ∃ j i, j < k ∧ i < j ∧ x j i = -gam ∧ a ∈ C j ∧ b ∈ C i

theorem Round.rel_iff (hr : Round h k C x gam) (hb : Blocks V k C) (hh : Intersecting V h)
    {u v : ℕ} (hu : u ∈ V) : RoundRel k C x gam u v ↔ FreeJoin h k C gam u v := by
  have hself : ∀ w, w ∈ V → FreeJoin h k C gam w w := by
    intro w hw
    obtain ⟨i, hi, hwi⟩ := (hb.all w).1 hw
    exact ⟨{i}, by simpa using hi, price_single _ _, by simpa using hwi, by simpa using hwi⟩
  constructor
  · intro hrel
    have key : ∀ a b, RoundRel k C x gam a b → a = b ∨ FreeJoin h k C gam a b := by
      intro a b hab
      induction hab with
      | rel a b hab =>
        right
        rcases hab with ⟨i, hi, ha, hb'⟩ | ⟨j, i, hj, hi, hx, ha, hb'⟩
        · exact ⟨{i}, by simpa using hi, price_single _ _, by simpa using ha, by simpa using hb'⟩
        · refine ⟨_, insert_subset_range hj (Finset.filter_subset _ _), hr.free_level hb hh hj, ?_, ?_⟩
          · exact Finset.mem_biUnion.2 ⟨j, by simp, ha⟩
          · refine Finset.mem_biUnion.2 ⟨i, ?_, hb'⟩
            rw [Finset.mem_insert, Finset.mem_filter, Finset.mem_range]
            exact Or.inr ⟨hi, hx⟩
      | refl a => exact Or.inl rfl
      | symm a b _ ih =>
        rcases ih with rfl | ⟨T, h1, h2, h3, h4⟩
        · exact Or.inl rfl
        · exact Or.inr ⟨T, h1, h2, h4, h3⟩
      | trans a b c _ _ i1 i2 =>
        rcases i1 with rfl | i1
        · exact i2
        · rcases i2 with rfl | i2
          · exact Or.inr i1
          · exact Or.inr (hr.freeJoin_trans hb hh i1 i2)
    rcases key u v hrel with rfl | hk
    · exact hself u hu
    · exact hk
  · rintro ⟨T, hT, hp, huT, hvT⟩
    obtain ⟨a, ha, hua⟩ := Finset.mem_biUnion.1 huT
    obtain ⟨b, hb', hvb⟩ := Finset.mem_biUnion.1 hvT
    obtain ⟨j, S, hj, hS, rfl⟩ := exists_insert hT ⟨a, ha⟩
    have hlink := hr.linked_of_free hj hS hp
    obtain ⟨w, hw⟩ := hb.nonempty j hj
    have hto : ∀ a z, a ∈ insert j S → z ∈ C a → RoundRel k C x gam w z := by
      intro a z ha hz
      rcases Finset.mem_insert.1 ha with rfl | ha
      · exact EqvGen.rel _ _ (Or.inl ⟨a, hj, hw, hz⟩)
      · exact EqvGen.rel _ _ (Or.inr ⟨j, a, hj, Finset.mem_range.1 (hS ha), hlink a ha, hw, hz⟩)
    exact EqvGen.trans _ _ _ (EqvGen.symm _ _ (hto a u ha hua)) (hto b v hb' hvb)

/-- The blocks after the round: unions that can be merged for free. -/
theorem Round.free_block (hr : Round h k C x gam) (hb : Blocks V k C) (hh : Intersecting V h)
    {P' : Finset (Finset ℕ)} (hP' : IsPartition V P') (hPP' : Refines (blockSet k C) P')
    (hsame : ∀ u v, u ∈ V → v ∈ V → (Same P' u v ↔ FreeJoin h k C gam u v))
    {B : Finset ℕ} (hB : B ∈ P') : price h C gam (inside k C B) = 0 := by
  obtain ⟨i0, hi0⟩ := hb.inside_nonempty hP' hPP' hB
  obtain ⟨hi0k, hi0B⟩ := mem_inside.1 hi0
  obtain ⟨u, hu⟩ := hb.nonempty i0 hi0k
  have huB := hi0B hu
  have huV := hP'.subset hB huB
  -- every block of `B` lies with `i0` in a free set that stays inside `B`
  have step : ∀ l ∈ inside k C B, ∃ T, T ⊆ inside k C B ∧ price h C gam T = 0 ∧ i0 ∈ T ∧ l ∈ T := by
    intro l hl
    obtain ⟨hlk, hlB⟩ := mem_inside.1 hl
    obtain ⟨v, hv⟩ := hb.nonempty l hlk
    obtain ⟨T, hT, hp, huT, hvT⟩ := (hsame u v huV (hb.subset hlk hv)).1 ⟨B, hB, huB, hlB hv⟩
    refine ⟨T, ?_, hp, ?_, ?_⟩
    · intro t ht
      have htk := Finset.mem_range.1 (hT ht)
      refine mem_inside.2 ⟨htk, fun w hw => ?_⟩
      obtain ⟨D, hD, h1, h2⟩ := (hsame u w huV (hb.subset htk hw)).2
        ⟨T, hT, hp, huT, Finset.mem_biUnion.2 ⟨t, ht, hw⟩⟩
      rwa [hP'.eq_of_mem hB hD huB h1]
    · obtain ⟨t, ht, hut⟩ := Finset.mem_biUnion.1 huT
      rwa [hb.disjoint i0 t u hi0k (Finset.mem_range.1 (hT ht)) hu hut]
    · obtain ⟨t, ht, hvt⟩ := Finset.mem_biUnion.1 hvT
      rwa [hb.disjoint l t v hlk (Finset.mem_range.1 (hT ht)) hv hvt]
  have hin : inside k C B ⊆ Finset.range k := Finset.filter_subset _ _
  have grow : ∀ M, M ⊆ inside k C B →
      ∃ T, T ⊆ inside k C B ∧ price h C gam T = 0 ∧ i0 ∈ T ∧ M ⊆ T := by
    intro M
    induction M using Finset.induction_on with
    | empty => intro _; exact ⟨{i0}, by simpa using hi0, price_single _ _, by simp, by simp⟩
    | insert l M _ ih =>
      intro hM
      obtain ⟨T, h1, h2, h3, h4⟩ := ih fun y hy => hM (Finset.mem_insert_of_mem hy)
      obtain ⟨S, k1, k2, k3, k4⟩ := step l (hM (Finset.mem_insert_self _ _))
      refine ⟨S ∪ T, Finset.union_subset k1 h1, hr.free_union hb hh (k1.trans hin) (h1.trans hin)
        ⟨i0, Finset.mem_inter.2 ⟨k3, h3⟩⟩ k2 h2, Finset.mem_union_left _ k3, ?_⟩
      intro y hy
      rcases Finset.mem_insert.1 hy with rfl | hy
      · exact Finset.mem_union_left _ k4
      · exact Finset.mem_union_right _ (h4 hy)
  obtain ⟨T, h1, h2, -, h4⟩ := grow _ subset_rfl
  rwa [Finset.Subset.antisymm h1 h4] at h2

theorem exists_optimalSF (h : Finset ℕ → ℚ) (V : Finset ℕ) (lam : ℚ) :
    ∃ R, IsOptimalSF h V lam R := by
  classical
  have hne : (V.powerset.powerset.filter fun P => IsPartition V P).Nonempty := by
    refine ⟨singletons V, Finset.mem_filter.2 ⟨?_, isPartition_singletons V⟩⟩
    rw [Finset.mem_powerset]
    exact fun B hB => Finset.mem_powerset.2 ((isPartition_singletons V).subset hB)
  obtain ⟨P, hP, hmin⟩ := Finset.exists_min_image _ (costSF h lam) hne
  refine ⟨P, (Finset.mem_filter.1 hP).2, fun R hR => hmin R (Finset.mem_filter.2 ⟨?_, hR⟩)⟩
  rw [Finset.mem_powerset]
  exact fun B hB => Finset.mem_powerset.2 (hR.subset hB)

/-- One round: if the blocks refine everything that is optimal at the critical value, then both the
old and the new partition are optimal there, the new one is the coarsest such, and it is strictly
coarser. -/
theorem Round.step (hr : Round h k C x gam) (hb : Blocks V k C) (hh : Intersecting V h)
    (hcoarse : ∀ R, IsOptimalSF h V gam R → Refines (blockSet k C) R)
    {P' : Finset (Finset ℕ)} (hP' : IsPartition V P')
    (hsame : ∀ u v, u ∈ V → v ∈ V → (Same P' u v ↔ RoundRel k C x gam u v)) :
    IsOptimalSF h V gam (blockSet k C) ∧ IsOptimalSF h V gam P' ∧
      (∀ R, IsOptimalSF h V gam R → Refines R P') ∧ Refines (blockSet k C) P' ∧
      blockSet k C ≠ P' := by
  have hsame' : ∀ u v, u ∈ V → v ∈ V → (Same P' u v ↔ FreeJoin h k C gam u v) :=
    fun u v hu hv => (hsame u v hu hv).trans (hr.rel_iff hb hh hu)
  have hPp := hb.partition
  have hPP' : Refines (blockSet k C) P' := by
    apply refines_of_same hPp hP'
    intro u v huv
    obtain ⟨i, hi, h1, h2⟩ := same_blockSet.1 huv
    exact (hsame u v (hb.subset hi h1) (hb.subset hi h2)).2 (EqvGen.rel _ _ (Or.inl ⟨i, hi, h1, h2⟩))
  have hnn : ∀ R, IsPartition V R → Refines (blockSet k C) R → ∀ B ∈ R,
      0 ≤ price h C gam (inside k C B) := fun R hR hPR B hB =>
    hr.price_nonneg (Finset.filter_subset _ _) (hb.inside_nonempty hR hPR hB)
  obtain ⟨R0, hR0⟩ := exists_optimalSF h V gam
  have hopt : IsOptimalSF h V gam (blockSet k C) := by
    refine ⟨hPp, fun R hR => le_trans ?_ (hR0.2 R hR)⟩
    rw [hb.cost_coarser hR0.1 (hcoarse R0 hR0) gam]
    have := Finset.sum_nonneg (hnn R0 hR0.1 (hcoarse R0 hR0))
    linarith
  have hfree : ∀ R, IsOptimalSF h V gam R → ∀ B ∈ R, price h C gam (inside k C B) = 0 := by
    intro R hR
    have hPR := hcoarse R hR
    have h1 := hb.cost_coarser (h := h) hR.1 hPR gam
    have h2 := hR.2 _ hPp
    have h3 : ∑ B ∈ R, price h C gam (inside k C B) = 0 :=
      le_antisymm (by linarith) (Finset.sum_nonneg (hnn R hR.1 hPR))
    exact (Finset.sum_eq_zero_iff_of_nonneg (hnn R hR.1 hPR)).1 h3
  refine ⟨hopt, ⟨hP', fun R hR => ?_⟩, ?_, hPP', ?_⟩
  · rw [hb.cost_coarser hP' hPP' gam, Finset.sum_eq_zero fun B hB =>
      hr.free_block hb hh hP' hPP' hsame' hB, add_zero]
    exact hopt.2 R hR
  · intro R hR
    apply refines_of_same hR.1 hP'
    rintro u v ⟨B, hB, hu, hv⟩
    have hun := hb.biUnion_inside hR.1 (hcoarse R hR) hB
    refine (hsame' u v (hR.1.subset hB hu) (hR.1.subset hB hv)).2
      ⟨inside k C B, Finset.filter_subset _ _, hfree R hR B hB, ?_, ?_⟩
    · rw [hun]; exact hu
    · rw [hun]; exact hv
  · intro he
    obtain ⟨j, i, hj, hi, hx⟩ := hr.attained
    obtain ⟨a, ha⟩ := hb.nonempty j hj
    obtain ⟨b, hb'⟩ := hb.nonempty i (hi.trans hj)
    have h1 := (hsame a b (hb.subset hj ha) (hb.subset (hi.trans hj) hb')).2
      (EqvGen.rel _ _ (Or.inr ⟨j, i, hj, hi, hx, ha, hb'⟩))
    rw [← he] at h1
    obtain ⟨l, hl, h2, h3⟩ := same_blockSet.1 h1
    have e1 := hb.disjoint j l a hj hl ha h2
    have e2 := hb.disjoint i l b (hi.trans hj) hl hb' h3
    omega

/-- The critical values descend: if the blocks are the coarsest optimal partition at `g`, the next
critical value is smaller. -/
theorem Round.lt (hr : Round h k C x gam) (hb : Blocks V k C) (hh : Intersecting V h) {g : ℚ}
    (hopt : IsOptimalSF h V g (blockSet k C))
    (hmax : ∀ R, IsOptimalSF h V g R → Refines R (blockSet k C)) : gam < g := by
  obtain ⟨j, i, hj, hi, hx⟩ := hr.attained
  by_contra hle
  rw [not_lt] at hle
  set S := (Finset.range j).filter fun i => x j i = -gam with hS
  have hSj : S ⊆ Finset.range j := Finset.filter_subset _ _
  have hiS : i ∈ S := Finset.mem_filter.2 ⟨Finset.mem_range.2 hi, hx⟩
  have hfree := hr.free_level hb hh hj
  rw [← hS] at hfree
  set T := insert j S with hT
  have hTk : T ⊆ Finset.range k := insert_subset_range hj hSj
  -- merge `T`
  set U := T.biUnion C with hU
  have hUne : U.Nonempty := by
    obtain ⟨a, ha⟩ := hb.nonempty j hj
    exact ⟨a, Finset.mem_biUnion.2 ⟨j, by simp [hT], ha⟩⟩
  have hR := expand_isPartition' hb.partition hUne (hb.biUnion_subset hTk)
  have hPR := refines_expand (blockSet k C) U
  have hbig : bigBlock (blockSet k C) U = U := by
    apply Finset.Subset.antisymm _ subset_bigBlock
    intro v hv
    rcases mem_bigBlock.1 hv with hv | ⟨B, hB, hd, hvB⟩
    · exact hv
    · obtain ⟨l, hl, rfl⟩ := Finset.mem_image.1 hB
      obtain ⟨w, hw, hwU⟩ := Finset.not_disjoint_iff.1 hd
      obtain ⟨t, ht, hwt⟩ := Finset.mem_biUnion.1 hwU
      have := hb.disjoint l t w (Finset.mem_range.1 hl) (Finset.mem_range.1 (hTk ht)) hw hwt
      subst this
      exact Finset.mem_biUnion.2 ⟨l, ht, hvB⟩
  have hinsU : inside k C U = T := by
    ext l
    rw [mem_inside]
    constructor
    · rintro ⟨hl, hsub⟩
      obtain ⟨w, hw⟩ := hb.nonempty l hl
      obtain ⟨t, ht, hwt⟩ := Finset.mem_biUnion.1 (hsub hw)
      rwa [hb.disjoint l t w hl (Finset.mem_range.1 (hTk ht)) hw hwt]
    · intro hl
      exact ⟨Finset.mem_range.1 (hTk hl), fun w hw => Finset.mem_biUnion.2 ⟨l, hl, hw⟩⟩
  have hcost : costSF h g (PSP.Model.expand (blockSet k C) U) ≤ costSF h g (blockSet k C) := by
    rw [hb.cost_coarser hR hPR g]
    have : ∑ B ∈ PSP.Model.expand (blockSet k C) U, price h C g (inside k C B) ≤ 0 := by
      apply Finset.sum_nonpos
      intro B hB
      rcases mem_expand.1 hB with rfl | ⟨hB, -⟩
      · rw [hbig, hinsU, hT, joinFn_price hSj]
        rw [hT, joinFn_price hSj] at hfree
        have : (0 : ℚ) ≤ S.card := by positivity
        nlinarith
      · obtain ⟨l, hl, rfl⟩ := Finset.mem_image.1 hB
        rw [Finset.mem_range] at hl
        have : inside k C (C l) = {l} := by
          ext m
          rw [mem_inside, Finset.mem_singleton]
          constructor
          · rintro ⟨hm, hsub⟩
            obtain ⟨w, hw⟩ := hb.nonempty m hm
            exact hb.disjoint m l w hm hl hw (hsub hw)
          · rintro rfl; exact ⟨hl, subset_rfl⟩
        rw [this, price_single]
    linarith
  have hRopt : IsOptimalSF h V g (PSP.Model.expand (blockSet k C) U) :=
    ⟨hR, fun Q hQ => hcost.trans (hopt.2 Q hQ)⟩
  have hUmem : U ∈ PSP.Model.expand (blockSet k C) U := mem_expand.2 (Or.inl hbig.symm)
  obtain ⟨D, hD, hUD⟩ := hmax _ hRopt U hUmem
  obtain ⟨l, hl, rfl⟩ := Finset.mem_image.1 hD
  rw [Finset.mem_range] at hl
  obtain ⟨a, ha⟩ := hb.nonempty j hj
  obtain ⟨b, hb'⟩ := hb.nonempty i (hi.trans hj)
  have e1 := hb.disjoint j l a hj hl ha (hUD (Finset.mem_biUnion.2 ⟨j, by simp [hT], ha⟩))
  have e2 := hb.disjoint i l b (hi.trans hj) hl hb'
    (hUD (Finset.mem_biUnion.2 ⟨i, by simp [hT, hiS], hb'⟩))
  omega

end PSP.Theory
