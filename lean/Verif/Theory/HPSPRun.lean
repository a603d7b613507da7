import Verif.Theory.HPSPTree
import Verif.Theory.PSPIRun

/-!
# Correctness of `HPSP::psp_construct` and `HPSP::run`
-/

namespace PSP.Theory

open PSP.Spec PSP.Model

variable {E : List Arc} {V : Finset ℕ} {P Q : Partition} {D : DMap} {st : HState} {K : ℕ → ℕ} {n : ℕ}

/-- The map `D` holds the blocks of `P` with more than one element, under their least element. -/
structure DEnc (P : Partition) (D : DMap) : Prop where
  block : ∀ B ∈ P, (D (firstElem B) = none ∧ B = {firstElem B}) ∨
    ∃ L, D (firstElem B) = some L ∧ L.toFinset = B
  other : ∀ r, (∀ B ∈ P, firstElem B ≠ r) → D r = none

theorem IsPartition.eq_of_firstElem (hP : IsPartition V P) {A B : Finset ℕ} (hA : A ∈ P) (hB : B ∈ P)
    (h : firstElem A = firstElem B) : A = B :=
  hP.eq_of_mem hA hB (firstElem_mem (hP.nonempty hA)) (h ▸ firstElem_mem (hP.nonempty hB))

theorem mergePartition_eq (hP : IsPartition (Finset.range n) P) (h : DEnc P D) :
    mergePartition n D = P := by
  unfold mergePartition
  simp only
  set lists := ((List.range n).filter fun k => (D k).isSome).map fun k => (D k).getD [] with hl
  have hlists : ∀ L, L ∈ lists ↔ ∃ B ∈ P, D (firstElem B) = some L := by
    intro L
    rw [hl, List.mem_map]
    constructor
    · rintro ⟨k, hk, rfl⟩
      rw [List.mem_filter] at hk
      by_cases hB : ∃ B ∈ P, firstElem B = k
      · obtain ⟨B, hB, rfl⟩ := hB
        refine ⟨B, hB, ?_⟩
        obtain ⟨L, hL⟩ := Option.isSome_iff_exists.1 hk.2
        rw [hL]; rfl
      · push Not at hB
        rw [h.other k hB] at hk
        simp at hk
    · rintro ⟨B, hB, hL⟩
      refine ⟨firstElem B, List.mem_filter.2 ⟨?_, by rw [hL]; rfl⟩, by rw [hL]; rfl⟩
      have := hP.subset hB (firstElem_mem (hP.nonempty hB))
      simpa using this
  set total : CSet := lists.flatten.toFinset with ht
  have htotal : ∀ v, v ∈ total ↔ ∃ B ∈ P, v ∈ B ∧ (D (firstElem B)).isSome := by
    intro v
    rw [ht, List.mem_toFinset, List.mem_flatten]
    constructor
    · rintro ⟨L, hL, hv⟩
      obtain ⟨B, hB, hD⟩ := (hlists L).1 hL
      refine ⟨B, hB, ?_, by rw [hD]; rfl⟩
      rcases h.block B hB with ⟨h1, _⟩ | ⟨L', h1, h2⟩
      · rw [h1] at hD; cases hD
      · rw [h1, Option.some.injEq] at hD
        rw [← h2, hD]; exact List.mem_toFinset.2 hv
    · rintro ⟨B, hB, hv, hs⟩
      rcases h.block B hB with ⟨h1, _⟩ | ⟨L, h1, h2⟩
      · rw [h1] at hs; simp at hs
      · exact ⟨L, (hlists L).2 ⟨B, hB, h1⟩, by rw [← h2] at hv; exact List.mem_toFinset.1 hv⟩
  have htsub : total ⊆ Finset.range n := by
    intro v hv
    obtain ⟨B, hB, hvB, _⟩ := (htotal v).1 hv
    exact hP.subset hB hvB
  have hsing : (if total.card < n then (makeDense n \ total).image fun v => ({v} : Finset ℕ) else ∅) =
      (Finset.range n \ total).image fun v => {v} := by
    split
    · rfl
    · rename_i hc
      have : total = Finset.range n := Finset.eq_of_subset_of_card_le htsub (by
        rw [Finset.card_range]; omega)
      rw [this]; simp
  rw [hsing]
  ext A
  rw [Finset.mem_union, List.mem_toFinset, List.mem_map, Finset.mem_image]
  constructor
  · rintro (⟨L, hL, rfl⟩ | ⟨v, hv, rfl⟩)
    · obtain ⟨B, hB, hD⟩ := (hlists L).1 hL
      rcases h.block B hB with ⟨h1, _⟩ | ⟨L', h1, h2⟩
      · rw [h1] at hD; cases hD
      · rw [h1, Option.some.injEq] at hD
        rw [← hD, h2]; exact hB
    · rw [Finset.mem_sdiff] at hv
      obtain ⟨B, hB, hvB⟩ := hP.exists_block hv.1
      rcases h.block B hB with ⟨h1, h2⟩ | ⟨L, h1, _⟩
      · rw [h2, Finset.mem_singleton] at hvB
        rw [hvB, ← h2]; exact hB
      · exact absurd ((htotal v).2 ⟨B, hB, hvB, by rw [h1]; rfl⟩) hv.2
  · intro hA
    rcases h.block A hA with ⟨h1, h2⟩ | ⟨L, h1, h2⟩
    · right
      refine ⟨firstElem A, Finset.mem_sdiff.2 ⟨hP.subset hA (firstElem_mem (hP.nonempty hA)), ?_⟩,
        h2.symm⟩
      intro hm
      obtain ⟨B, hB, hv, hs⟩ := (htotal _).1 hm
      have := hP.eq_of_mem hB hA hv (firstElem_mem (hP.nonempty hA))
      rw [this, h1] at hs
      simp at hs
    · exact Or.inl ⟨L, (hlists L).2 ⟨A, hA, h1⟩, h2⟩

/-- The partition after joining two blocks. -/
def joinB (P : Partition) (B C : Finset ℕ) : Partition := insert (C ∪ B) ((P.erase B).erase C)

theorem joinB_isPartition (hP : IsPartition V P) {B C : Finset ℕ} (hB : B ∈ P) (hC : C ∈ P) :
    IsPartition V (joinB P B C) := by
  rw [isPartition_iff]
  unfold joinB
  refine ⟨?_, ?_, ?_⟩
  · intro A hA
    rcases Finset.mem_insert.1 hA with rfl | hA
    · exact ⟨(hP.nonempty hC).mono Finset.subset_union_left,
        Finset.union_subset (hP.subset hC) (hP.subset hB)⟩
    · have hA := Finset.mem_of_mem_erase (Finset.mem_of_mem_erase hA)
      exact ⟨hP.nonempty hA, hP.subset hA⟩
  · intro v hv
    obtain ⟨A, hA, hvA⟩ := hP.exists_block hv
    by_cases h1 : A = B
    · exact ⟨_, Finset.mem_insert_self _ _, Finset.mem_union_right _ (h1 ▸ hvA)⟩
    by_cases h2 : A = C
    · exact ⟨_, Finset.mem_insert_self _ _, Finset.mem_union_left _ (h2 ▸ hvA)⟩
    · exact ⟨A, Finset.mem_insert_of_mem (Finset.mem_erase.2 ⟨h2, Finset.mem_erase.2 ⟨h1, hA⟩⟩), hvA⟩
  · have key : ∀ A ∈ (P.erase B).erase C, ∀ v, v ∈ C ∪ B → v ∉ A := by
      intro A hA v hv hvA
      rw [Finset.mem_erase, Finset.mem_erase] at hA
      rcases Finset.mem_union.1 hv with hv | hv
      · exact hA.1 (hP.eq_of_mem hA.2.2 hC hvA hv)
      · exact hA.2.1 (hP.eq_of_mem hA.2.2 hB hvA hv)
    intro A hA A' hA' v hv hv'
    rcases Finset.mem_insert.1 hA with rfl | hA <;> rcases Finset.mem_insert.1 hA' with rfl | hA'
    · rfl
    · exact absurd hv' (key A' hA' v hv)
    · exact absurd hv (key A hA v hv')
    · exact hP.eq_of_mem (Finset.mem_of_mem_erase (Finset.mem_of_mem_erase hA))
        (Finset.mem_of_mem_erase (Finset.mem_of_mem_erase hA')) hv hv'

theorem firstElem_union {B C : Finset ℕ} (hB : B.Nonempty) (hC : C.Nonempty)
    (h : firstElem C < firstElem B) : firstElem (C ∪ B) = firstElem C := by
  apply le_antisymm (firstElem_le (Finset.mem_union_left _ (firstElem_mem hC)))
  rcases Finset.mem_union.1 (firstElem_mem (B := C ∪ B) (hC.mono Finset.subset_union_left)) with h1 | h1
  · exact firstElem_le h1
  · exact h.le.trans (firstElem_le h1)

/-- The least elements of the blocks. -/
def minsOf (P : Partition) : Finset ℕ := P.image firstElem

theorem card_minsOf (hP : IsPartition V P) : (minsOf P).card = P.card :=
  Finset.card_image_of_injOn fun _ hA _ hB h => IsPartition.eq_of_firstElem hP hA hB h

theorem minsOf_joinB (hP : IsPartition V P) {B C : Finset ℕ} (hB : B ∈ P) (hC : C ∈ P)
    (h : firstElem C < firstElem B) : minsOf (joinB P B C) = (minsOf P).erase (firstElem B) := by
  have hu := firstElem_union (hP.nonempty hB) (hP.nonempty hC) h
  ext v
  unfold minsOf joinB
  rw [Finset.mem_erase, Finset.image_insert, Finset.mem_insert, hu, Finset.mem_image,
    Finset.mem_image]
  constructor
  · rintro (rfl | ⟨A, hA, rfl⟩)
    · exact ⟨h.ne, C, hC, rfl⟩
    · rw [Finset.mem_erase, Finset.mem_erase] at hA
      exact ⟨fun he => hA.2.1 (IsPartition.eq_of_firstElem hP hA.2.2 hB he), A, hA.2.2, rfl⟩
  · rintro ⟨hne, A, hA, rfl⟩
    by_cases hAC : A = C
    · left; rw [hAC]
    · right
      refine ⟨A, Finset.mem_erase.2 ⟨hAC, Finset.mem_erase.2 ⟨?_, hA⟩⟩, rfl⟩
      rintro rfl; exact hne rfl

/-- One step of `merge`. -/
theorem mergeOne_spec (hP : IsPartition V P) (h : DEnc P D) {B C : Finset ℕ} (hB : B ∈ P) (hC : C ∈ P)
    (hK : K (firstElem B) = firstElem C) (hlt : firstElem C < firstElem B) :
    DEnc (joinB P B C) (mergeOne K D (firstElem B)) := by
  set j := firstElem B with hj
  set k := firstElem C with hk
  have hkj : k ≠ j := hlt.ne
  have hBne := hP.nonempty hB
  have hCne := hP.nonempty hC
  have hu : firstElem (C ∪ B) = k := firstElem_union hBne hCne hlt
  -- the new map
  obtain ⟨L, hL, hD1, hD2, hD3⟩ : ∃ L : List ℕ, L.toFinset = C ∪ B ∧ mergeOne K D j k = some L ∧
      mergeOne K D j j = none ∧ ∀ r, r ≠ j → r ≠ k → mergeOne K D j r = D r := by
    unfold mergeOne
    rw [hK]
    rcases h.block B hB with ⟨b1, b2⟩ | ⟨LB, b1, b2⟩ <;> rcases h.block C hC with ⟨c1, c2⟩ | ⟨LC, c1, c2⟩
    · rw [← hj] at b1 b2
      rw [← hk] at c1 c2
      rw [b1, c1]
      refine ⟨[j, k], ?_, ?_, ?_, ?_⟩
      · rw [b2, c2]; ext v; simp [or_comm]
      · simp [DMap.set]
      · simp [DMap.set, hkj.symm, b1]
      · intro r h1 h2; simp [DMap.set, h2]
    · rw [← hj] at b1 b2
      rw [← hk] at c1
      rw [b1, c1]
      refine ⟨LC ++ [j], ?_, ?_, ?_, ?_⟩
      · rw [b2, ← c2]; ext v; simp
      · simp [DMap.set]
      · simp [DMap.set, hkj.symm, b1]
      · intro r h1 h2; simp [DMap.set, h2]
    · rw [← hj] at b1
      rw [← hk] at c1 c2
      rw [b1, c1]
      simp only [hkj, if_false]
      refine ⟨LB ++ [k], ?_, ?_, ?_, ?_⟩
      · rw [c2, ← b2]; ext v; simp [or_comm]
      · simp [DMap.set, DMap.erase, hkj]
      · simp [DMap.erase]
      · intro r h1 h2; simp [DMap.set, DMap.erase, h1, h2]
    · rw [← hj] at b1
      rw [← hk] at c1
      rw [b1, c1]
      simp only [hkj, if_false]
      refine ⟨LC ++ LB, ?_, ?_, ?_, ?_⟩
      · rw [← c2, ← b2]; ext v; simp
      · simp [DMap.set, DMap.erase, hkj]
      · simp [DMap.erase]
      · intro r h1 h2; simp [DMap.set, DMap.erase, h1, h2]
  constructor
  · intro A hA
    rcases Finset.mem_insert.1 hA with rfl | hA
    · right; exact ⟨L, by rw [hu]; exact hD1, hL⟩
    · rw [Finset.mem_erase, Finset.mem_erase] at hA
      have h1 : firstElem A ≠ j := fun he => hA.2.1 (IsPartition.eq_of_firstElem hP hA.2.2 hB he)
      have h2 : firstElem A ≠ k := fun he => hA.1 (IsPartition.eq_of_firstElem hP hA.2.2 hC he)
      rw [hD3 _ h1 h2]
      exact h.block A hA.2.2
  · intro r hr
    have h2 : r ≠ k := by
      rintro rfl
      exact hr _ (Finset.mem_insert_self _ _) hu
    by_cases h1 : r = j
    · rw [h1]; exact hD2
    · rw [hD3 r h1 h2]
      apply h.other
      intro A hA hAr
      apply hr A _ hAr
      refine Finset.mem_insert_of_mem (Finset.mem_erase.2 ⟨?_, Finset.mem_erase.2 ⟨?_, hA⟩⟩)
      · rintro rfl; exact h2 hAr.symm
      · rintro rfl; exact h1 hAr.symm

/-- Node 0 is linked to itself. -/
theorem mergeOne_self (h : DEnc P D) {j : ℕ} {B : Finset ℕ} (hB : B ∈ P) (hj : firstElem B = j)
    (hK : K j = j) : DEnc P (mergeOne K D j) := by
  unfold mergeOne
  rw [hK]
  rcases h.block B hB with ⟨b1, b2⟩ | ⟨L, b1, b2⟩
  · rw [hj] at b1 b2
    rw [b1]
    constructor
    · intro A hA
      by_cases hAj : firstElem A = j
      · right
        refine ⟨[j, j], by simp [DMap.set, hAj], ?_⟩
        rcases h.block A hA with ⟨_, a2⟩ | ⟨L, a1, _⟩
        · rw [a2, hAj]; simp
        · rw [hAj, b1] at a1; cases a1
      · simp only [DMap.set, hAj, if_false]
        exact h.block A hA
    · intro r hr
      have : r ≠ j := fun he => hr B hB (hj.trans he.symm)
      simp only [DMap.set, this, if_false]
      exact h.other r hr
  · rw [hj] at b1
    rw [b1]
    simpa using h

/-- All merges of one round. `X` are the elements still to be merged. -/
theorem mergeFold (hst0 : st.K 0 = 0) (hn : 0 < n)
    (hlink : ∀ v < n, v ≠ 0 → st.K v < v) {γ : ℚ}
    (hQ : IsPartition (Finset.range n) Q)
    (hsame : ∀ v < n, v ≠ 0 → st.W v = γ → Same Q v (st.K v))
    (hchain : ∀ v < n, v ≠ 0 → st.K v ≠ 0 → st.W (st.K v) < st.W v) :
    ∀ (F : List ℕ) (P : Partition) (D : DMap), F.Nodup → (∀ v ∈ F, v < n ∧ st.W v = γ) →
      IsPartition (Finset.range n) P → Refines P Q → DEnc P D →
      (∀ v < n, (v = 0 ∨ st.W v < γ ∨ v ∈ F) → v ∈ minsOf P) →
      ∃ P', IsPartition (Finset.range n) P' ∧ Refines P' Q ∧ DEnc P' (F.foldl (mergeOne st.K) D) ∧
        minsOf P' = (minsOf P).filter fun v => v = 0 ∨ v ∉ F := by
  intro F
  induction F with
  | nil =>
    intro P D _ _ hP hr hD _
    exact ⟨P, hP, hr, hD, by simp⟩
  | cons j F ih =>
    intro P D hnd hF hP hr hD hmin
    obtain ⟨hjn, hjW⟩ := hF j List.mem_cons_self
    obtain ⟨hjF, hnd'⟩ := List.nodup_cons.1 hnd
    have hF' : ∀ v ∈ F, v < n ∧ st.W v = γ := fun v hv => hF v (List.mem_cons_of_mem _ hv)
    obtain ⟨B, hB, hBj⟩ := Finset.mem_image.1 (hmin j hjn (Or.inr (Or.inr List.mem_cons_self)))
    rw [List.foldl_cons]
    by_cases hj0 : j = 0
    · subst hj0
      obtain ⟨P', h1, h2, h3, h4⟩ := ih P _ hnd' hF' hP hr (mergeOne_self hD hB hBj hst0)
        (fun v hv h => hmin v hv (by
          rcases h with h | h | h
          · exact Or.inl h
          · exact Or.inr (Or.inl h)
          · exact Or.inr (Or.inr (List.mem_cons_of_mem _ h))))
      refine ⟨P', h1, h2, h3, ?_⟩
      rw [h4]
      apply Finset.filter_congr
      intro v _
      simp only [List.mem_cons, not_or]
      tauto
    · have hkn : st.K j < n := (hlink j hjn hj0).trans hjn
      obtain ⟨C, hC, hCk⟩ := Finset.mem_image.1 (hmin (st.K j) hkn (by
        by_cases h0 : st.K j = 0
        · exact Or.inl h0
        · exact Or.inr (Or.inl (hjW ▸ hchain j hjn hj0 h0))))
      have hlt : firstElem C < firstElem B := by rw [hCk, hBj]; exact hlink j hjn hj0
      have hD' := mergeOne_spec (K := st.K) hP hD hB hC (by rw [hBj, hCk]) hlt
      rw [hBj] at hD'
      have hmins := minsOf_joinB hP hB hC hlt
      rw [hBj] at hmins
      have hr' : Refines (joinB P B C) Q := by
        intro A hA
        rcases Finset.mem_insert.1 hA with rfl | hA
        · obtain ⟨B', hB', hBs⟩ := hr B hB
          obtain ⟨C', hC', hCs⟩ := hr C hC
          obtain ⟨A, hA, hjA, hkA⟩ := hsame j hjn hj0 hjW
          have e1 : B' = A := hQ.eq_of_mem hB' hA
            (hBs (firstElem_mem (hP.nonempty hB))) (by rw [hBj]; exact hjA)
          have e2 : C' = A := hQ.eq_of_mem hC' hA
            (hCs (firstElem_mem (hP.nonempty hC))) (by rw [hCk]; exact hkA)
          exact ⟨A, hA, Finset.union_subset (e2 ▸ hCs) (e1 ▸ hBs)⟩
        · exact hr A (Finset.mem_of_mem_erase (Finset.mem_of_mem_erase hA))
      obtain ⟨P', h1, h2, h3, h4⟩ := ih _ _ hnd' hF' (joinB_isPartition hP hB hC) hr' hD'
        (fun v hv h => by
          rw [hmins, Finset.mem_erase]
          refine ⟨?_, hmin v hv ?_⟩
          · rintro rfl
            rcases h with h | h | h
            · exact hj0 h
            · rw [hjW] at h; exact lt_irrefl _ h
            · exact hjF h
          · rcases h with h | h | h
            · exact Or.inl h
            · exact Or.inr (Or.inl h)
            · exact Or.inr (Or.inr (List.mem_cons_of_mem _ h)))
      refine ⟨P', h1, h2, h3, ?_⟩
      rw [h4, hmins]
      ext v
      simp only [Finset.mem_filter, Finset.mem_erase, List.mem_cons, not_or]
      constructor
      · rintro ⟨⟨a, b⟩, c⟩
        exact ⟨b, c.imp id fun c => ⟨a, c⟩⟩
      · rintro ⟨a, b | b⟩
        · exact ⟨⟨fun h => hj0 (h ▸ b), a⟩, Or.inl b⟩
        · exact ⟨⟨b.1, a⟩, Or.inr b.2⟩

theorem mergeGamma_spec {W : ℕ → ℚ} {C : List ℕ} (hne : C ≠ []) (h0 : ∀ v ∈ C, 0 ≤ W v) :
    (∃ v ∈ C, W v = mergeGamma W C) ∧ ∀ v ∈ C, W v ≤ mergeGamma W C := by
  have gen : ∀ (C : List ℕ) (a : ℚ),
      let r := C.foldl (fun γ j => if γ < W j then W j else γ) a
      a ≤ r ∧ (∀ v ∈ C, W v ≤ r) ∧ (r = a ∨ ∃ v ∈ C, W v = r) := by
    intro C
    induction C with
    | nil => intro a; simp
    | cons c C ih =>
      intro a
      rw [List.foldl_cons]
      obtain ⟨h1, h2, h3⟩ := ih (if a < W c then W c else a)
      have ha : a ≤ (if a < W c then W c else a) ∧ W c ≤ (if a < W c then W c else a) := by
        split
        · rename_i h; exact ⟨h.le, le_rfl⟩
        · rename_i h; exact ⟨le_rfl, not_lt.1 h⟩
      refine ⟨ha.1.trans h1, ?_, ?_⟩
      · intro v hv
        rcases List.mem_cons.1 hv with rfl | hv
        · exact ha.2.trans h1
        · exact h2 v hv
      · rcases h3 with h3 | ⟨v, hv, h⟩
        · by_cases hc : a < W c
          · right; rw [if_pos hc] at h3
            exact ⟨c, List.mem_cons_self, by rw [if_pos hc]; exact h3.symm⟩
          · left; rw [if_neg hc] at h3; rw [if_neg hc]; exact h3
        · exact Or.inr ⟨v, List.mem_cons_of_mem _ hv, h⟩
  obtain ⟨h1, h2, h3⟩ := gen C (-1)
  refine ⟨?_, h2⟩
  rcases h3 with h3 | h3
  · exfalso
    obtain ⟨v, hv⟩ := List.exists_mem_of_ne_nil C hne
    have := h2 v hv
    rw [h3] at this
    linarith [h0 v hv]
  · exact h3

/-! ### the loop -/

theorem Thr.minsOf {A : Finset ℕ} {mu : ℚ} (h : Thr E st A mu P) :
    minsOf P = A.filter fun v => v = firstElem A ∨ st.W v < mu := by
  ext v
  unfold Theory.minsOf
  rw [Finset.mem_image, Finset.mem_filter, h.mins v]

theorem Thr.refines {A : Finset ℕ} {mu nu : ℚ} (hP : Thr E st A mu P) (hQ : Thr E st A nu Q)
    (hle : nu ≤ mu) (hdown : ∀ v ∈ A, v ≠ firstElem A → st.K v < v) : Refines P Q := by
  have key : ∀ v, ∀ B ∈ P, v ∈ B → Same Q v (firstElem B) := by
    intro v
    induction v using Nat.strong_induction_on with
    | _ v ih =>
      intro B hB hv
      have hvA := hP.part.subset hB hv
      by_cases hvm : v = firstElem B
      · obtain ⟨C, hC, hvC⟩ := hQ.part.exists_block hvA
        exact ⟨C, hC, hvC, hvm ▸ hvC⟩
      · have hnot : ¬ (v = firstElem A ∨ st.W v < mu) := by
          intro h
          obtain ⟨B', hB', he⟩ := (hP.mins v).2 ⟨hvA, h⟩
          have := hP.part.eq_of_mem hB' hB (he ▸ firstElem_mem (hP.part.nonempty hB')) hv
          exact hvm (by rw [← this, he])
        push Not at hnot
        obtain ⟨B', hB', h1, h2⟩ := hP.same v hvA hnot.1 hnot.2
        obtain rfl := hP.part.eq_of_mem hB' hB h1 hv
        obtain ⟨C, hC, c1, c2⟩ := ih _ (hdown v hvA hnot.1) B' hB h2
        obtain ⟨C', hC', c3, c4⟩ := hQ.same v hvA hnot.1 (hle.trans hnot.2)
        obtain rfl := hQ.part.eq_of_mem hC hC' c1 c4
        exact ⟨C, hC, c3, c2⟩
  intro B hB
  obtain ⟨C, hC, _, hf⟩ := key _ B hB (firstElem_mem (hP.part.nonempty hB))
  refine ⟨C, hC, fun v hv => ?_⟩
  obtain ⟨C', hC', h1, h2⟩ := key v B hB hv
  rwa [hQ.part.eq_of_mem hC' hC h2 hf] at h1

/-- What is known about the arrays after `split`; the values only grow strictly along the links if the
cuts were the minimal ones (`M`). -/
structure Arrays (M : Prop) (E : List Arc) (n : ℕ) (st : HState) (l : ℚ) : Prop where
  zeroK : st.K 0 = 0
  zeroW : st.W 0 = l
  nonneg : 0 ≤ l
  two : ∃ v < n, v ≠ 0 ∧ st.W v = l
  down : ∀ v < n, v ≠ 0 → st.K v < v
  ge : ∀ v < n, l ≤ st.W v
  grow : M → ∀ v < n, v ≠ 0 → st.K v ≠ 0 → st.W (st.K v) < st.W v
  thr : ∀ mu, ∃ P, Thr E st (Finset.range n) mu P

theorem firstElem_range (hn : 0 < n) : firstElem (Finset.range n) = 0 := by
  have := firstElem_le (B := Finset.range n) (j := 0) (by simpa using hn)
  omega

theorem mergeLoop_spec {M : Prop} {l : ℚ} (hn : 0 < n) (hW : Within E (Finset.range n)) (ha : Arrays M E n st l) (k : ℕ) :
    ∀ (mu : ℚ) (C : List ℕ) (D : DMap) (P : Partition) (psp : List Partition)
      (t : List (ℚ × Partition)), C = (List.range n).filter (fun v => st.W v < mu) → C.length + 1 ≤ k →
      Thr E st (Finset.range n) mu P → (M → DEnc P D) →
      (M → psp ++ [makeFine n] = P :: t.map Prod.snd) → psp.length = t.length →
      Linked E (Finset.range n) P t → lastOf P t = singletons (Finset.range n) →
      (t.map Prod.fst).Pairwise (· < ·) → (∀ c ∈ t.map Prod.fst, mu ≤ c) →
      ∃ t', ∃ psp', mergeLoop n st k C D psp (t.map Prod.fst) = .ok (psp', t'.map Prod.fst) ∧
        (M → psp' ++ [makeFine n] = {Finset.range n} :: t'.map Prod.snd) ∧ psp'.length = t'.length ∧
        Linked E (Finset.range n) {Finset.range n} t' ∧
        lastOf {Finset.range n} t' = singletons (Finset.range n) ∧
        (t'.map Prod.fst).Pairwise (· < ·) := by
  have hf0 := firstElem_range hn
  induction k with
  | zero => intro mu C D P psp t _ hk; omega
  | succ k ih =>
    intro mu C D P psp t hC hk hP hD hpsp hpl hlk hls hinc hge
    have hmemC : ∀ v, v ∈ C ↔ v < n ∧ st.W v < mu := by
      intro v; rw [hC, List.mem_filter]; simp
    have hCnd : C.Nodup := by rw [hC]; exact List.nodup_range.filter _
    obtain ⟨v1, hv1n, hv10, hv1W⟩ := ha.two
    unfold mergeLoop
    by_cases hlen : C.length ≤ 1
    · rw [if_pos hlen]
      have hmul : mu ≤ l := by
        by_contra hlt
        push Not at hlt
        have h0 : 0 ∈ C := (hmemC 0).2 ⟨hn, by rw [ha.zeroW]; exact hlt⟩
        have h1 : v1 ∈ C := (hmemC v1).2 ⟨hv1n, by rw [hv1W]; exact hlt⟩
        have hle : ({0, v1} : Finset ℕ) ⊆ C.toFinset := by
          intro x hx
          rw [List.mem_toFinset]
          rcases Finset.mem_insert.1 hx with rfl | hx
          · exact h0
          · rw [Finset.mem_singleton.1 hx]; exact h1
        have := Finset.card_le_card hle
        rw [Finset.card_pair (Ne.symm hv10), List.toFinset_card_of_nodup hCnd] at this
        omega
      have hPeq : P = {Finset.range n} := by
        apply hP.part.eq_single_of_card
        rw [← card_minsOf hP.part, hP.minsOf, Finset.card_eq_one]
        refine ⟨0, ?_⟩
        ext v
        rw [Finset.mem_filter, Finset.mem_singleton, hf0, Finset.mem_range]
        constructor
        · rintro ⟨hv, h | h⟩
          · exact h
          · exact absurd h (not_lt.2 (hmul.trans (ha.ge v hv)))
        · rintro rfl; exact ⟨hn, Or.inl rfl⟩
      subst hPeq
      exact ⟨t, psp, rfl, hpsp, hpl, hlk, hls, hinc⟩
    · rw [if_neg hlen]
      have hCne : C ≠ [] := by rintro rfl; simp at hlen
      obtain ⟨⟨w, hwC, hwγ⟩, hmax⟩ := mergeGamma_spec (W := st.W) hCne
        (fun v hv => ha.nonneg.trans (ha.ge v ((hmemC v).1 hv).1))
      simp only
      set γ := mergeGamma st.W C with hγ
      have hwn := ((hmemC w).1 hwC).1
      have hγmu : γ < mu := hwγ ▸ ((hmemC w).1 hwC).2
      have hlγ : l ≤ γ := hwγ ▸ ha.ge w hwn
      have hle : ∀ v < n, st.W v < mu → st.W v ≤ γ := fun v hv h => hmax v ((hmemC v).2 ⟨hv, h⟩)
      obtain ⟨Q, hQ⟩ := ha.thr γ
      have hPQ : Refines P Q := hP.refines hQ hγmu.le (fun v hv hne => by
        rw [hf0] at hne; exact ha.down v (by simpa using hv) hne)
      -- some element other than 0 leaves
      obtain ⟨x, hxn, hx0, hxW⟩ : ∃ x < n, x ≠ 0 ∧ st.W x = γ := by
        by_cases hw0 : w = 0
        · refine ⟨v1, hv1n, hv10, ?_⟩
          rw [hv1W, ← hwγ, hw0, ha.zeroW]
        · exact ⟨w, hwn, hw0, hwγ⟩
      have hmP := hP.minsOf
      have hmQ := hQ.minsOf
      rw [hf0] at hmP hmQ
      have hne : P ≠ Q := by
        rintro rfl
        have h1 : x ∈ minsOf P := by
          rw [hmP, Finset.mem_filter]; exact ⟨by simpa using hxn, Or.inr (hxW ▸ hγmu)⟩
        rw [hmQ, Finset.mem_filter] at h1
        rcases h1.2 with h | h
        · exact hx0 h
        · rw [hxW] at h; exact lt_irrefl _ h
      have hoP : IsOptimal E (Finset.range n) γ P := by
        have := hP.opt γ hγmu.le fun v hv _ h => hle v (by simpa using hv) h
        rwa [induced_self hW] at this
      have hoQ : IsOptimal E (Finset.range n) γ Q := by
        have := hQ.opt γ le_rfl fun v _ _ h => h.le
        rwa [induced_self hW] at this
      set F := C.filter fun j => st.W j = γ with hF
      have hmemF : ∀ v, v ∈ F ↔ v < n ∧ st.W v = γ := by
        intro v
        rw [hF, List.mem_filter, hmemC]
        simp only [decide_eq_true_eq]
        exact ⟨fun h => ⟨h.1.1, h.2⟩, fun h => ⟨⟨h.1, h.2 ▸ hγmu⟩, h.2⟩⟩
      have hmerge : M → DEnc Q (mergeD st.W st.K γ C D) ∧
          mergePartition n (mergeD st.W st.K γ C D) = Q := by
        intro hM
        obtain ⟨P', hP', hr', hD', hm'⟩ := mergeFold (γ := γ) ha.zeroK hn ha.down hQ.part
          (fun v hv h0 hWv => hQ.same v (by simpa using hv) (by rw [hf0]; exact h0) hWv.ge)
          (ha.grow hM) F P D (hCnd.filter _) (fun v hv => (hmemF v).1 hv) hP.part hPQ (hD hM)
          (fun v hv h => by
            rw [hmP, Finset.mem_filter]
            refine ⟨by simpa using hv, ?_⟩
            rcases h with h | h | h
            · exact Or.inl h
            · exact Or.inr (h.trans hγmu)
            · exact Or.inr (((hmemF v).1 h).2 ▸ hγmu))
        have hmins : minsOf P' = minsOf Q := by
          rw [hm', hmP, hmQ]
          ext v
          simp only [Finset.mem_filter, Finset.mem_range, hmemF]
          constructor
          · rintro ⟨⟨hv, h1⟩, h2⟩
            refine ⟨hv, ?_⟩
            rcases h2 with h2 | h2
            · exact Or.inl h2
            · refine h1.imp id fun h1 => lt_of_le_of_ne (hle v hv h1) fun h3 => h2 ⟨hv, h3⟩
          · rintro ⟨hv, h⟩
            exact ⟨⟨hv, h.imp id fun h => h.trans hγmu⟩, h.imp id fun h h3 => h.ne h3.2⟩
        have hPQ' : P' = Q := by
          by_contra hcon
          have h1 := hr'.card_lt hP' hQ.part hcon
          rw [← card_minsOf hP', ← card_minsOf hQ.part, hmins] at h1
          exact lt_irrefl _ h1
        subst hPQ'
        exact ⟨hD', mergePartition_eq hP' hD'⟩
      have hCnew : (C.filter fun j => ¬ st.W j = γ) = (List.range n).filter fun v => st.W v < γ := by
        rw [hC, List.filter_filter]
        apply List.filter_congr
        intro v hv
        have hv : v < n := by simpa using hv
        simp only [← Bool.decide_and, decide_eq_decide]
        constructor
        · rintro ⟨h1, h2⟩; exact lt_of_le_of_ne (hle v hv h2) h1
        · intro h; exact ⟨h.ne, h.trans hγmu⟩
      have hlt : (C.filter fun j => ¬ st.W j = γ).length < C.length := by
        apply lt_of_le_of_ne (List.length_filter_le _ _)
        intro h
        have := List.length_filter_eq_length_iff.1 h w hwC
        simp [hwγ] at this
      exact ih γ _ _ Q (_ :: psp) ((γ, P) :: t) hCnew (by omega) hQ (fun hM => (hmerge hM).1)
        (fun hM => by rw [List.cons_append, hpsp hM, (hmerge hM).2]; rfl) (by simp [hpl])
        ⟨hoQ, hoP, ⟨hPQ, hne⟩, hlk⟩ hls
        (by
          rw [List.map_cons, List.pairwise_cons]
          exact ⟨fun c hc => lt_of_lt_of_le hγmu (hge c hc), hinc⟩)
        (by
          intro c hc
          rw [List.map_cons] at hc
          rcases List.mem_cons.1 hc with rfl | hc
          · exact le_rfl
          · exact hγmu.le.trans (hge c hc))

theorem pspConstruct_spec {M : Prop} {l : ℚ} (hn : 0 < n) (hW : Within E (Finset.range n))
    (ha : Arrays M E n st l) :
    ∃ t psp, pspConstruct n st = .ok ⟨psp, t.map Prod.fst⟩ ∧
      (M → psp = {Finset.range n} :: t.map Prod.snd) ∧ psp.length = t.length + 1 ∧
      Linked E (Finset.range n) {Finset.range n} t ∧
      lastOf {Finset.range n} t = singletons (Finset.range n) ∧ (t.map Prod.fst).Pairwise (· < ·) := by
  -- a threshold above all values
  obtain ⟨mu, hmu⟩ : ∃ mu, ∀ v < n, st.W v < mu := by
    refine ⟨((List.range n).map fun v => |st.W v|).sum + 1, fun v hv => ?_⟩
    have h1 : |st.W v| ≤ ((List.range n).map fun v => |st.W v|).sum :=
      List.single_le_sum (by
        intro x hx
        obtain ⟨w, _, rfl⟩ := List.mem_map.1 hx
        exact abs_nonneg _) _ (List.mem_map.2 ⟨v, by simpa using hv, rfl⟩)
    have := le_abs_self (st.W v)
    linarith
  obtain ⟨P, hP⟩ := ha.thr mu
  have hsing : P = singletons (Finset.range n) := by
    apply hP.part.eq_singletons_of_card
    rw [← card_minsOf hP.part, hP.minsOf]
    congr 1
    rw [Finset.filter_eq_self]
    intro v hv
    exact Or.inr (hmu v (by simpa using hv))
  have hfine : makeFine n = singletons (Finset.range n) := rfl
  have hD : DEnc P (fun _ => none) := by
    refine ⟨fun B hB => Or.inl ⟨rfl, ?_⟩, fun _ _ => rfl⟩
    rw [hsing] at hB
    obtain ⟨v, _, rfl⟩ := Finset.mem_image.1 hB
    have := firstElem_mem (B := {v}) (by simp)
    rw [Finset.mem_singleton.1 this]
  obtain ⟨t', psp', h1, h2, h2', h3, h4, h5⟩ := mergeLoop_spec hn hW ha (n + 1) mu (List.range n)
    (fun _ => none) P [] [] (by
      symm
      rw [List.filter_eq_self]
      intro v hv
      simpa using hmu v (by simpa using hv)) (by simp) hP (fun _ => hD)
    (fun _ => by simp [hsing, hfine]) rfl trivial hsing (by simp) (by simp)
  refine ⟨t', psp' ++ [makeFine n], ?_, h2, by simp [h2'], h3, h4, h5⟩
  unfold pspConstruct
  simp only [List.map_nil] at h1
  rw [h1, Outcome.ok_bind]
  rfl

/-- The arrays of `HPSP` after `split`, with any way to decide. -/
theorem hpspSplitO_run {M M1 : Prop} {dec : Decide} {u ε : ℚ} {g : Digraph} (hn : 2 ≤ n) (hg : GoodDigraph g n)
    (hdec : DecideSpec M1 dec g.arcs (Finset.range n) u) {ord : Partition → List CSet}
    (hord : Enumerates ord) (hε : 0 < ε) (hεu : ε ≤ u) (hgr : Granular u g.arcs)
    (hnb : M → M1 ∨ NoBetween g.arcs (Finset.range n)) :
    ∃ g' ch l st, hpspSplitO dec ε ord (n + 1) g ⟨fun _ => 0, fun _ => 0⟩ 0 (Finset.range n) = .ok (g', st) ∧
      Good M g.arcs (.node (Finset.range n) (some l) ch) ∧ Enc st (.node (Finset.range n) (some l) ch) ∧
      Arrays M g.arcs n st l := by
  obtain ⟨g', ch', l, he, hgood, hsim⟩ := splitO_run hn hg hdec hord hε hεu hgr hnb
  set V := Finset.range n with hV
  have hE := hg.good.nonneg
  have hW := hg.good.within
  have hf0 : firstElem V = 0 := firstElem_range (by omega)
  obtain ⟨st', hsp, henc, hW0, hK0, _⟩ := hsim ⟨fun _ => 0, fun _ => 0⟩ (fun c hc => by
    obtain ⟨i, _, rfl⟩ := List.mem_map.1 hc
    exact Enc.leaf _)
  rw [hf0] at hsp hW0 hK0
  have hchain := enc_chain hgood henc
  simp only [PTree.K, PTree.val, hf0] at hchain
  have hge : ∀ v < n, v ≠ 0 → l ≤ st'.W v := by
    intro v hv h0
    obtain ⟨_, _, ⟨m, hm, hmv⟩, _⟩ := hchain v (by simpa [hV] using hv) h0
    rw [Option.some.injEq] at hm
    rw [hm]; exact hmv
  have ha : Arrays M g.arcs n st' l := by
    refine ⟨hK0, hW0, ?_, ?_, ?_, ?_, ?_, ?_⟩
    · cases hgood with
      | node K l ch _ _ hlen hnd hopt htop =>
        have hc := hopt.cost_eq htop
        have hcard : (2 : ℚ) ≤ (ch'.map PTree.K).toFinset.card := by
          rw [List.toFinset_card_of_nodup hnd, List.length_map]; exact_mod_cast hlen
        have hnn := crossWeight_nonneg (induced_nonneg hE V) (ch'.map PTree.K).toFinset
        unfold cost at hc
        rw [crossWeight_single (induced_within _ _)] at hc
        simp only [Finset.card_singleton, Nat.cast_one, mul_one] at hc
        by_contra hneg
        push Not at hneg
        nlinarith
    · cases hgood with
      | node K l ch _ _ hlen hnd hopt htop =>
        cases henc with
        | node _ _ _ _ hv =>
        -- a child whose least element is not 0
        obtain ⟨c, hc, hcne⟩ : ∃ c ∈ ch', firstElem c.K ≠ 0 := by
          by_contra hcon
          push Not at hcon
          have h1 : (ch'.map PTree.K).toFinset.card ≤ 1 := by
            rw [Finset.card_le_one]
            intro A hA B hB
            apply IsPartition.eq_of_firstElem hopt.1 hA hB
            obtain ⟨a, ha, rfl⟩ := List.mem_map.1 (List.mem_toFinset.1 hA)
            obtain ⟨b, hb, rfl⟩ := List.mem_map.1 (List.mem_toFinset.1 hB)
            rw [hcon a ha, hcon b hb]
          rw [List.toFinset_card_of_nodup hnd, List.length_map] at h1
          omega
        have hcm : c.K ∈ (ch'.map PTree.K).toFinset := List.mem_toFinset.2 (List.mem_map_of_mem hc)
        have := hopt.1.subset hcm (firstElem_mem (hopt.1.nonempty hcm))
        exact ⟨firstElem c.K, by simpa [hV] using this, hcne, (hv c hc (by rw [hf0]; exact hcne)).1⟩
    · intro v hv h0; exact (hchain v (by simpa [hV] using hv) h0).2.1
    · intro v hv
      by_cases h0 : v = 0
      · rw [h0, hW0]
      · exact hge v hv h0
    · intro hM v hv h0 hk; exact (hchain v (by simpa [hV] using hv) h0).2.2.2 hM hk
    · intro mu; exact exists_thr hE hgood henc mu
  exact ⟨g', ch', l, st', hsp, hgood, henc, ha⟩

theorem hpspRun_spec {S : FlowSolver} (hS : S.Correct) {ord : Partition → List CSet}
    (hord : Enumerates ord) {u ε : ℚ} {g : Digraph} (hn : 2 ≤ n) (hg : GoodDigraph g n) (hε : 0 < ε)
    (hgr : Granular u g.arcs) (hgap : ε * ((n : ℚ) - 1) < u) :
    ∃ g' t psp, hpspRun S ε ord g = .ok (g', ⟨psp, t.map Prod.fst⟩) ∧
      (S.Minimal ∨ NoBetween g.arcs (Finset.range n) → psp = {Finset.range n} :: t.map Prod.snd) ∧ psp.length = t.length + 1 ∧
      Linked g.arcs (Finset.range n) {Finset.range n} t ∧
      lastOf {Finset.range n} t = singletons (Finset.range n) ∧ (t.map Prod.fst).Pairwise (· < ·) := by
  have hεu : ε ≤ u := by
    have : (2 : ℚ) ≤ n := by exact_mod_cast hn
    nlinarith
  have hcn : g.countNodes = n := by rw [Digraph.countNodes, hg.nodes, List.length_range]
  obtain ⟨g', ch, l, st, hsp, _, _, ha⟩ := hpspSplitO_run hn hg (decideI_spec (E := g.arcs) (V := Finset.range n) hS
    hε hεu (by rw [Finset.card_range]; exact hgap)) hord hε hεu hgr (M := S.Minimal ∨ NoBetween g.arcs (Finset.range n)) id
  obtain ⟨t, psp, ht, hpsp, hlen, hlk, hls, hinc⟩ := pspConstruct_spec (by omega) hg.good.within ha
  refine ⟨g', t, psp, ?_, hpsp, hlen, hlk, hls, hinc⟩
  unfold hpspRun
  simp only [hcn]
  rw [if_neg (by omega), show makeDense n = Finset.range n from rfl, hpspSplit_eq, hsp, Outcome.ok_bind]
  simp only
  rw [ht]
  rfl

end PSP.Theory
