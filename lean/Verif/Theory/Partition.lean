import Mathlib.Tactic.Linarith
import Mathlib.Tactic.Ring
import Mathlib.Algebra.BigOperators.Group.Finset.Basic
import Mathlib.Algebra.Order.BigOperators.Group.Finset
import Verif.Model.Basic

/-!
# Facts about partitions of finite sets
-/

namespace PSP.Spec

open PSP.Model (expand)

variable {V U : Finset ℕ} {P Q R : Finset (Finset ℕ)}

theorem IsPartition.nonempty (h : IsPartition V P) {B} (hB : B ∈ P) : B.Nonempty := (h.1 B hB).1
theorem IsPartition.subset (h : IsPartition V P) {B} (hB : B ∈ P) : B ⊆ V := (h.1 B hB).2

theorem IsPartition.eq_of_mem (h : IsPartition V P) {B C} (hB : B ∈ P) (hC : C ∈ P) {v : ℕ}
    (hvB : v ∈ B) (hvC : v ∈ C) : B = C := by
  obtain ⟨D, _, hu⟩ := h.2 v (h.subset hB hvB)
  rw [hu B ⟨hB, hvB⟩, hu C ⟨hC, hvC⟩]

theorem IsPartition.exists_block (h : IsPartition V P) {v : ℕ} (hv : v ∈ V) :
    ∃ B ∈ P, v ∈ B := by
  obtain ⟨B, ⟨hB, hvB⟩, _⟩ := h.2 v hv
  exact ⟨B, hB, hvB⟩

theorem IsPartition.disjoint (h : IsPartition V P) {B C} (hB : B ∈ P) (hC : C ∈ P) (hne : B ≠ C) :
    Disjoint B C := by
  rw [Finset.disjoint_left]
  intro v hv hv'
  exact hne (h.eq_of_mem hB hC hv hv')

theorem isPartition_iff : IsPartition V P ↔
    (∀ B ∈ P, B.Nonempty ∧ B ⊆ V) ∧ (∀ v ∈ V, ∃ B ∈ P, v ∈ B) ∧
      ∀ B ∈ P, ∀ C ∈ P, ∀ v, v ∈ B → v ∈ C → B = C := by
  constructor
  · intro h
    exact ⟨h.1, fun v hv => h.exists_block hv, fun B hB C hC v hv hv' => h.eq_of_mem hB hC hv hv'⟩
  · rintro ⟨h1, h2, h3⟩
    refine ⟨h1, fun v hv => ?_⟩
    obtain ⟨B, hB, hvB⟩ := h2 v hv
    exact ⟨B, ⟨hB, hvB⟩, fun C hC => h3 C hC.1 B hB v hC.2 hvB⟩

theorem IsPartition.biUnion (h : IsPartition V P) : P.biUnion id = V := by
  ext v
  simp only [Finset.mem_biUnion, id]
  constructor
  · rintro ⟨B, hB, hv⟩; exact h.subset hB hv
  · intro hv
    obtain ⟨B, hB, hvB⟩ := h.exists_block hv
    exact ⟨B, hB, hvB⟩

theorem IsPartition.sum_blocks (h : IsPartition V P) (x : ℕ → ℚ) :
    ∑ B ∈ P, ∑ i ∈ B, x i = ∑ i ∈ V, x i := by
  rw [← h.biUnion, Finset.sum_biUnion]
  · rfl
  · intro B hB C hC hne
    exact h.disjoint hB hC hne

theorem isPartition_empty : IsPartition ∅ ∅ := by
  constructor <;> simp

theorem isPartition_single (hV : V.Nonempty) : IsPartition V {V} := by
  rw [isPartition_iff]
  refine ⟨?_, ?_, ?_⟩
  · simp [hV]
  · intro v hv; exact ⟨V, by simp, hv⟩
  · simp

theorem isPartition_singletons (V : Finset ℕ) : IsPartition V (singletons V) := by
  rw [isPartition_iff]
  unfold singletons
  refine ⟨?_, ?_, ?_⟩
  · intro B hB
    simp only [Finset.mem_image] at hB
    obtain ⟨v, hv, rfl⟩ := hB
    simp [hv]
  · intro v hv; exact ⟨{v}, Finset.mem_image_of_mem _ hv, by simp⟩
  · intro B hB C hC v hv hv'
    simp only [Finset.mem_image] at hB hC
    obtain ⟨a, _, rfl⟩ := hB
    obtain ⟨b, _, rfl⟩ := hC
    simp at hv hv'
    rw [← hv, ← hv']

theorem card_singletons (V : Finset ℕ) : (singletons V).card = V.card := by
  unfold singletons
  rw [Finset.card_image_of_injective]
  intro a b hab
  simpa using hab

theorem IsPartition.card_le (h : IsPartition V P) : P.card ≤ V.card := by
  classical
  have : ∀ B ∈ P, 1 ≤ B.card := fun B hB => Finset.card_pos.mpr (h.nonempty hB)
  calc P.card = ∑ B ∈ P, 1 := by simp
    _ ≤ ∑ B ∈ P, B.card := Finset.sum_le_sum this
    _ = V.card := by
      rw [← h.biUnion, Finset.card_biUnion]
      · rfl
      · intro B hB C hC hne; exact h.disjoint hB hC hne

theorem IsPartition.card_pos (h : IsPartition V P) (hV : V.Nonempty) : 0 < P.card := by
  obtain ⟨v, hv⟩ := hV
  obtain ⟨B, hB, _⟩ := h.exists_block hv
  exact Finset.card_pos.mpr ⟨B, hB⟩

/-! ### refinement -/

theorem Refines.refl (P : Finset (Finset ℕ)) : Refines P P := fun B hB => ⟨B, hB, subset_rfl⟩

theorem Refines.trans (h1 : Refines P Q) (h2 : Refines Q R) : Refines P R := by
  intro B hB
  obtain ⟨C, hC, hBC⟩ := h1 B hB
  obtain ⟨D, hD, hCD⟩ := h2 C hC
  exact ⟨D, hD, hBC.trans hCD⟩

theorem Refines.antisymm (hP : IsPartition V P) (hQ : IsPartition V Q)
    (h1 : Refines P Q) (h2 : Refines Q P) : P = Q := by
  have key : ∀ {P Q : Finset (Finset ℕ)}, IsPartition V P → IsPartition V Q → Refines P Q →
      Refines Q P → P ⊆ Q := by
    intro P Q hP hQ h1 h2 B hB
    obtain ⟨C, hC, hBC⟩ := h1 B hB
    obtain ⟨D, hD, hCD⟩ := h2 C hC
    obtain ⟨v, hv⟩ := hP.nonempty hB
    have : B = D := hP.eq_of_mem hB hD hv (hCD (hBC hv))
    subst this
    have : B = C := Finset.Subset.antisymm hBC hCD
    rwa [this]
  exact Finset.Subset.antisymm (key hP hQ h1 h2) (key hQ hP h2 h1)

theorem Refines.same (h : Refines P Q) {u v : ℕ} (huv : Same P u v) : Same Q u v := by
  obtain ⟨B, hB, hu, hv⟩ := huv
  obtain ⟨C, hC, hBC⟩ := h B hB
  exact ⟨C, hC, hBC hu, hBC hv⟩

theorem refines_single (hP : IsPartition V P) : Refines P {V} :=
  fun B hB => ⟨V, by simp, hP.subset hB⟩

theorem singletons_refines (hP : IsPartition V P) : Refines (singletons V) P := by
  intro B hB
  simp only [singletons, Finset.mem_image] at hB
  obtain ⟨v, hv, rfl⟩ := hB
  obtain ⟨C, hC, hvC⟩ := hP.exists_block hv
  exact ⟨C, hC, by simpa using hvC⟩

theorem Refines.card_le (hP : IsPartition V P) (hQ : IsPartition V Q) (h : Refines P Q) :
    Q.card ≤ P.card := by
  classical
  choose! f hf hsub using h
  have : Q ⊆ P.image f := by
    intro C hC
    obtain ⟨v, hv⟩ := hQ.nonempty hC
    obtain ⟨B, hB, hvB⟩ := hP.exists_block (hQ.subset hC hv)
    rw [Finset.mem_image]
    exact ⟨B, hB, hQ.eq_of_mem (hf B hB) hC (hsub B hB hvB) hv⟩
  exact (Finset.card_le_card this).trans Finset.card_image_le

theorem Refines.eq_of_card (hP : IsPartition V P) (hQ : IsPartition V Q) (h : Refines P Q)
    (hc : P.card ≤ Q.card) : P = Q := by
  classical
  have hr := h
  choose! f hf hsub using h
  have himg : Q ⊆ P.image f := by
    intro C hC
    obtain ⟨v, hv⟩ := hQ.nonempty hC
    obtain ⟨B, hB, hvB⟩ := hP.exists_block (hQ.subset hC hv)
    rw [Finset.mem_image]
    exact ⟨B, hB, hQ.eq_of_mem (hf B hB) hC (hsub B hB hvB) hv⟩
  have hcard : (P.image f).card = P.card :=
    le_antisymm Finset.card_image_le (hc.trans (Finset.card_le_card himg))
  have hinj := Finset.card_image_iff.mp hcard
  refine Refines.antisymm hP hQ hr ?_
  intro C hC
  obtain ⟨v, hv⟩ := hQ.nonempty hC
  obtain ⟨B, hB, hvB⟩ := hP.exists_block (hQ.subset hC hv)
  refine ⟨B, hB, ?_⟩
  have hfB : f B = C := hQ.eq_of_mem (hf B hB) hC (hsub B hB hvB) hv
  intro w hw
  obtain ⟨B', hB', hwB'⟩ := hP.exists_block (hQ.subset hC hw)
  have hfB' : f B' = C := hQ.eq_of_mem (hf B' hB') hC (hsub B' hB' hwB') hw
  have : B' = B := hinj hB' hB (hfB'.trans hfB.symm)
  rwa [← this]

theorem Refines.card_lt (hP : IsPartition V P) (hQ : IsPartition V Q) (h : Refines P Q)
    (hne : P ≠ Q) : Q.card < P.card := by
  by_contra hlt
  exact hne (h.eq_of_card hP hQ (not_lt.mp hlt))

theorem IsPartition.eq_single_of_card (hP : IsPartition V P) (h : P.card = 1) : P = {V} := by
  have hV : V.Nonempty := by
    obtain ⟨B, hB⟩ := Finset.card_pos.mp (by omega : 0 < P.card)
    exact (hP.nonempty hB).mono (hP.subset hB)
  exact (refines_single hP).eq_of_card hP (isPartition_single hV) (by simp [h])

theorem IsPartition.eq_singletons_of_card (hP : IsPartition V P) (h : P.card = V.card) :
    P = singletons V :=
  ((singletons_refines hP).eq_of_card (isPartition_singletons V) hP
    (by rw [card_singletons, h])).symm

theorem refines_of_same (hP : IsPartition V P) (hQ : IsPartition V Q)
    (h : ∀ u v, Same P u v → Same Q u v) : Refines P Q := by
  intro B hB
  obtain ⟨u, hu⟩ := hP.nonempty hB
  obtain ⟨C, hC, huC⟩ := hQ.exists_block (hP.subset hB hu)
  refine ⟨C, hC, fun v hv => ?_⟩
  obtain ⟨D, hD, huD, hvD⟩ := h u v ⟨B, hB, hu, hv⟩
  rwa [hQ.eq_of_mem hC hD huC huD]

theorem eq_of_same (hP : IsPartition V P) (hQ : IsPartition V Q)
    (h : ∀ u v, Same P u v ↔ Same Q u v) : P = Q :=
  Refines.antisymm hP hQ (refines_of_same hP hQ fun u v => (h u v).1)
    (refines_of_same hQ hP fun u v => (h u v).2)

theorem Same.symm {u v : ℕ} (h : Same P u v) : Same P v u := by
  obtain ⟨B, hB, hu, hv⟩ := h
  exact ⟨B, hB, hv, hu⟩

theorem same_comm {u v : ℕ} : Same P u v ↔ Same P v u := ⟨Same.symm, Same.symm⟩

theorem Same.trans (hP : IsPartition V P) {u v w : ℕ} (h : Same P u v) (h' : Same P v w) :
    Same P u w := by
  obtain ⟨B, hB, hu, hv⟩ := h
  obtain ⟨C, hC, hv', hw⟩ := h'
  have := hP.eq_of_mem hB hC hv hv'
  subst this
  exact ⟨B, hB, hu, hw⟩

theorem IsPartition.same_self (hP : IsPartition V P) {u : ℕ} (hu : u ∈ V) : Same P u u := by
  obtain ⟨B, hB, huB⟩ := hP.exists_block hu
  exact ⟨B, hB, huB, huB⟩

theorem Same.mem_left (hP : IsPartition V P) {u v : ℕ} (h : Same P u v) : u ∈ V := by
  obtain ⟨B, hB, hu, _⟩ := h
  exact hP.subset hB hu

theorem Same.mem_right (hP : IsPartition V P) {u v : ℕ} (h : Same P u v) : v ∈ V :=
  h.symm.mem_left hP

/-! ### `expand` -/

/-- The block created by `expand`. -/
def bigBlock (P : Finset (Finset ℕ)) (T : Finset ℕ) : Finset ℕ :=
  T ∪ (P.filter fun B => ¬ Disjoint B T).sup id

theorem mem_bigBlock {T : Finset ℕ} {v : ℕ} :
    v ∈ bigBlock P T ↔ v ∈ T ∨ ∃ B ∈ P, ¬ Disjoint B T ∧ v ∈ B := by
  simp only [bigBlock, Finset.mem_union, Finset.mem_sup, Finset.mem_filter, id]
  constructor
  · rintro (h | ⟨B, ⟨hB, hd⟩, hv⟩)
    · exact Or.inl h
    · exact Or.inr ⟨B, hB, hd, hv⟩
  · rintro (h | ⟨B, hB, hd, hv⟩)
    · exact Or.inl h
    · exact Or.inr ⟨B, ⟨hB, hd⟩, hv⟩

theorem mem_expand {T B : Finset ℕ} :
    B ∈ expand P T ↔ B = bigBlock P T ∨ (B ∈ P ∧ Disjoint B T) := by
  simp [expand, bigBlock]

theorem bigBlock_mem_expand {T : Finset ℕ} : bigBlock P T ∈ expand P T := mem_expand.2 (Or.inl rfl)

theorem subset_bigBlock {T : Finset ℕ} : T ⊆ bigBlock P T := fun _ hv => mem_bigBlock.2 (Or.inl hv)

theorem expand_isPartition (hP : IsPartition U P) {T : Finset ℕ} (hT : T.Nonempty) :
    IsPartition (U ∪ T) (expand P T) := by
  rw [isPartition_iff]
  refine ⟨?_, ?_, ?_⟩
  · intro B hB
    rcases mem_expand.1 hB with rfl | ⟨hB, _⟩
    · refine ⟨hT.mono subset_bigBlock, fun v hv => ?_⟩
      rcases mem_bigBlock.1 hv with h | ⟨B, hB, _, hvB⟩
      · exact Finset.mem_union_right _ h
      · exact Finset.mem_union_left _ (hP.subset hB hvB)
    · exact ⟨hP.nonempty hB, (hP.subset hB).trans Finset.subset_union_left⟩
  · intro v hv
    rcases Finset.mem_union.1 hv with hv | hv
    · obtain ⟨B, hB, hvB⟩ := hP.exists_block hv
      by_cases hd : Disjoint B T
      · exact ⟨B, mem_expand.2 (Or.inr ⟨hB, hd⟩), hvB⟩
      · exact ⟨_, bigBlock_mem_expand, mem_bigBlock.2 (Or.inr ⟨B, hB, hd, hvB⟩)⟩
    · exact ⟨_, bigBlock_mem_expand, subset_bigBlock hv⟩
  · have key : ∀ B ∈ P, Disjoint B T → ∀ v, v ∈ B → v ∉ bigBlock P T := by
      intro B hB hd v hv hv'
      rcases mem_bigBlock.1 hv' with h | ⟨C, hC, hdC, hvC⟩
      · exact Finset.disjoint_left.1 hd hv h
      · have := hP.eq_of_mem hB hC hv hvC
        subst this
        exact hdC hd
    intro B hB C hC v hvB hvC
    rcases mem_expand.1 hB with rfl | ⟨hB, hdB⟩ <;> rcases mem_expand.1 hC with rfl | ⟨hC, hdC⟩
    · rfl
    · exact absurd hvB (key C hC hdC v hvC)
    · exact absurd hvC (key B hB hdB v hvB)
    · exact hP.eq_of_mem hB hC hvB hvC

theorem expand_isPartition' (hP : IsPartition V P) {T : Finset ℕ} (hT : T.Nonempty) (hTV : T ⊆ V) :
    IsPartition V (expand P T) := by
  have := expand_isPartition hP hT
  rwa [Finset.union_eq_left.2 hTV] at this

/-- The blocks of `P` that meet `T`. -/
def meeting (P : Finset (Finset ℕ)) (T : Finset ℕ) : Finset (Finset ℕ) :=
  P.filter fun B => ¬ Disjoint B T

theorem mem_meeting {T B : Finset ℕ} : B ∈ meeting P T ↔ B ∈ P ∧ ¬ Disjoint B T := by
  simp [meeting]

theorem card_expand {T : Finset ℕ} (hT : T.Nonempty) :
    (expand P T).card + (meeting P T).card = P.card + 1 := by
  have h1 : bigBlock P T ∉ P.filter fun B => Disjoint B T := by
    intro h
    have hd := (Finset.mem_filter.1 h).2
    obtain ⟨v, hv⟩ := hT
    exact Finset.disjoint_left.1 hd (subset_bigBlock hv) hv
  have h2 : (expand P T).card = (P.filter fun B => Disjoint B T).card + 1 := by
    exact Finset.card_insert_of_notMem h1
  have h3 := Finset.card_filter_add_card_filter_not (s := P) (fun B => Disjoint B T)
  unfold meeting
  omega

theorem refines_expand (P : Finset (Finset ℕ)) (T : Finset ℕ) : Refines P (expand P T) := by
  intro B hB
  by_cases hd : Disjoint B T
  · exact ⟨B, mem_expand.2 (Or.inr ⟨hB, hd⟩), subset_rfl⟩
  · exact ⟨_, bigBlock_mem_expand, fun v hv => mem_bigBlock.2 (Or.inr ⟨B, hB, hd, hv⟩)⟩

/-- Split the block `B` of `Q` along the blocks of `P`. -/
def splitBlock (Q P : Finset (Finset ℕ)) (B : Finset ℕ) : Finset (Finset ℕ) :=
  Q.erase B ∪ (meeting P B).image fun A => A ∩ B

theorem splitBlock_isPartition (hQ : IsPartition V Q) (hP : IsPartition V P) {B : Finset ℕ}
    (hB : B ∈ Q) : IsPartition V (splitBlock Q P B) := by
  rw [isPartition_iff]
  have hmem : ∀ C, C ∈ splitBlock Q P B ↔
      (C ≠ B ∧ C ∈ Q) ∨ ∃ A ∈ P, ¬ Disjoint A B ∧ A ∩ B = C := by
    intro C
    simp [splitBlock, mem_meeting, and_assoc]
  refine ⟨?_, ?_, ?_⟩
  · intro C hC
    rcases (hmem C).1 hC with ⟨_, hC⟩ | ⟨A, hA, hd, rfl⟩
    · exact ⟨hQ.nonempty hC, hQ.subset hC⟩
    · refine ⟨?_, Finset.inter_subset_right.trans (hQ.subset hB)⟩
      rwa [Finset.not_disjoint_iff_nonempty_inter] at hd
  · intro v hv
    obtain ⟨C, hC, hvC⟩ := hQ.exists_block hv
    by_cases hCB : C = B
    · subst hCB
      obtain ⟨A, hA, hvA⟩ := hP.exists_block hv
      refine ⟨A ∩ C, (hmem _).2 (Or.inr ⟨A, hA, ?_, rfl⟩), Finset.mem_inter.2 ⟨hvA, hvC⟩⟩
      exact Finset.not_disjoint_iff.2 ⟨v, hvA, hvC⟩
    · exact ⟨C, (hmem _).2 (Or.inl ⟨hCB, hC⟩), hvC⟩
  · intro C hC D hD v hvC hvD
    rcases (hmem C).1 hC with ⟨hne, hC⟩ | ⟨A, hA, hd, rfl⟩ <;>
      rcases (hmem D).1 hD with ⟨hne', hD⟩ | ⟨A', hA', hd', rfl⟩
    · exact hQ.eq_of_mem hC hD hvC hvD
    · exact absurd (hQ.eq_of_mem hC hB hvC (Finset.mem_inter.1 hvD).2) hne
    · exact absurd (hQ.eq_of_mem hD hB hvD (Finset.mem_inter.1 hvC).2) hne'
    · rw [hP.eq_of_mem hA hA' (Finset.mem_inter.1 hvC).1 (Finset.mem_inter.1 hvD).1]

theorem card_splitBlock (hQ : IsPartition V Q) (hP : IsPartition V P) {B : Finset ℕ}
    (hB : B ∈ Q) : (splitBlock Q P B).card + 1 = Q.card + (meeting P B).card := by
  have hdisj : Disjoint (Q.erase B) ((meeting P B).image fun A => A ∩ B) := by
    rw [Finset.disjoint_left]
    intro C hC hC'
    simp only [Finset.mem_image, mem_meeting] at hC'
    obtain ⟨A, ⟨hA, hd⟩, rfl⟩ := hC'
    obtain ⟨v, hvA, hvB⟩ := Finset.not_disjoint_iff.1 hd
    have h1 := Finset.mem_erase.1 hC
    exact h1.1 (hQ.eq_of_mem h1.2 hB (Finset.mem_inter.2 ⟨hvA, hvB⟩) hvB)
  have hinj : Set.InjOn (fun A => A ∩ B) (meeting P B : Set (Finset ℕ)) := by
    intro A hA A' hA' heq
    have hA := mem_meeting.1 hA
    have hA' := mem_meeting.1 hA'
    obtain ⟨v, hvA, hvB⟩ := Finset.not_disjoint_iff.1 hA.2
    have : v ∈ A' ∩ B := by
      rw [← show A ∩ B = A' ∩ B from heq]; exact Finset.mem_inter.2 ⟨hvA, hvB⟩
    exact hP.eq_of_mem hA.1 hA'.1 hvA (Finset.mem_inter.1 this).1
  unfold splitBlock
  rw [Finset.card_union_of_disjoint hdisj, Finset.card_image_of_injOn hinj,
    Finset.card_erase_of_mem hB]
  have : 0 < Q.card := Finset.card_pos.2 ⟨B, hB⟩
  omega

end PSP.Spec
