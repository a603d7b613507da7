import Verif.Theory.Cost

/-!
# The greedy step of the Dilworth truncation, for an arbitrary submodular function
-/

namespace PSP.Theory

open PSP.Spec PSP.Model

/-- `f` is submodular on intersecting pairs. -/
def Submodular (f : Finset ℕ → ℚ) : Prop :=
  ∀ S T : Finset ℕ, (S ∩ T).Nonempty → f (S ∪ T) + f (S ∩ T) ≤ f S + f T

/-- Sum of `x` over `S`. -/
def vsum (x : ℕ → ℚ) (S : Finset ℕ) : ℚ := ∑ i ∈ S, x i

theorem vsum_union_inter (x : ℕ → ℚ) (S T : Finset ℕ) :
    vsum x (S ∪ T) + vsum x (S ∩ T) = vsum x S + vsum x T := Finset.sum_union_inter

theorem vsum_insert (x : ℕ → ℚ) {S : Finset ℕ} {l : ℕ} (h : l ∉ S) :
    vsum x (insert l S) = x l + vsum x S := Finset.sum_insert h

theorem vsum_congr {x y : ℕ → ℚ} {S : Finset ℕ} (h : ∀ i ∈ S, x i = y i) :
    vsum x S = vsum y S := Finset.sum_congr rfl h

/-- `x` lies in the polytope `{x : x(S) ≤ f(S) - λ for all nonempty S ⊆ U}`. -/
def InPoly (f : Finset ℕ → ℚ) (lam : ℚ) (U : Finset ℕ) (x : ℕ → ℚ) : Prop :=
  ∀ S ⊆ U, S.Nonempty → vsum x S ≤ f S - lam

/-- `S` is tight. -/
def Tight (f : Finset ℕ → ℚ) (lam : ℚ) (x : ℕ → ℚ) (S : Finset ℕ) : Prop :=
  vsum x S = f S - lam

variable {f : Finset ℕ → ℚ} {lam : ℚ} {U V : Finset ℕ} {x : ℕ → ℚ} {P R : Finset (Finset ℕ)}

theorem tight_union_inter (hf : Submodular f) (hx : InPoly f lam U x) {S T : Finset ℕ}
    (hS : S ⊆ U) (hT : T ⊆ U) (hne : (S ∩ T).Nonempty) (tS : Tight f lam x S)
    (tT : Tight f lam x T) : Tight f lam x (S ∪ T) ∧ Tight f lam x (S ∩ T) := by
  have h1 := hx (S ∪ T) (Finset.union_subset hS hT)
    (hne.mono (Finset.inter_subset_left.trans Finset.subset_union_left))
  have h2 := hx (S ∩ T) (Finset.inter_subset_left.trans hS) hne
  have h3 := hf S T hne
  have h4 := vsum_union_inter x S T
  unfold Tight at *
  constructor <;> linarith

/-- If all blocks of `P` are tight, `P` minimises `∑ (f(B) - λ)` over all partitions, and the
minimisers are exactly the partitions into tight sets. -/
theorem poly_le (hx : InPoly f lam V x) (hR : IsPartition V R) :
    vsum x V ≤ ∑ B ∈ R, (f B - lam) := by
  unfold vsum
  rw [← hR.sum_blocks x]
  exact Finset.sum_le_sum fun B hB => hx B (hR.subset hB) (hR.nonempty hB)

theorem tight_sum (hP : IsPartition V P) (ht : ∀ B ∈ P, Tight f lam x B) :
    vsum x V = ∑ B ∈ P, (f B - lam) := by
  unfold vsum
  rw [← hP.sum_blocks x]
  exact Finset.sum_congr rfl fun B hB => ht B hB

theorem tight_of_sum (hx : InPoly f lam V x) (hR : IsPartition V R)
    (h : vsum x V = ∑ B ∈ R, (f B - lam)) : ∀ B ∈ R, Tight f lam x B := by
  unfold vsum at h
  rw [← hR.sum_blocks x] at h
  have hle : ∀ B ∈ R, vsum x B ≤ f B - lam := fun B hB => hx B (hR.subset hB) (hR.nonempty hB)
  intro B hB
  exact (Finset.sum_eq_sum_iff_of_le hle).1 h B hB

/-- Invariant of the greedy algorithm on the processed nodes `U`. -/
structure DInv (f : Finset ℕ → ℚ) (lam : ℚ) (U : Finset ℕ) (x : ℕ → ℚ)
    (P : Finset (Finset ℕ)) : Prop where
  part : IsPartition U P
  poly : InPoly f lam U x
  tight : ∀ B ∈ P, Tight f lam x B

/-- `P` refines every partition of `U` into tight sets. -/
def FinestTight (f : Finset ℕ → ℚ) (lam : ℚ) (U : Finset ℕ) (x : ℕ → ℚ)
    (P : Finset (Finset ℕ)) : Prop :=
  ∀ R, IsPartition U R → (∀ B ∈ R, Tight f lam x B) → Refines P R

theorem DInv.empty : DInv f lam ∅ x ∅ where
  part := isPartition_empty
  poly := by
    intro S hS hne
    rw [Finset.subset_empty.1 hS] at hne
    exact absurd rfl hne.ne_empty
  tight := by simp

/-- Successive unions of tight sets that meet the tight set `T` are tight. -/
theorem tight_bigBlock (hf : Submodular f) {W T : Finset ℕ} (hx : InPoly f lam W x)
    (hP : ∀ B ∈ P, B ⊆ W) (hTW : T ⊆ W) (tT : Tight f lam x T)
    (tP : ∀ B ∈ P, ¬ Disjoint B T → Tight f lam x B) : Tight f lam x (bigBlock P T) := by
  have key : ∀ F : Finset (Finset ℕ), F ⊆ P.filter (fun B => ¬ Disjoint B T) →
      Tight f lam x (T ∪ F.sup id) ∧ T ∪ F.sup id ⊆ W := by
    intro F
    induction F using Finset.induction_on with
    | empty => intro _; simp [tT, hTW]
    | insert B F hBF ih =>
      intro hsub
      obtain ⟨iht, ihW⟩ := ih ((Finset.subset_insert _ _).trans hsub)
      obtain ⟨hB, hd⟩ := Finset.mem_filter.1 (hsub (Finset.mem_insert_self _ _))
      have heq : T ∪ (insert B F).sup id = (T ∪ F.sup id) ∪ B := by
        rw [Finset.sup_insert]
        ext v
        simp only [id, Finset.mem_union, Finset.sup_eq_union]
        tauto
      rw [heq]
      obtain ⟨v, hvB, hvT⟩ := Finset.not_disjoint_iff.1 hd
      refine ⟨(tight_union_inter hf hx ihW (hP B hB)
        ⟨v, Finset.mem_inter.2 ⟨Finset.mem_union_left _ hvT, hvB⟩⟩ iht (tP B hB hd)).1,
        Finset.union_subset ihW (hP B hB)⟩
  exact (key _ subset_rfl).1

/-- One step of the greedy algorithm. -/
theorem DInv.step (hf : Submodular f) (h : DInv f lam U x P) {l : ℕ} (hl : l ∉ U)
    {X : Finset ℕ} (hX : X ⊆ U) {x' : ℕ → ℚ} (hx' : ∀ i ∈ U, x' i = x i)
    (hval : x' l = f (insert l X) - lam - vsum x X)
    (hmin : ∀ Y ⊆ U, f (insert l X) - vsum x X ≤ f (insert l Y) - vsum x Y) :
    DInv f lam (insert l U) x' (expand P (insert l X)) := by
  have hsum : ∀ S ⊆ U, vsum x' S = vsum x S := fun S hS => vsum_congr fun i hi => hx' i (hS hi)
  have hpoly : InPoly f lam (insert l U) x' := by
    intro S hS hne
    by_cases hlS : l ∈ S
    · have hS' : S.erase l ⊆ U := by
        intro v hv
        have hv := Finset.mem_erase.1 hv
        exact (Finset.mem_insert.1 (hS hv.2)).resolve_left hv.1
      have h1 := hmin _ hS'
      rw [Finset.insert_erase hlS] at h1
      have h2 : vsum x' S = x' l + vsum x (S.erase l) := by
        rw [← hsum _ hS', ← vsum_insert x' (Finset.notMem_erase l S), Finset.insert_erase hlS]
      rw [h2, hval]
      linarith
    · have hS' : S ⊆ U := fun v hv =>
        (Finset.mem_insert.1 (hS hv)).resolve_left (fun h => hlS (h ▸ hv))
      rw [hsum S hS']
      exact h.poly S hS' hne
  have hlX : l ∉ X := fun h' => hl (hX h')
  have tT : Tight f lam x' (insert l X) := by
    unfold Tight
    rw [vsum_insert x' hlX, hsum X hX, hval]
    ring
  have hTW : insert l X ⊆ insert l U := Finset.insert_subset_insert l hX
  have tP : ∀ B ∈ P, Tight f lam x' B := by
    intro B hB
    unfold Tight
    rw [hsum B (h.part.subset hB)]
    exact h.tight B hB
  have hPW : ∀ B ∈ P, B ⊆ insert l U := fun B hB =>
    (h.part.subset hB).trans (Finset.subset_insert _ _)
  refine ⟨?_, hpoly, ?_⟩
  · have := expand_isPartition h.part (T := insert l X) ⟨l, Finset.mem_insert_self _ _⟩
    have e : U ∪ insert l X = insert l U := by
      ext v
      simp only [Finset.mem_union, Finset.mem_insert]
      constructor
      · rintro (h | h | h)
        · exact Or.inr h
        · exact Or.inl h
        · exact Or.inr (hX h)
      · rintro (h | h)
        · exact Or.inr (Or.inl h)
        · exact Or.inl h
    rwa [e] at this
  · intro B hB
    rcases mem_expand.1 hB with rfl | ⟨hB, _⟩
    · exact tight_bigBlock hf hpoly hPW hTW tT fun B hB _ => tP B hB
    · exact tP B hB

/-- One step preserves being the finest partition into tight sets if the minimiser is minimal. -/
theorem FinestTight.step (hf : Submodular f) (h : DInv f lam U x P)
    (hfin : FinestTight f lam U x P) {l : ℕ} (hl : l ∉ U)
    {X : Finset ℕ} (hX : X ⊆ U) {x' : ℕ → ℚ} (hx' : ∀ i ∈ U, x' i = x i)
    (hval : x' l = f (insert l X) - lam - vsum x X)
    (hmin : ∀ Y ⊆ U, f (insert l X) - vsum x X ≤ f (insert l Y) - vsum x Y)
    (hminimal : ∀ Y ⊆ U, f (insert l X) - vsum x X = f (insert l Y) - vsum x Y → X ⊆ Y) :
    FinestTight f lam (insert l U) x' (expand P (insert l X)) := by
  have hD := h.step hf hl hX hx' hval hmin
  have hsum : ∀ S ⊆ U, vsum x' S = vsum x S := fun S hS => vsum_congr fun i hi => hx' i (hS hi)
  have hlX : l ∉ X := fun h' => hl (hX h')
  intro R hR tR
  -- every old block lies in a block of `R`
  have hold : ∀ B ∈ P, ∃ C ∈ R, B ⊆ C := by
    intro B hB
    -- refine `P` by splitting `B` along `R`
    let R' : Finset (Finset ℕ) := P.erase B ∪ (meeting R B).image fun A => A ∩ B
    have hmem : ∀ C, C ∈ R' ↔ (C ≠ B ∧ C ∈ P) ∨ ∃ A ∈ R, ¬ Disjoint A B ∧ A ∩ B = C := by
      intro C
      simp [R', mem_meeting, and_assoc]
    have hBU := h.part.subset hB
    have hR' : IsPartition U R' := by
      rw [isPartition_iff]
      refine ⟨?_, ?_, ?_⟩
      · intro C hC
        rcases (hmem C).1 hC with ⟨_, hC⟩ | ⟨A, hA, hd, rfl⟩
        · exact ⟨h.part.nonempty hC, h.part.subset hC⟩
        · refine ⟨?_, Finset.inter_subset_right.trans hBU⟩
          rwa [Finset.not_disjoint_iff_nonempty_inter] at hd
      · intro v hv
        obtain ⟨C, hC, hvC⟩ := h.part.exists_block hv
        by_cases hCB : C = B
        · subst hCB
          obtain ⟨A, hA, hvA⟩ := hR.exists_block (Finset.mem_insert_of_mem hv)
          exact ⟨A ∩ C, (hmem _).2 (Or.inr ⟨A, hA, Finset.not_disjoint_iff.2 ⟨v, hvA, hvC⟩, rfl⟩),
            Finset.mem_inter.2 ⟨hvA, hvC⟩⟩
        · exact ⟨C, (hmem _).2 (Or.inl ⟨hCB, hC⟩), hvC⟩
      · intro C hC D hD' v hvC hvD
        rcases (hmem C).1 hC with ⟨hne, hC⟩ | ⟨A, hA, hd, rfl⟩ <;>
          rcases (hmem D).1 hD' with ⟨hne', hD'⟩ | ⟨A', hA', hd', rfl⟩
        · exact h.part.eq_of_mem hC hD' hvC hvD
        · exact absurd (h.part.eq_of_mem hC hB hvC (Finset.mem_inter.1 hvD).2) hne
        · exact absurd (h.part.eq_of_mem hD' hB hvD (Finset.mem_inter.1 hvC).2) hne'
        · rw [hR.eq_of_mem hA hA' (Finset.mem_inter.1 hvC).1 (Finset.mem_inter.1 hvD).1]
    have tB : Tight f lam x' B := by
      unfold Tight
      rw [hsum B hBU]
      exact h.tight B hB
    have tR' : ∀ C ∈ R', Tight f lam x C := by
      intro C hC
      rcases (hmem C).1 hC with ⟨_, hC⟩ | ⟨A, hA, hd, rfl⟩
      · exact h.tight C hC
      · have hne : (A ∩ B).Nonempty := by rwa [Finset.not_disjoint_iff_nonempty_inter] at hd
        have := (tight_union_inter hf hD.poly (hR.subset hA)
          (hBU.trans (Finset.subset_insert _ _)) hne (tR A hA) tB).2
        unfold Tight at this ⊢
        rwa [hsum _ (Finset.inter_subset_right.trans hBU)] at this
    obtain ⟨C, hC, hBC⟩ := hfin R' hR' tR' B hB
    rcases (hmem C).1 hC with ⟨hne, hC⟩ | ⟨A, hA, hd, rfl⟩
    · obtain ⟨v, hv⟩ := h.part.nonempty hB
      exact absurd (h.part.eq_of_mem hC hB (hBC hv) hv) hne
    · exact ⟨A, hA, hBC.trans Finset.inter_subset_left⟩
  -- the new tight set lies in the block of `R` containing `l`
  obtain ⟨C, hC, hlC⟩ := hR.exists_block (Finset.mem_insert_self l U)
  have hCU : C.erase l ⊆ U := by
    intro v hv
    have hv := Finset.mem_erase.1 hv
    exact (Finset.mem_insert.1 (hR.subset hC hv.2)).resolve_left hv.1
  have hTC : insert l X ⊆ C := by
    have tC := tR C hC
    unfold Tight at tC
    have h2 : vsum x' C = x' l + vsum x (C.erase l) := by
      rw [← hsum _ hCU, ← vsum_insert x' (Finset.notMem_erase l C), Finset.insert_erase hlC]
    rw [h2, hval] at tC
    have := hminimal _ hCU (by rw [Finset.insert_erase hlC]; linarith)
    intro v hv
    rcases Finset.mem_insert.1 hv with rfl | hv
    · exact hlC
    · exact Finset.mem_of_mem_erase (this hv)
  intro B hB
  rcases mem_expand.1 hB with rfl | ⟨hB, _⟩
  · refine ⟨C, hC, fun v hv => ?_⟩
    rcases mem_bigBlock.1 hv with hv | ⟨A, hA, hd, hvA⟩
    · exact hTC hv
    · obtain ⟨D, hD', hAD⟩ := hold A hA
      obtain ⟨w, hwA, hwT⟩ := Finset.not_disjoint_iff.1 hd
      have : D = C := hR.eq_of_mem hD' hC (hAD hwA) (hTC hwT)
      subst this
      exact hAD hvA
  · exact hold B hB

theorem FinestTight.empty : FinestTight f lam ∅ x ∅ := by
  intro R _ _ B hB
  simp at hB

end PSP.Theory
