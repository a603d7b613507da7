import Verif.Theory.DilworthRun

/-!
# The greedy step of the Dilworth truncation with errors
-/

namespace PSP.Theory

open PSP.Spec PSP.Model

variable {f : Finset ℕ → ℚ} {lam e : ℚ} {U V : Finset ℕ} {x : ℕ → ℚ} {P R : Finset (Finset ℕ)}

/-- `DInv` up to errors. -/
structure AInv (f : Finset ℕ → ℚ) (lam e : ℚ) (U : Finset ℕ) (x : ℕ → ℚ) (P : Finset (Finset ℕ)) : Prop where
  part : IsPartition U P
  poly : ∀ S ⊆ U, S.Nonempty → vsum x S ≤ f S - lam + e
  tight : ∀ B ∈ P, f B - lam ≤ vsum x B + (2 * B.card - 1) * e

theorem AInv.empty : AInv f lam e ∅ x ∅ where
  part := isPartition_empty
  poly := by
    intro S hS hne
    rw [Finset.subset_empty.1 hS] at hne
    exact absurd rfl hne.ne_empty
  tight := by simp

/-- Union of a nearly tight set with nearly tight blocks that meet it. -/
theorem nearly_tight_bigBlock (hf : Submodular f) {W T : Finset ℕ} {l : ℕ}
    (hx : ∀ S ⊆ W, S.Nonempty → vsum x S ≤ f S - lam + e) (hP : IsPartition U P) (hUW : U ⊆ W) (hTW : T ⊆ W)
    (hlT : l ∈ T) (hlU : l ∉ U) (hTU : T ⊆ insert l U)
    (tT : f T - lam ≤ vsum x T + e)
    (tP : ∀ B ∈ P, f B - lam ≤ vsum x B + (2 * B.card - 1) * e) :
    f (bigBlock P T) - lam ≤ vsum x (bigBlock P T) + (2 * (bigBlock P T).card - 1) * e := by
  have key : ∀ F : Finset (Finset ℕ), F ⊆ P.filter (fun B => ¬ Disjoint B T) →
      f (T ∪ F.sup id) - lam ≤ vsum x (T ∪ F.sup id) + e + 2 * (F.sup id).card * e ∧ T ∪ F.sup id ⊆ W ∧
      F.sup id ⊆ U := by
    intro F
    induction F using Finset.induction_on with
    | empty => intro _; simpa [hTW] using tT
    | insert B F hBF ih =>
      intro hsub
      obtain ⟨iht, ihW, ihU⟩ := ih ((Finset.subset_insert _ _).trans hsub)
      obtain ⟨hB, hd⟩ := Finset.mem_filter.1 (hsub (Finset.mem_insert_self _ _))
      have heq : T ∪ (insert B F).sup id = (T ∪ F.sup id) ∪ B := by
        rw [Finset.sup_insert]
        ext v
        simp only [id, Finset.mem_union, Finset.sup_eq_union]
        tauto
      have hdis : Disjoint B (F.sup id) := by
        rw [Finset.disjoint_left]
        intro v hv hvF
        obtain ⟨C, hC, hvC⟩ := Finset.mem_sup.1 hvF
        have hCP := (Finset.mem_filter.1 (hsub (Finset.mem_insert_of_mem hC))).1
        have : B = C := hP.eq_of_mem hB hCP hv hvC
        exact hBF (this ▸ hC)
      have hcard : ((insert B F).sup id).card = B.card + (F.sup id).card := by
        rw [Finset.sup_insert]
        exact Finset.card_union_of_disjoint hdis
      have hBW := (hP.subset hB).trans hUW
      refine ⟨?_, by rw [heq]; exact Finset.union_subset ihW hBW, by
        rw [Finset.sup_insert]; exact Finset.union_subset (hP.subset hB) ihU⟩
      rw [heq, hcard]
      obtain ⟨v, hvB, hvT⟩ := Finset.not_disjoint_iff.1 hd
      have hne : ((T ∪ F.sup id) ∩ B).Nonempty := ⟨v, Finset.mem_inter.2 ⟨Finset.mem_union_left _ hvT, hvB⟩⟩
      have h1 := hf _ _ hne
      have h2 := vsum_union_inter x (T ∪ F.sup id) B
      have h3 := hx _ (Finset.inter_subset_right.trans hBW) hne
      have h4 := tP B hB
      push_cast
      linarith
  obtain ⟨h1, _, h3⟩ := key _ subset_rfl
  have hbb : bigBlock P T = T ∪ (P.filter fun B => ¬ Disjoint B T).sup id := rfl
  rw [hbb]
  set G := (P.filter fun B => ¬ Disjoint B T).sup id
  have hTG : T ∪ G = insert l G := by
    ext v
    simp only [Finset.mem_union, Finset.mem_insert]
    constructor
    · rintro (hv | hv)
      · rcases Finset.mem_insert.1 (hTU hv) with h | h
        · exact Or.inl h
        · right
          obtain ⟨B, ⟨hB, hvB⟩, _⟩ := hP.2 v h
          exact Finset.mem_sup.2 ⟨B, Finset.mem_filter.2 ⟨hB, Finset.not_disjoint_iff.2 ⟨v, hvB, hv⟩⟩, hvB⟩
      · exact Or.inr hv
    · rintro (rfl | hv)
      · exact Or.inl hlT
      · exact Or.inr hv
  have hc : (T ∪ G).card = G.card + 1 := by
    rw [hTG, Finset.card_insert_of_notMem fun h => hlU (h3 h)]
  rw [hc]
  push_cast
  linarith

/-- One step. -/
theorem AInv.step (hf : Submodular f) (h : AInv f lam e U x P) {l : ℕ} (hl : l ∉ U)
    {X : Finset ℕ} (hX : X ⊆ U) {x' : ℕ → ℚ} (hx' : ∀ i ∈ U, x' i = x i)
    (hval : f (insert l X) - lam - vsum x X ≤ x' l + e)
    (hmin : ∀ Y ⊆ U, x' l ≤ f (insert l Y) - lam - vsum x Y + e) :
    AInv f lam e (insert l U) x' (expand P (insert l X)) := by
  have hsum : ∀ S ⊆ U, vsum x' S = vsum x S := fun S hS => vsum_congr fun i hi => hx' i (hS hi)
  have hpoly : ∀ S ⊆ insert l U, S.Nonempty → vsum x' S ≤ f S - lam + e := by
    intro S hS hne
    by_cases hlS : l ∈ S
    · have hS' : S.erase l ⊆ U := by
        intro v hv
        have hv := Finset.mem_erase.1 hv
        exact (Finset.mem_insert.1 (hS hv.2)).resolve_left hv.1
      have h1 := hmin _ hS'
      rw [Finset.insert_erase hlS] at h1
      have h2 : vsum x' S = x' l + vsum x (S.erase l) := by
        rw [← hsum _ hS', ← vsum_insert x' (Finset.notMem_erase l S), Finset.insert_erase hlS]
      rw [h2]
      linarith
    · have hS' : S ⊆ U := fun v hv =>
        (Finset.mem_insert.1 (hS hv)).resolve_left (fun h => hlS (h ▸ hv))
      rw [hsum S hS']
      exact h.poly S hS' hne
  have hlX : l ∉ X := fun h' => hl (hX h')
  have tT : f (insert l X) - lam ≤ vsum x' (insert l X) + e := by
    rw [vsum_insert x' hlX, hsum X hX]
    linarith
  have hTW : insert l X ⊆ insert l U := Finset.insert_subset_insert l hX
  have tP : ∀ B ∈ P, f B - lam ≤ vsum x' B + (2 * B.card - 1) * e := by
    intro B hB
    rw [hsum B (h.part.subset hB)]
    exact h.tight B hB
  refine ⟨?_, hpoly, ?_⟩
  · have := expand_isPartition h.part (T := insert l X) ⟨l, Finset.mem_insert_self _ _⟩
    have e : U ∪ insert l X = insert l U := by
      ext v
      simp only [Finset.mem_union, Finset.mem_insert]
      constructor
      · rintro (h | h | h)
        · exact Or.inr h
        · exact Or.inl h
        · exact Or.inr (hX h)
      · rintro (h | h)
        · exact Or.inr (Or.inl h)
        · exact Or.inl h
    rwa [e] at this
  · intro B hB
    rcases mem_expand.1 hB with rfl | ⟨hB, _⟩
    · exact nearly_tight_bigBlock hf hpoly h.part (Finset.subset_insert _ _) hTW (Finset.mem_insert_self _ _) hl hTW
        tT tP
    · exact tP B hB

theorem AInv.le (h : AInv f lam e V x P) (he : 0 ≤ e) (hR : IsPartition V R) :
    vsum x V ≤ ∑ B ∈ R, (f B - lam) + V.card * e := by
  have h1 : vsum x V ≤ ∑ B ∈ R, (f B - lam + e) := by
    unfold vsum
    rw [← hR.sum_blocks x]
    exact Finset.sum_le_sum fun B hB => h.poly B (hR.subset hB) (hR.nonempty hB)
  rw [Finset.sum_add_distrib] at h1
  have h2 : ∑ _B ∈ R, e ≤ V.card * e := by
    rw [Finset.sum_const, nsmul_eq_mul]
    exact mul_le_mul_of_nonneg_right (by exact_mod_cast hR.card_le) he
  linarith

theorem AInv.ge (h : AInv f lam e V x P) (he : 0 ≤ e) :
    ∑ B ∈ P, (f B - lam) ≤ vsum x V + 2 * V.card * e := by
  have h1 : ∑ B ∈ P, (f B - lam) ≤ ∑ B ∈ P, (vsum x B + (2 * B.card - 1) * e) :=
    Finset.sum_le_sum fun B hB => h.tight B hB
  rw [Finset.sum_add_distrib] at h1
  have h2 : ∑ B ∈ P, vsum x B = vsum x V := by unfold vsum; exact h.part.sum_blocks x
  have h3 : ∑ B ∈ P, (2 * (B.card : ℚ) - 1) * e ≤ ∑ B ∈ P, ∑ _v ∈ B, 2 * e := by
    apply Finset.sum_le_sum
    intro B _
    rw [Finset.sum_const, nsmul_eq_mul]
    nlinarith
  rw [h.part.sum_blocks (fun _ => 2 * e), Finset.sum_const, nsmul_eq_mul] at h3
  linarith

end PSP.Theory
