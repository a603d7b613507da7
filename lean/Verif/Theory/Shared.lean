import Verif.Spec.Shared
import Verif.Spec.Approx
import Verif.Spec.ApproxSF
import Verif.Theory.Spectrum
import Verif.Theory.SFSeq

/-!
# The principal sequence of an intersecting submodular function consists of its clusters
-/

namespace PSP.Theory

open PSP.Spec
open PSP.Model (expand)

variable {φ : Finset ℕ → ℚ} {V : Finset ℕ} {Ps : List (Finset (Finset ℕ))} {cv : List ℚ}
  {P Q : Finset (Finset ℕ)} {lam : ℚ}

/-- Replacing a block by a partition of it. -/
theorem replace_block (hP : IsPartition V P) {B : Finset ℕ} (hB : B ∈ P) (hQ : IsPartition B Q) :
    IsPartition V (P.erase B ∪ Q) ∧ Disjoint (P.erase B) Q := by
  have hout : ∀ C ∈ P.erase B, ∀ D ∈ Q, ∀ v ∈ C, v ∉ D := by
    intro C hC D hD v hv hv'
    have h1 := Finset.mem_erase.1 hC
    exact h1.1 (hP.eq_of_mem h1.2 hB hv (hQ.subset hD hv'))
  refine ⟨?_, ?_⟩
  · rw [isPartition_iff]
    refine ⟨?_, ?_, ?_⟩
    · intro C hC
      rcases Finset.mem_union.1 hC with hC | hC
      · have := Finset.mem_of_mem_erase hC
        exact ⟨hP.nonempty this, hP.subset this⟩
      · exact ⟨hQ.nonempty hC, (hQ.subset hC).trans (hP.subset hB)⟩
    · intro v hv
      obtain ⟨C, hC, hvC⟩ := hP.exists_block hv
      by_cases hCB : C = B
      · obtain ⟨D, hD, hvD⟩ := hQ.exists_block (hCB ▸ hvC)
        exact ⟨D, Finset.mem_union_right _ hD, hvD⟩
      · exact ⟨C, Finset.mem_union_left _ (Finset.mem_erase.2 ⟨hCB, hC⟩), hvC⟩
    · intro C hC D hD v hv hv'
      rcases Finset.mem_union.1 hC with hC | hC <;> rcases Finset.mem_union.1 hD with hD | hD
      · exact hP.eq_of_mem (Finset.mem_of_mem_erase hC) (Finset.mem_of_mem_erase hD) hv hv'
      · exact absurd hv' (hout C hC D hD v hv)
      · exact absurd hv (hout D hD C hC v hv')
      · exact hQ.eq_of_mem hC hD hv hv'
  · rw [Finset.disjoint_left]
    intro C hC hC'
    obtain ⟨v, hv⟩ := hQ.nonempty hC'
    exact hout C hC C hC' v hv hv

/-- The parts of a block of a nearly optimal partition have nearly enough in common. -/
theorem near_block {C : ℚ} (h : IsNearOptimalSF φ V C lam P) {B : Finset ℕ} (hB : B ∈ P) (hQ : IsPartition B Q) :
    lam * ((Q.card : ℚ) - 1) ≤ common φ B Q + C := by
  obtain ⟨h1, h2⟩ := replace_block h.1 hB hQ
  have h3 := h.2 _ h1
  rw [costSF_eq, costSF_eq, Finset.sum_union h2, Finset.card_union_of_disjoint h2] at h3
  have h4 := Finset.sum_erase_add P φ hB
  have h5 : ((P.erase B).card : ℚ) + 1 = P.card := by
    exact_mod_cast Finset.card_erase_add_one hB
  push_cast at h3
  rw [← h4, ← h5] at h3
  unfold common
  linarith

/-- The parts of a block of an optimal partition have enough in common. -/
theorem IsOptimalSF.block (h : IsOptimalSF φ V lam P) {B : Finset ℕ} (hB : B ∈ P) (hQ : IsPartition B Q) :
    lam * ((Q.card : ℚ) - 1) ≤ common φ B Q := by
  have := near_block (C := 0) ⟨h.1, fun R hR => by have := h.2 R hR; linarith⟩ hB hQ
  linarith

/-- The traces of the blocks of a partition on a set. -/
theorem traces (hP : IsPartition V P) {S : Finset ℕ} (hSV : S ⊆ V) :
    IsPartition S ((meeting P S).image fun A => A ∩ S) ∧
      ((meeting P S).image fun A => A ∩ S).card = (meeting P S).card ∧
      ∑ C ∈ (meeting P S).image fun A => A ∩ S, φ C = ∑ A ∈ meeting P S, φ (A ∩ S) := by
  have hinj : Set.InjOn (fun A => A ∩ S) (meeting P S : Set (Finset ℕ)) := by
    intro A hA A' hA' heq
    have hA := mem_meeting.1 hA
    have hA' := mem_meeting.1 hA'
    obtain ⟨v, hvA, hvS⟩ := Finset.not_disjoint_iff.1 hA.2
    have : v ∈ A' ∩ S := by
      rw [← show A ∩ S = A' ∩ S from heq]; exact Finset.mem_inter.2 ⟨hvA, hvS⟩
    exact hP.eq_of_mem hA.1 hA'.1 hvA (Finset.mem_inter.1 this).1
  refine ⟨?_, Finset.card_image_of_injOn hinj, Finset.sum_image hinj⟩
  rw [isPartition_iff]
  simp only [Finset.mem_image, mem_meeting]
  refine ⟨?_, ?_, ?_⟩
  · rintro _ ⟨A, ⟨_, hd⟩, rfl⟩
    exact ⟨Finset.not_disjoint_iff_nonempty_inter.1 hd, Finset.inter_subset_right⟩
  · intro v hv
    obtain ⟨A, hA, hvA⟩ := hP.exists_block (hSV hv)
    exact ⟨A ∩ S, ⟨A, ⟨hA, Finset.not_disjoint_iff.2 ⟨v, hvA, hv⟩⟩, rfl⟩, Finset.mem_inter.2 ⟨hvA, hv⟩⟩
  · rintro _ ⟨A, ⟨hA, _⟩, rfl⟩ _ ⟨A', ⟨hA', _⟩, rfl⟩ v hv hv'
    rw [hP.eq_of_mem hA hA' (Finset.mem_inter.1 hv).1 (Finset.mem_inter.1 hv').1]

/-- Merging the blocks that meet `S`. -/
theorem costSF_expand (hφ : Intersecting V φ) (hP : IsPartition V P) {S : Finset ℕ} (hS : S.Nonempty) (hSV : S ⊆ V)
    (lam : ℚ) : ∃ Q, IsPartition S Q ∧ Q.card = (meeting P S).card ∧
      costSF φ lam (expand P S) + common φ S Q ≤ costSF φ lam P + lam * ((Q.card : ℚ) - 1) := by
  obtain ⟨t1, t2, t3⟩ := traces (φ := φ) hP hSV
  refine ⟨_, t1, t2, ?_⟩
  unfold common
  rw [t2, t3]
  have h2 := uncross_meeting hφ hP hSV
  have h3 := sum_expand (P := P) (h := φ) hS
  have h4 : ((expand P S).card : ℚ) + (meeting P S).card = P.card + 1 := by exact_mod_cast card_expand (P := P) hS
  have h5 : ((expand P S).card : ℚ) = P.card + 1 - (meeting P S).card := by linarith
  rw [costSF_eq, costSF_eq, h5]
  linarith

/-- Merging the blocks that meet `S` costs nothing if the parts of `S` have enough in common. -/
theorem costSF_expand_le (hφ : Intersecting V φ) (hP : IsPartition V P) {S : Finset ℕ} (hS : S.Nonempty) (hSV : S ⊆ V)
    (h : ∀ Q, IsPartition S Q → lam * ((Q.card : ℚ) - 1) ≤ common φ S Q) :
    costSF φ lam (expand P S) ≤ costSF φ lam P := by
  obtain ⟨Q, h1, -, h2⟩ := costSF_expand hφ hP hS hSV lam
  have := h Q h1
  linarith

theorem near_nonneg {C : ℚ} (h : IsNearOptimalSF φ V C lam P) : 0 ≤ C := by
  have := h.2 P h.1
  linarith

theorem near_block_shares {C γ : ℚ} (h : IsNearOptimalSF φ V C lam P) (hγ : γ < lam - C) {B : Finset ℕ} (hB : B ∈ P) :
    SharesMore φ γ B := by
  intro Q hQ hQ2
  have h1 := near_block h hB hQ
  have h2 := near_nonneg h
  have hq : (2 : ℚ) ≤ Q.card := by exact_mod_cast hQ2
  have h3 : (γ + C) * ((Q.card : ℚ) - 1) < lam * ((Q.card : ℚ) - 1) := mul_lt_mul_of_pos_right (by linarith) (by linarith)
  nlinarith

/-- A set that shares more than the parameter and the error lies in one block. -/
theorem near_same {C : ℚ} (hφ : Intersecting V φ) (h : IsNearOptimalSF φ V C lam P) {S : Finset ℕ} (hSV : S ⊆ V)
    (hS : SharesMore φ (lam + C) S) {u v : ℕ} (hu : u ∈ S) (hv : v ∈ S) : Same P u v := by
  obtain ⟨A, hA, huA⟩ := h.1.exists_block (hSV hu)
  obtain ⟨B, hB, hvB⟩ := h.1.exists_block (hSV hv)
  by_contra hcon
  have hne : A ≠ B := fun he => hcon ⟨A, hA, huA, he ▸ hvB⟩
  obtain ⟨Q, h1, h2, h3⟩ := costSF_expand hφ h.1 ⟨u, hu⟩ hSV lam
  have hQ2 : 2 ≤ Q.card := by
    rw [h2]
    refine (Finset.card_pair hne).symm.le.trans (Finset.card_le_card fun D hD => ?_)
    rcases Finset.mem_insert.1 hD with rfl | hD
    · exact mem_meeting.2 ⟨hA, Finset.not_disjoint_iff.2 ⟨u, huA, hu⟩⟩
    · rw [Finset.mem_singleton.1 hD]
      exact mem_meeting.2 ⟨hB, Finset.not_disjoint_iff.2 ⟨v, hvB, hv⟩⟩
  have h4 := hS Q h1 hQ2
  have h5 := h.2 _ (expand_isPartition' h.1 ⟨u, hu⟩ hSV)
  have h6 := near_nonneg h
  have hq : (2 : ℚ) ≤ Q.card := by exact_mod_cast hQ2
  nlinarith

theorem sharesMore_gap {γ : ℚ} {S : Finset ℕ} (hS : S.Nonempty) (h : SharesMore φ γ S) :
    ∃ σ, γ < σ ∧ ∀ δ ≤ σ, ∀ Q, IsPartition S Q → δ * ((Q.card : ℚ) - 1) ≤ common φ S Q := by
  classical
  have hone : ∀ Q : Finset (Finset ℕ), IsPartition S Q → ¬ 2 ≤ Q.card → ∀ δ : ℚ,
      δ * ((Q.card : ℚ) - 1) ≤ common φ S Q := by
    intro Q hQ hc δ
    have h1 : Q.card = 1 := by have := hQ.card_pos hS; omega
    rw [hQ.eq_single_of_card h1]
    simp [common]
  by_cases hne : (S.powerset.powerset.filter fun Q => IsPartition S Q ∧ 2 ≤ Q.card).Nonempty
  · obtain ⟨Q, hQ, hmin⟩ := Finset.exists_min_image _
      (fun Q => common φ S Q / ((Q.card : ℚ) - 1)) hne
    have hq := (Finset.mem_filter.1 hQ).2
    have hpos : ∀ R : Finset (Finset ℕ), 2 ≤ R.card → (0 : ℚ) < (R.card : ℚ) - 1 := by
      intro R hR
      have : (2 : ℚ) ≤ R.card := by exact_mod_cast hR
      linarith
    refine ⟨common φ S Q / ((Q.card : ℚ) - 1), ?_, fun δ hδ R hR => ?_⟩
    · rw [lt_div_iff₀ (hpos Q hq.2)]
      exact h Q hq.1 hq.2
    · by_cases hR2 : 2 ≤ R.card
      · have := hmin R (Finset.mem_filter.2 ⟨Finset.mem_powerset.2 fun B hB =>
          Finset.mem_powerset.2 (hR.subset hB), hR, hR2⟩)
        rw [← le_div_iff₀ (hpos R hR2)]
        exact hδ.trans this
      · exact hone R hR hR2 δ
  · refine ⟨γ + 1, by linarith, fun δ _ R hR => ?_⟩
    refine hone R hR (fun hR2 => hne ⟨R, Finset.mem_filter.2 ⟨Finset.mem_powerset.2 fun B hB =>
        Finset.mem_powerset.2 (hR.subset hB), hR, hR2⟩⟩) δ

theorem sf_cluster (hφ : Intersecting V φ) (h : IsPrincipalSequenceSF φ V Ps cv) {γ : ℚ}
    {i : ℕ} (hi : Ps[i]? = some P)
    (h1 : ∀ j c, cv[j]? = some c → j < i → c ≤ γ) (h2 : ∀ j c, cv[j]? = some c → i ≤ j → γ < c) {u v : ℕ} :
    Same P u v ↔ ∃ S ⊆ V, u ∈ S ∧ v ∈ S ∧ SharesMore φ γ S := by
  have hmono := h.increasing.imp (fun h => le_of_lt h)
  obtain ⟨m, hm, hm2⟩ : ∃ m, γ < m ∧ ∀ j c, cv[j]? = some c → i ≤ j → m ≤ c := by
    by_cases hlt : i < cv.length
    · have hp : cv[i]? = some (cv[i]'hlt) := List.getElem?_eq_getElem _
      exact ⟨cv[i]'hlt, h2 i _ hp le_rfl, fun j c hj hij => getElem?_mono hmono hp hj hij⟩
    · refine ⟨γ + 1, by linarith, fun j c hj hij => ?_⟩
      have := (List.getElem?_eq_some_iff.1 hj).1
      omega
  have hopt : ∀ δ, γ ≤ δ → δ ≤ m → IsOptimalSF φ V δ P := fun δ d1 d2 => h.optimal i P δ hi
    (fun j c hj hji => (h1 j c hj hji).trans d1) (fun j c hj hji => d2.trans (hm2 j c hj hji))
  constructor
  · rintro ⟨B, hB, hu, hv⟩
    have hop := hopt m hm.le le_rfl
    refine ⟨B, hop.1.subset hB, hu, hv, fun Q hQ hQ2 => ?_⟩
    have := IsOptimalSF.block hop hB hQ
    have hq : (2 : ℚ) ≤ Q.card := by exact_mod_cast hQ2
    nlinarith
  · rintro ⟨S, hSV, huS, hvS, hS⟩
    obtain ⟨σ, hσ, hσ2⟩ := sharesMore_gap ⟨u, huS⟩ hS
    obtain ⟨δ, d1, d2⟩ : ∃ δ, γ < δ ∧ δ < min σ m :=
      ⟨(γ + min σ m) / 2, by linarith [lt_min hσ hm], by linarith [lt_min hσ hm]⟩
    have hδσ := (lt_min_iff.1 d2).1
    have hδm := (lt_min_iff.1 d2).2
    have hP := hopt δ d1.le hδm.le
    have hle := costSF_expand_le hφ hP.1 ⟨u, huS⟩ hSV (hσ2 δ hδσ.le)
    have heq := h.unique i P δ hi (fun j c hj hji => (h1 j c hj hji).trans_lt d1)
      (fun j c hj hji => hδm.trans_le (hm2 j c hj hji)) _
      ⟨expand_isPartition' hP.1 ⟨u, huS⟩ hSV, fun R hR => hle.trans (hP.2 R hR)⟩
    refine ⟨bigBlock P S, ?_, subset_bigBlock huS, subset_bigBlock hvS⟩
    have := bigBlock_mem_expand (P := P) (T := S)
    rwa [heq] at this

/-- The steps of the sequence. -/
theorem sf_step (h : IsPrincipalSequenceSF φ V Ps cv) {i : ℕ} {c : ℚ} (hc : cv[i]? = some c) :
    ∃ A B, Ps[i]? = some A ∧ Ps[i + 1]? = some B ∧ IsOptimalSF φ V c A ∧ IsOptimalSF φ V c B ∧ Refines B A ∧ B ≠ A := by
  have hmono := h.increasing.imp (fun h => le_of_lt h)
  have hlen := h.length
  have hil : i < cv.length := (List.getElem?_eq_some_iff.1 hc).1
  have hA : Ps[i]? = some (Ps[i]'(by omega)) := List.getElem?_eq_getElem _
  have hB : Ps[i + 1]? = some (Ps[i + 1]'(by omega)) := List.getElem?_eq_getElem _
  refine ⟨_, _, hA, hB, ?_, ?_, ?_⟩
  · exact h.optimal i _ c hA (fun j d hj hji => getElem?_mono hmono hj hc (by omega))
      (fun j d hj hji => getElem?_mono hmono hc hj (by omega))
  · exact h.optimal (i + 1) _ c hB (fun j d hj hji => getElem?_mono hmono hj hc (by omega))
      (fun j d hj hji => getElem?_mono hmono hc hj (by omega))
  · exact List.pairwise_iff_getElem.1 h.refine i (i + 1) (by omega) (by omega) (by omega)

theorem stepSum_sf : ∀ (Ps : List (Finset (Finset ℕ))) (cv : List ℚ) (A B : Finset (Finset ℕ)),
    Ps.length = cv.length + 1 → Ps.head? = some A → Ps.getLast? = some B →
    (∀ (i : ℕ) (c : ℚ), cv[i]? = some c → ∃ P Q, Ps[i]? = some P ∧ Ps[i + 1]? = some Q ∧ costSF φ c P = costSF φ c Q) →
    stepSum Ps cv = ∑ C ∈ B, φ C - ∑ C ∈ A, φ C := by
  intro Ps cv
  induction cv generalizing Ps with
  | nil =>
    intro A B hl hA hB _
    obtain ⟨P, rfl⟩ := List.length_eq_one_iff.1 hl
    simp only [List.head?_cons, Option.some.injEq, List.getLast?_singleton] at hA hB
    subst hA hB
    simp [stepSum]
  | cons c cv ih =>
    intro A B hl hA hB hs
    obtain ⟨P, Q, Ps, rfl⟩ : ∃ P Q t, Ps = P :: Q :: t := by
      match Ps, hl with
      | P :: Q :: t, _ => exact ⟨P, Q, t, rfl⟩
    simp only [List.head?_cons, Option.some.injEq] at hA
    subst hA
    have h1 := ih (Q :: Ps) Q B (by simpa using hl) rfl (by simpa using hB) (fun i d hi => by
      obtain ⟨P', Q', h1, h2, h3⟩ := hs (i + 1) d (by simpa using hi)
      exact ⟨P', Q', by simpa using h1, by simpa using h2, h3⟩)
    obtain ⟨P', Q', h2, h3, h4⟩ := hs 0 c (by simp)
    simp only [List.getElem?_cons_zero, List.getElem?_cons_succ, Option.some.injEq] at h2 h3
    subst h2 h3
    rw [costSF_eq, costSF_eq] at h4
    simp only [stepSum, h1]
    linarith

theorem card_sub_one_pos {α : Type} {s : Finset α} (h : 2 ≤ s.card) : (0 : ℚ) < (s.card : ℚ) - 1 := by
  have : (2 : ℚ) ≤ s.card := by exact_mod_cast h
  linarith

/-- A principal sequence consists of the clusters. -/
theorem sf_clusters (hφ : Intersecting V φ) (h : IsPrincipalSequenceSF φ V Ps cv) : AreClusters φ V Ps cv where
  cluster γ := by
    have hmono := h.increasing.imp (fun h => le_of_lt h)
    have hlt : (cv.countP fun c => decide (c ≤ γ)) < Ps.length := by
      have := h.length
      have := List.countP_le_length (p := fun c => decide (c ≤ γ)) (l := cv)
      omega
    refine ⟨Ps[cv.countP fun c => decide (c ≤ γ)]'hlt, List.getElem?_eq_getElem _, fun u v => ?_⟩
    refine sf_cluster hφ h (List.getElem?_eq_getElem hlt) ?_ ?_
    · exact fun j c hj hlt => (countP_sorted hmono j c hj).1 hlt
    · intro j c hj hle
      by_contra hcon
      exact absurd ((countP_sorted hmono j c hj).2 (not_lt.1 hcon)) (by omega)
  some_value hV h0 := by
    have hlen := h.length
    have hf1 := h.first
    have hl := h.last
    obtain ⟨P, hP⟩ : ∃ P, Ps = [P] := List.length_eq_one_iff.1 (by rw [hlen, h0]; rfl)
    rw [hP] at hf1 hl
    simp only [List.head?_cons, Option.some.injEq, List.getLast?_singleton] at hf1 hl
    have := congrArg Finset.card (hf1.symm.trans hl)
    rw [Finset.card_singleton, card_singletons] at this
    omega
  first c hc := by
    obtain ⟨A, B, hA, hB, o1, o2, r1, r2⟩ := sf_step h (i := 0) (c := c) (by rwa [← List.head?_eq_getElem?])
    have hAV : A = {V} := by
      have := h.first
      rw [List.head?_eq_getElem?, hA] at this
      simpa using this
    subst hAV
    have hB2 : 2 ≤ B.card := by
      have := r1.card_lt o2.1 o1.1 r2
      rw [Finset.card_singleton] at this
      omega
    have up : ∀ P, IsPartition V P → c * ((P.card : ℚ) - 1) ≤ common φ V P := fun P hP =>
      IsOptimalSF.block o1 (Finset.mem_singleton_self V) hP
    refine ⟨⟨B, o2.1, hB2, ?_⟩, ?_⟩
    · rw [eq_div_iff (card_sub_one_pos hB2).ne']
      refine le_antisymm (up B o2.1) ?_
      have := o2.2 _ o1.1
      rw [costSF_eq, costSF_eq, Finset.sum_singleton, Finset.card_singleton] at this
      push_cast at this
      unfold common
      linarith
    · rintro x ⟨P, hP, hP2, rfl⟩
      rw [le_div_iff₀ (card_sub_one_pos hP2)]
      exact up P hP
  last c hc := by
    have hpos : 0 < cv.length := by
      cases cv with
      | nil => simp at hc
      | cons => simp
    rw [List.getLast?_eq_getElem?] at hc
    obtain ⟨A, B, hA, hB, o1, o2, r1, r2⟩ := sf_step h hc
    have hBV : B = singletons V := by
      have := h.last
      rw [List.getLast?_eq_getElem?, h.length, Nat.add_sub_cancel,
        show cv.length = cv.length - 1 + 1 by omega, hB] at this
      simpa using this
    subst hBV
    have up : ∀ S ⊆ V, S.Nonempty → common φ S (singletons S) ≤ c * ((S.card : ℚ) - 1) := by
      intro S hS hne
      have hm : meeting (singletons V) S = singletons S := by
        ext C
        simp only [mem_meeting, singletons, Finset.mem_image]
        constructor
        · rintro ⟨⟨v, hv, rfl⟩, hd⟩
          rw [Finset.disjoint_singleton_left, not_not] at hd
          exact ⟨v, hd, rfl⟩
        · rintro ⟨v, hv, rfl⟩
          exact ⟨⟨v, hS hv, rfl⟩, by rwa [Finset.disjoint_singleton_left, not_not]⟩
      have hb : bigBlock (singletons V) S = S := by
        refine Finset.Subset.antisymm (fun v hv => ?_) subset_bigBlock
        rcases mem_bigBlock.1 hv with h | ⟨B, hB, hd, hvB⟩
        · exact h
        · obtain ⟨w, _, rfl⟩ := Finset.mem_image.1 hB
          rw [Finset.disjoint_singleton_left, not_not] at hd
          rw [Finset.mem_singleton] at hvB
          exact hvB ▸ hd
      have h1 := o2.2 _ (expand_isPartition' (isPartition_singletons V) hne hS)
      have h3 := sum_expand (P := singletons V) (h := φ) hne
      have h4 : ((expand (singletons V) S).card : ℚ) + (meeting (singletons V) S).card = (singletons V).card + 1 := by
        exact_mod_cast card_expand (P := singletons V) hne
      rw [hm, hb] at h3
      rw [hm, card_singletons S] at h4
      rw [costSF_eq, costSF_eq, show ((expand (singletons V) S).card : ℚ) = (singletons V).card + 1 - S.card by
        linarith] at h1
      unfold common
      linarith
    obtain ⟨D, hD, hD2⟩ : ∃ D ∈ A, 2 ≤ D.card := by
      by_contra hcon
      push Not at hcon
      refine r2 (Refines.antisymm o2.1 o1.1 r1 (fun B hB => ?_))
      obtain ⟨v, hv⟩ := o1.1.nonempty hB
      have hB1 := hcon B hB
      refine ⟨{v}, Finset.mem_image_of_mem _ (o1.1.subset hB hv), fun w hw => ?_⟩
      rw [Finset.mem_singleton]
      exact Finset.card_le_one.1 (by omega) w hw v hv
    refine ⟨⟨D, o1.1.subset hD, hD2, ?_⟩, ?_⟩
    · rw [eq_div_iff (card_sub_one_pos hD2).ne']
      refine le_antisymm ?_ (up D (o1.1.subset hD) (o1.1.nonempty hD))
      have := IsOptimalSF.block o1 hD (isPartition_singletons D)
      rwa [card_singletons] at this
    · rintro x ⟨S, hS, hS2, rfl⟩
      rw [div_le_iff₀ (card_sub_one_pos hS2)]
      exact up S hS (Finset.card_pos.1 (by omega))
  total := by
    rw [stepSum_sf (φ := φ) Ps cv {V} (singletons V) h.length h.first h.last, Finset.sum_singleton]
    · rfl
    · intro i c hc
      obtain ⟨A, B, hA, hB, o1, o2, _⟩ := sf_step h hc
      exact ⟨A, B, hA, hB, le_antisymm (o1.2 _ o2.1) (o2.2 _ o1.1)⟩

/-! ### graphs -/

/-- For a graph, what the parts of a set have in common is the weight between them. -/
theorem common_incident (E : List Arc) {S : Finset ℕ} (hQ : IsPartition S Q) :
    common (incident E) S Q = brokenWeight E S Q := by
  unfold common brokenWeight
  induction E with
  | nil => simp [incident]
  | cons e E ih =>
    have h0 : ∀ B, incident (e :: E) B =
        (if e.src ∈ B ∨ e.dst ∈ B then e.cap else 0) + incident E B := by
      intro B; simp [incident]
    simp only [h0, Finset.sum_add_distrib, List.map_cons, List.sum_cons, ← ih]
    suffices key : ∑ B ∈ Q, (if e.src ∈ B ∨ e.dst ∈ B then e.cap else 0) =
        (if e.src ∈ S ∨ e.dst ∈ S then e.cap else 0) +
          if (e.src ∈ S ∧ e.dst ∈ S) ∧ ¬ Same Q e.src e.dst then e.cap else 0 by
      rw [key]; ring
    rw [← Finset.sum_filter, Finset.sum_const, nsmul_eq_mul]
    have hno : ∀ {v : ℕ}, v ∉ S → ∀ D ∈ Q, v ∉ D := fun hv D hD h => hv (hQ.subset hD h)
    by_cases h1 : e.src ∈ S <;> by_cases h2 : e.dst ∈ S
    · obtain ⟨B, hB, hsB⟩ := hQ.exists_block h1
      obtain ⟨C, hC, hdC⟩ := hQ.exists_block h2
      have hf : (Q.filter fun D => e.src ∈ D ∨ e.dst ∈ D) = {B, C} := by
        ext D
        simp only [Finset.mem_filter, Finset.mem_insert, Finset.mem_singleton]
        constructor
        · rintro ⟨hD, hs | hd⟩
          · exact Or.inl (hQ.eq_of_mem hD hB hs hsB)
          · exact Or.inr (hQ.eq_of_mem hD hC hd hdC)
        · rintro (rfl | rfl)
          · exact ⟨hB, Or.inl hsB⟩
          · exact ⟨hC, Or.inr hdC⟩
      rw [hf]
      by_cases hs : Same Q e.src e.dst
      · obtain ⟨D, hD, a, b⟩ := hs
        have hBD := hQ.eq_of_mem hB hD hsB a
        have hCD := hQ.eq_of_mem hC hD hdC b
        have hs : Same Q e.src e.dst := ⟨D, hD, a, b⟩
        rw [hBD, hCD]
        simp [h1, hs]
      · have hne : B ≠ C := fun he => hs ⟨B, hB, hsB, he ▸ hdC⟩
        rw [Finset.card_pair hne]
        simp [h1, h2, hs]
        ring
    · obtain ⟨B, hB, hsB⟩ := hQ.exists_block h1
      have hf : (Q.filter fun D => e.src ∈ D ∨ e.dst ∈ D) = {B} := by
        ext D
        simp only [Finset.mem_filter, Finset.mem_singleton]
        constructor
        · rintro ⟨hD, hs | hd⟩
          · exact hQ.eq_of_mem hD hB hs hsB
          · exact absurd hd (hno h2 D hD)
        · rintro rfl
          exact ⟨hB, Or.inl hsB⟩
      simp [hf, h1, h2]
    · obtain ⟨B, hB, hsB⟩ := hQ.exists_block h2
      have hf : (Q.filter fun D => e.src ∈ D ∨ e.dst ∈ D) = {B} := by
        ext D
        simp only [Finset.mem_filter, Finset.mem_singleton]
        constructor
        · rintro ⟨hD, hs | hd⟩
          · exact absurd hs (hno h1 D hD)
          · exact hQ.eq_of_mem hD hB hd hsB
        · rintro rfl
          exact ⟨hB, Or.inr hsB⟩
      simp [hf, h1, h2]
    · have hf : (Q.filter fun D => e.src ∈ D ∨ e.dst ∈ D) = ∅ := by
        ext D
        simp only [Finset.mem_filter, Finset.notMem_empty, iff_false]
        rintro ⟨hD, hs | hd⟩
        · exact hno h1 D hD hs
        · exact hno h2 D hD hd
      simp [hf, h1, h2]

theorem sharesMore_incident {E : List Arc} {S : Finset ℕ} {γ : ℚ} :
    SharesMore (incident E) γ S ↔ HoldsTogether E γ S := by
  unfold SharesMore HoldsTogether
  refine forall_congr' fun Q => forall_congr' fun hQ => ?_
  rw [common_incident E hQ]

theorem nearSF_of_near {E : List Arc} (hW : Within E V) {C : ℚ} (h : IsNearOptimal E V C lam P) :
    IsNearOptimalSF (incident E) V C lam P := by
  refine ⟨h.1, fun R hR => ?_⟩
  have h3 := h.2 R hR
  rw [costSF_eq, costSF_eq, sum_incident hW h.1, sum_incident hW hR]
  unfold cost at h3
  linarith

end PSP.Theory
