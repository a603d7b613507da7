import Verif.Spec.Spectrum
import Verif.Theory.Ties
import Verif.Theory.Induced

/-!
# Consequences of `IsWeakPrincipalSequence`
-/

namespace PSP.Theory

open PSP.Spec

variable {E : List Arc} {V : Finset ℕ} {Ps : List (Finset (Finset ℕ))} {cv : List ℚ}

theorem brokenWeight_eq (E : List Arc) (S : Finset ℕ) (Q : Finset (Finset ℕ)) :
    brokenWeight E S Q = crossWeight (induced E S) Q := by
  unfold brokenWeight crossWeight induced
  induction E with
  | nil => rfl
  | cons e E ih =>
    by_cases h : e.src ∈ S ∧ e.dst ∈ S
    · rw [List.filter_cons_of_pos (by simpa using h)]
      simp only [List.map_cons, List.sum_cons, ih]
      by_cases h2 : Same Q e.src e.dst <;> simp [h, h2]
    · rw [List.filter_cons_of_neg (by simpa using h)]
      simp only [List.map_cons, List.sum_cons, ih]
      simp [h]

theorem same_singletons_iff {u v : ℕ} : Same (singletons V) u v ↔ u = v ∧ u ∈ V := by
  simp only [Same, singletons, Finset.mem_image]
  constructor
  · rintro ⟨_, ⟨w, hw, rfl⟩, h1, h2⟩
    rw [Finset.mem_singleton] at h1 h2
    exact ⟨h1.trans h2.symm, h1 ▸ hw⟩
  · rintro ⟨rfl, h⟩
    exact ⟨{u}, ⟨u, h, rfl⟩, by simp, by simp⟩

theorem insideWeight_eq (hl : ∀ e ∈ E, e.src ≠ e.dst) (S : Finset ℕ) :
    insideWeight E S = crossWeight (induced E S) (singletons S) := by
  rw [← brokenWeight_eq]
  unfold insideWeight brokenWeight
  congr 1
  refine List.map_congr_left fun e he => ?_
  simp only [same_singletons_iff, hl e he, false_and, not_false_eq_true, and_true]

theorem totalWeight_eq (hl : ∀ e ∈ E, e.src ≠ e.dst) : totalWeight E = crossWeight E (singletons V) := by
  unfold totalWeight crossWeight
  congr 1
  refine List.map_congr_left fun e he => ?_
  simp [same_singletons_iff, hl e he]

/-! ### counting -/

theorem weak_counts (h : IsWeakPrincipalSequence E V Ps cv) (hV : V.Nonempty) :
    (Ps.map Finset.card).Pairwise (· < ·) ∧ Ps.length ≤ V.card ∧ ∀ P ∈ Ps, IsPartition V P := by
  obtain ⟨t, h1, h2, h3, h4⟩ := h.linked
  have hp : ∀ P ∈ Ps, IsPartition V P := by
    intro P hP
    rw [h1] at hP
    rcases List.mem_cons.1 hP with rfl | hP
    · exact isPartition_single hV
    · obtain ⟨⟨c, B⟩, hm, rfl⟩ := List.mem_map.1 hP
      exact (h3.isOptimal c B hm).1
  have hc := h3.card_increasing (isPartition_single hV)
  rw [← h1] at hc
  have hc' : (Ps.map Finset.card).Pairwise (· < ·) := List.pairwise_map.2 hc
  refine ⟨hc', ?_, hp⟩
  have hnd : (Ps.map Finset.card).Nodup := hc'.imp (fun h => h.ne)
  have hsub : (Ps.map Finset.card).toFinset ⊆ (Finset.range (V.card + 1)).erase 0 := by
    intro k hk
    obtain ⟨P, hP, rfl⟩ := List.mem_map.1 (List.mem_toFinset.1 hk)
    rw [Finset.mem_erase, Finset.mem_range]
    have := (hp P hP).card_le
    have := (hp P hP).card_pos hV
    omega
  have := Finset.card_le_card hsub
  rw [List.toFinset_card_of_nodup hnd, Finset.card_erase_of_mem (by simp)] at this
  simpa using this

theorem stepSum_linked {A : Finset (Finset ℕ)} {t : List (ℚ × Finset (Finset ℕ))} (h : Linked E V A t) :
    stepSum (A :: t.map Prod.snd) (t.map Prod.fst) = crossWeight E (lastOf A t) - crossWeight E A := by
  induction t generalizing A with
  | nil => simp [stepSum, lastOf]
  | cons cb t ih =>
    obtain ⟨c, B⟩ := cb
    obtain ⟨h1, h2, _, h4⟩ := h
    have := h1.cost_eq h2
    simp only [cost] at this
    simp only [List.map_cons, stepSum, lastOf, ih h4]
    linarith

theorem weak_total (h : IsWeakPrincipalSequence E V Ps cv) (hW : Within E V)
    (hl : ∀ e ∈ E, e.src ≠ e.dst) : stepSum Ps cv = totalWeight E := by
  obtain ⟨t, h1, h2, h3, h4⟩ := h.linked
  rw [h1, h2, stepSum_linked h3, h4, crossWeight_single hW, totalWeight_eq hl, sub_zero]

/-! ### the first and the last critical value -/

theorem weak_first (h : IsWeakPrincipalSequence E V Ps cv) (hW : Within E V) {c : ℚ}
    (hc : cv.head? = some c) :
    (∀ P, IsPartition V P → c * ((P.card : ℚ) - 1) ≤ crossWeight E P) ∧
      ∃ P, IsPartition V P ∧ 2 ≤ P.card ∧ c * ((P.card : ℚ) - 1) = crossWeight E P := by
  obtain ⟨t, h1, h2, h3, h4⟩ := h.linked
  cases t with
  | nil => rw [h2] at hc; simp at hc
  | cons cb t =>
    obtain ⟨c', B⟩ := cb
    rw [h2] at hc
    simp only [List.map_cons, List.head?_cons, Option.some.injEq] at hc
    subst hc
    obtain ⟨o1, o2, o3, _⟩ := h3
    have h0 := crossWeight_single hW
    refine ⟨fun P hP => ?_, B, o2.1, ?_, ?_⟩
    · have := o1.2 P hP
      simp only [cost, h0, Finset.card_singleton] at this
      push_cast at this
      linarith
    · have := o3.1.card_lt o2.1 o1.1 o3.2
      rw [Finset.card_singleton] at this
      omega
    · have := o1.cost_eq o2
      simp only [cost, h0, Finset.card_singleton] at this
      push_cast at this
      linarith

theorem optimal_part_singletons (hW : Within E V) {c : ℚ} (h : IsOptimal E V c (singletons V)) {S : Finset ℕ}
    (hS : S ⊆ V) (hne : S.Nonempty) : IsOptimal (induced E S) S c (singletons S) := by
  have hb : bigBlock (singletons V) S = S := by
    refine Finset.Subset.antisymm (fun v hv => ?_) subset_bigBlock
    rcases mem_bigBlock.1 hv with h | ⟨B, hB, hd, hvB⟩
    · exact h
    · obtain ⟨w, _, rfl⟩ := Finset.mem_image.1 hB
      rw [Finset.disjoint_singleton_left, not_not] at hd
      rw [Finset.mem_singleton] at hvB
      exact hvB ▸ hd
  have hp := expand_isPartition' (isPartition_singletons V) hne hS
  have := h.part hW hp (singletons_refines hp) (B := S)
    (by have := bigBlock_mem_expand (P := singletons V) (T := S); rwa [hb] at this)
  have he : Spec.part (singletons V) S = singletons S := by
    ext C
    rw [mem_part]
    simp only [singletons, Finset.mem_image]
    constructor
    · rintro ⟨⟨v, hv, rfl⟩, hC⟩
      exact ⟨v, hC (by simp), rfl⟩
    · rintro ⟨v, hv, rfl⟩
      exact ⟨⟨v, hS hv, rfl⟩, by simpa using hv⟩
  rwa [he] at this

theorem weak_last (h : IsWeakPrincipalSequence E V Ps cv) (hW : Within E V) (hl : ∀ e ∈ E, e.src ≠ e.dst)
    {c : ℚ} (hc : cv.getLast? = some c) :
    (∀ S ⊆ V, S.Nonempty → insideWeight E S ≤ c * ((S.card : ℚ) - 1)) ∧
      ∃ S ⊆ V, 2 ≤ S.card ∧ insideWeight E S = c * ((S.card : ℚ) - 1) := by
  have hlen := h.length
  have hpos : 0 < cv.length := by
    cases cv with
    | nil => simp at hc
    | cons => simp
  rw [List.getLast?_eq_getElem?] at hc
  have hk : cv[cv.length - 1]? = some c := hc
  have e1 : Ps[cv.length]? = some (singletons V) := by
    have := h.last
    rw [List.getLast?_eq_getElem?, hlen] at this
    simpa using this
  have e0 : Ps[cv.length - 1]? = some (Ps[cv.length - 1]'(by omega)) := List.getElem?_eq_getElem _
  set A := Ps[cv.length - 1]'(by omega) with hA
  have hin : ∀ j d, cv[j]? = some d → j < cv.length := fun j d hj => (List.getElem?_eq_some_iff.1 hj).1
  have o1 : IsOptimal E V c (singletons V) := h.optimal _ _ c e1
    (fun j d hj _ => getElem?_mono h.nondecreasing hj hk (by have := hin j d hj; omega))
    (fun j d hj hle => by have := hin j d hj; omega)
  have o0 : IsOptimal E V c A := h.optimal _ _ c e0
    (fun j d hj hlt => getElem?_mono h.nondecreasing hj hk (by omega))
    (fun j d hj hle => getElem?_mono h.nondecreasing hk hj (by omega))
  have hne : A ≠ singletons V := by
    obtain ⟨h1, h2⟩ := List.getElem?_eq_some_iff.1 e1
    have := (List.pairwise_iff_getElem.1 h.refine (cv.length - 1) cv.length (by omega) h1 (by omega)).2
    rw [h2] at this
    exact fun he => this (he ▸ rfl)
  have up : ∀ S ⊆ V, S.Nonempty → insideWeight E S ≤ c * ((S.card : ℚ) - 1) := by
    intro S hS hSn
    have := (optimal_part_singletons hW o1 hS hSn).2 {S} (isPartition_single hSn)
    simp only [cost, crossWeight_single (induced_within E S), Finset.card_singleton, card_singletons,
      ← insideWeight_eq hl] at this
    push_cast at this
    linarith
  refine ⟨up, ?_⟩
  obtain ⟨B, hB, hB2⟩ : ∃ B ∈ A, 2 ≤ B.card := by
    by_contra hcon
    push Not at hcon
    refine hne (Refines.antisymm o0.1 o1.1 (fun B hB => ?_) (singletons_refines o0.1))
    obtain ⟨v, hv⟩ := o0.1.nonempty hB
    have hB1 := hcon B hB
    refine ⟨{v}, Finset.mem_image_of_mem _ (o0.1.subset hB hv), fun w hw => ?_⟩
    rw [Finset.mem_singleton]
    exact Finset.card_le_one.1 (by omega) w hw v hv
  refine ⟨B, o0.1.subset hB, hB2, le_antisymm (up B (o0.1.subset hB) (o0.1.nonempty hB)) ?_⟩
  have := (o0.block hW hB).2 (singletons B) (isPartition_singletons B)
  simp only [cost, crossWeight_single (induced_within E B), Finset.card_singleton, card_singletons,
    ← insideWeight_eq hl] at this
  push_cast at this
  linarith

/-! ### clusters -/

theorem holds_optimal {γ : ℚ} {S : Finset ℕ} (hS : S.Nonempty)
    (h : ∀ Q, IsPartition S Q → 2 ≤ Q.card → γ * ((Q.card : ℚ) - 1) ≤ brokenWeight E S Q) :
    IsOptimal (induced E S) S γ {S} := by
  refine ⟨isPartition_single hS, fun Q hQ => ?_⟩
  simp only [cost, crossWeight_single (induced_within E S), Finset.card_singleton]
  by_cases h1 : Q.card = 1
  · rw [hQ.eq_single_of_card h1, crossWeight_single (induced_within E S)]
    simp
  · have := h Q hQ (by have := hQ.card_pos hS; omega)
    rw [brokenWeight_eq] at this
    push_cast
    linarith

theorem holds_gap {γ : ℚ} {S : Finset ℕ} (h : HoldsTogether E γ S) :
    ∃ σ, γ < σ ∧ ∀ δ ≤ σ, ∀ Q, IsPartition S Q → 2 ≤ Q.card →
      δ * ((Q.card : ℚ) - 1) ≤ brokenWeight E S Q := by
  classical
  by_cases hne : (S.powerset.powerset.filter fun Q => IsPartition S Q ∧ 2 ≤ Q.card).Nonempty
  · obtain ⟨Q, hQ, hmin⟩ := Finset.exists_min_image _
      (fun Q => brokenWeight E S Q / ((Q.card : ℚ) - 1)) hne
    have hq := (Finset.mem_filter.1 hQ).2
    have hpos : ∀ R : Finset (Finset ℕ), 2 ≤ R.card → (0 : ℚ) < (R.card : ℚ) - 1 := by
      intro R hR
      have : (2 : ℚ) ≤ R.card := by exact_mod_cast hR
      linarith
    refine ⟨brokenWeight E S Q / ((Q.card : ℚ) - 1), ?_, fun δ hδ R hR hR2 => ?_⟩
    · rw [lt_div_iff₀ (hpos Q hq.2)]
      exact h Q hq.1 hq.2
    · have := hmin R (Finset.mem_filter.2 ⟨Finset.mem_powerset.2 fun B hB =>
        Finset.mem_powerset.2 (hR.subset hB), hR, hR2⟩)
      rw [← le_div_iff₀ (hpos R hR2)]
      exact hδ.trans this
  · refine ⟨γ + 1, by linarith, fun δ _ R hR hR2 => ?_⟩
    exact absurd ⟨R, Finset.mem_filter.2 ⟨Finset.mem_powerset.2 fun B hB =>
        Finset.mem_powerset.2 (hR.subset hB), hR, hR2⟩⟩ hne

theorem weak_cluster (hE : NonnegE E) (hW : Within E V) (h : IsWeakPrincipalSequence E V Ps cv) {γ : ℚ}
    {i : ℕ} {P : Finset (Finset ℕ)} (hi : Ps[i]? = some P)
    (h1 : ∀ j c, cv[j]? = some c → j < i → c ≤ γ) (h2 : ∀ j c, cv[j]? = some c → i ≤ j → γ < c) {u v : ℕ} :
    Same P u v ↔ ∃ S ⊆ V, u ∈ S ∧ v ∈ S ∧ HoldsTogether E γ S := by
  -- the parameters between `γ` and the next critical value
  obtain ⟨m, hm, hm2⟩ : ∃ m, γ < m ∧ ∀ j c, cv[j]? = some c → i ≤ j → m ≤ c := by
    by_cases hlt : i < cv.length
    · have hp : cv[i]? = some (cv[i]'hlt) := List.getElem?_eq_getElem _
      exact ⟨cv[i]'hlt, h2 i _ hp le_rfl, fun j c hj hij => getElem?_mono h.nondecreasing hp hj hij⟩
    · refine ⟨γ + 1, by linarith, fun j c hj hij => ?_⟩
      have := (List.getElem?_eq_some_iff.1 hj).1
      omega
  have hopt : ∀ δ, γ ≤ δ → δ ≤ m → IsOptimal E V δ P := fun δ d1 d2 => h.optimal i P δ hi
    (fun j c hj hji => (h1 j c hj hji).trans d1) (fun j c hj hji => d2.trans (hm2 j c hj hji))
  constructor
  · rintro ⟨B, hB, hu, hv⟩
    have hop := hopt m hm.le le_rfl
    refine ⟨B, hop.1.subset hB, hu, hv, fun Q hQ hQ2 => ?_⟩
    have := (hop.block hW hB).2 Q hQ
    simp only [cost, crossWeight_single (induced_within E B), Finset.card_singleton] at this
    rw [brokenWeight_eq]
    have hq : (2 : ℚ) ≤ Q.card := by exact_mod_cast hQ2
    push_cast at this
    nlinarith
  · rintro ⟨S, hSV, huS, hvS, hS⟩
    obtain ⟨σ, hσ, hσ2⟩ := holds_gap hS
    obtain ⟨δ, d1, d2⟩ : ∃ δ, γ < δ ∧ δ < min σ m :=
      ⟨(γ + min σ m) / 2, by linarith [lt_min hσ hm], by linarith [lt_min hσ hm]⟩
    have hδσ := (lt_min_iff.1 d2).1
    have hδm := (lt_min_iff.1 d2).2
    have hSo := holds_optimal ⟨u, huS⟩ (hσ2 δ hδσ.le)
    have hP := hopt δ d1.le hδm.le
    have hex := hP.of_cost_le (expand_isPartition' hP.1 ⟨u, huS⟩ hSV)
      (cost_expand_le hE hW ⟨u, huS⟩ hSV hSo hP.1)
    have heq := h.unique hE hi (fun j c hj hji => (h1 j c hj hji).trans_lt d1)
      (fun j c hj hji => hδm.trans_le (hm2 j c hj hji)) hex
    refine ⟨bigBlock P S, ?_, subset_bigBlock huS, subset_bigBlock hvS⟩
    have := bigBlock_mem_expand (P := P) (T := S)
    rwa [heq] at this

theorem countP_sorted {γ : ℚ} {cv : List ℚ} (h : cv.Pairwise (· ≤ ·)) :
    ∀ j c, cv[j]? = some c → (j < cv.countP (fun c => decide (c ≤ γ)) ↔ c ≤ γ) := by
  induction cv with
  | nil => intro j c hj; simp at hj
  | cons a cv ih =>
    rw [List.pairwise_cons] at h
    intro j c hj
    by_cases ha : a ≤ γ
    · rw [List.countP_cons_of_pos (by simpa using ha)]
      cases j with
      | zero =>
        simp only [List.getElem?_cons_zero, Option.some.injEq] at hj
        subst hj
        simp [ha]
      | succ j =>
        rw [← ih h.2 j c (by simpa using hj), Nat.succ_lt_succ_iff]
    · have h0 : cv.countP (fun c => decide (c ≤ γ)) = 0 := by
        rw [List.countP_eq_zero]
        intro x hx hle
        exact ha ((h.1 x hx).trans (by simpa using hle))
      rw [List.countP_cons_of_neg (by simpa using ha), h0]
      refine ⟨fun hlt => absurd hlt (by omega), fun hle => absurd ?_ ha⟩
      cases j with
      | zero =>
        simp only [List.getElem?_cons_zero, Option.some.injEq] at hj
        exact hj ▸ hle
      | succ j => exact (h.1 c (List.mem_of_getElem? (by simpa using hj))).trans hle

end PSP.Theory
