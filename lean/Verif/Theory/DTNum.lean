import Verif.Theory.DTRun

/-!
# `DT::run(partition_num)`
-/

namespace PSP.Theory

open PSP.Spec PSP.Model

variable {ε : ℚ}

/-- What `DT::split(Q, P, k)` guarantees for its result `R`. -/
structure NumSpec (E : List Arc) (V : Finset ℕ) (M : Prop) (k : ℤ) (R : Partition) : Prop where
  optimal : ∃ lam, IsOptimal E V lam R ∧ (M → ∀ T, IsOptimal E V lam T → Refines R T)
  nontrivial : 1 < R.card
  enough : k ≤ R.card ∨ R = singletons V
  coarsest : ∀ T lam, IsOptimal E V lam T → ¬ IsCritical E V lam → k ≤ T.card → T ≠ {V} →
    Refines T R

theorem dtSplitNum_spec {S : FlowSolver} (hS : S.Correct) {g : Digraph} {n : ℕ}
    (hg : GoodDigraph g n) (hn : 2 ≤ n) (hε : 0 < ε) {u : ℚ} (hu : 0 < u)
    (hgr : Granular u g.arcs) (hεu : ε * ((n : ℚ) - 1) ≤ u) (num : ℤ) (k : ℕ) :
    ∀ (a b : ℚ) (Q P : Partition), IsOptimal g.arcs (Finset.range n) a Q →
      IsOptimal g.arcs (Finset.range n) b P → a < b → Q.card < P.card →
      P.card ≤ Q.card + k → ((Q.card : ℤ) < num ∨ Q = {Finset.range n}) →
      (num ≤ P.card ∨ P = singletons (Finset.range n)) →
      (S.Minimal → ∀ R, IsOptimal g.arcs (Finset.range n) b R → Refines P R) →
      ∃ R, dtSplitNum S ε g num k Q P = .ok R ∧
        NumSpec g.arcs (Finset.range n) S.Minimal num R := by
  have hV : (Finset.range n).Nonempty := ⟨0, by simp; omega⟩
  induction k with
  | zero => intro a b Q P _ _ _ h1 h2; omega
  | succ k ih =>
    intro a b Q P hQ hP hab hc hk hQn hPn hfin
    have hQpos := hQ.1.card_pos hV
    obtain ⟨hγ, hh⟩ := gammaApos_eq hg hQ.1 hP.1 hc
    set γ := gammaApos g Q P with hγdef
    obtain ⟨P', hrun, hopt, hmin⟩ := dilworthDT_correct hS hg γ
    unfold dtSplitNum
    rw [if_neg (by omega), hrun]
    simp only [Outcome.ok_bind, Outcome.pure_eq]
    rw [hh]
    by_cases hcond : cost g.arcs γ P' > cost g.arcs γ Q - ε
    · rw [if_pos hcond]
      have hQo : IsOptimal g.arcs (Finset.range n) γ Q := by
        apply gap hu hgr hV (by simpa using hεu) hε hQ.1 hP.1 hc hγ
        intro R hR
        have := hopt.2 R hR
        linarith
      have hPo : IsOptimal g.arcs (Finset.range n) γ P := hQo.of_cost_le hP.1 (le_of_eq hγ.symm)
      have hne : Q ≠ P := fun h => by rw [h] at hc; omega
      refine ⟨P, rfl, ⟨b, hP, hfin⟩, by omega, hPn, ?_⟩
      intro T lam hT hTu hTn hTV
      rcases lt_trichotomy lam γ with h | h | h
      · exfalso
        have hr := hT.refines hg.good.nonneg hQo h
        have hcard := hr.card_le hQ.1 hT.1
        rcases hQn with h' | h'
        · omega
        · subst h'
          have := hT.1.card_pos hV
          simp only [Finset.card_singleton] at hcard
          exact hTV (hT.1.eq_single_of_card (by omega))
      · subst h
        exact absurd ⟨Q, P, hQo, hPo, hne⟩ hTu
      · exact hPo.refines hg.good.nonneg hT h
    · rw [if_neg hcond]
      push Not at hcond
      have haγ : a < γ := by
        rcases lt_or_eq_of_le (slope_ge hQ hP.1 hc hγ) with h | h
        · exact h
        · exfalso
          have := hQ.2 P' hopt.1
          rw [h] at this; linarith
      have hγb : γ < b := by
        rcases lt_or_eq_of_le (slope_le hP hQ.1 hc hγ) with h | h
        · exact h
        · exfalso
          have := hP.2 P' hopt.1
          rw [← h] at this; linarith
      have hne1 : Q.card ≠ P'.card := by
        intro h
        have h1 := hQ.2 P' hopt.1
        unfold cost at *
        rw [h] at h1 hcond
        linarith
      have hne2 : P.card ≠ P'.card := by
        intro h
        have h1 := hP.2 P' hopt.1
        rw [hγ] at hcond
        unfold cost at *
        rw [h] at h1 hcond
        linarith
      have hc1 : Q.card < P'.card :=
        lt_of_le_of_ne (hQ.card_le hg.good.nonneg hopt haγ) hne1
      have hc2 : P'.card < P.card :=
        lt_of_le_of_ne (hopt.card_le hg.good.nonneg hP hγb) (Ne.symm hne2)
      by_cases heq : (P'.card : ℤ) = num
      · rw [if_pos heq]
        refine ⟨P', rfl, ⟨γ, hopt, hmin⟩, by omega, Or.inl (le_of_eq heq.symm), ?_⟩
        intro T lam hT hTu hTn hTV
        rcases lt_trichotomy lam γ with h | h | h
        · have hr := hT.refines hg.good.nonneg hopt h
          have hcard := hr.card_le hopt.1 hT.1
          rw [hr.eq_of_card hopt.1 hT.1 (by omega)]
          exact Refines.refl _
        · subst h
          have : T = P' := by
            by_contra hne
            exact hTu ⟨T, P', hT, hopt, hne⟩
          rw [this]
          exact Refines.refl _
        · exact hopt.refines hg.good.nonneg hT h
      · rw [if_neg heq]
        by_cases hlt : (P'.card : ℤ) < num
        · rw [if_pos hlt]
          exact ih γ b P' P hopt hP hγb hc2 (by omega) (Or.inl hlt) hPn hfin
        · rw [if_neg hlt]
          exact ih a γ Q P' hQ hopt haγ hc1 (by omega) hQn (Or.inl (by omega)) hmin

theorem dtRunNum_spec {S : FlowSolver} (hS : S.Correct) {g : Digraph} {n : ℕ}
    (hg : GoodDigraph g n) (hn : 2 ≤ n) (hε : 0 < ε) {u : ℚ} (hu : 0 < u)
    (hgr : Granular u g.arcs) (hεu : ε * ((n : ℚ) - 1) ≤ u) (num : ℤ) :
    ∃ R, dtRunNum S ε g num = .ok R ∧ NumSpec g.arcs (Finset.range n) S.Minimal num R := by
  have hV : (Finset.range n).Nonempty := ⟨0, by simp; omega⟩
  have hcard : (singletons (Finset.range n)).card = n := by rw [card_singletons, Finset.card_range]
  have h0 := crossWeight_nonneg hg.good.nonneg (singletons (Finset.range n))
  unfold dtRunNum
  rw [hg.countNodes]
  exact dtSplitNum_spec hS hg hn hε hu hgr hεu num n (-1)
    (crossWeight g.arcs (singletons (Finset.range n))) {Finset.range n}
    (singletons (Finset.range n)) (isOptimal_single hg.good.nonneg hg.good.within hV (by norm_num))
    (isOptimal_singletons hg.good.nonneg le_rfl) (by linarith) (by rw [hcard]; simp; omega)
    (by rw [hcard]; simp) (Or.inr rfl) (Or.inr rfl) (fun _ R hR => singletons_refines hR.1)

/-- The finest optimal partition at a parameter belongs to the principal sequence. -/
theorem finest_mem {E : List Arc} {V : Finset ℕ} {Ps : List Partition} {cv : List ℚ}
    (hE : NonnegE E) (h : IsPrincipalSequence E V Ps cv) {lam : ℚ} {R : Partition}
    (hR : IsOptimal E V lam R) (hf : ∀ T, IsOptimal E V lam T → Refines R T) : R ∈ Ps := by
  have hlen := h.length
  have hpos : ∃ i ≤ cv.length, (∀ j c, cv[j]? = some c → j < i → c ≤ lam) ∧
      (∀ j c, cv[j]? = some c → i ≤ j → lam < c) := by
    have hs := h.increasing
    clear hlen h
    induction cv with
    | nil => exact ⟨0, le_rfl, by simp, by simp⟩
    | cons a cv ih =>
      by_cases ha : a ≤ lam
      · obtain ⟨i, hi, h1, h2⟩ := ih (List.pairwise_cons.1 hs).2
        refine ⟨i + 1, by simpa using hi, ?_, ?_⟩
        · intro j c hj hji
          cases j with
          | zero => simp at hj; rw [← hj]; exact ha
          | succ j => exact h1 j c (by simpa using hj) (by omega)
        · intro j c hj hji
          cases j with
          | zero => omega
          | succ j => exact h2 j c (by simpa using hj) (by omega)
      · refine ⟨0, Nat.zero_le _, by simp, ?_⟩
        intro j c hj _
        have hm : c ∈ a :: cv := List.mem_of_getElem? hj
        rcases List.mem_cons.1 hm with rfl | hm
        · exact not_le.1 ha
        · exact (not_le.1 ha).trans ((List.pairwise_cons.1 hs).1 c hm)
  obtain ⟨i, hi, h1, h2⟩ := hpos
  have hg : Ps[i]? = some (Ps[i]'(by omega)) := List.getElem?_eq_getElem _
  have hopt : IsOptimal E V lam (Ps[i]'(by omega)) := h.optimal i _ lam hg h1
    (fun j c hj hji => le_of_lt (h2 j c hj hji))
  have hback : Refines (Ps[i]'(by omega)) R := by
    by_cases h0 : i = cv.length
    · have hl := h.last
      rw [List.getLast?_eq_getElem?, hlen] at hl
      simp only [Nat.add_sub_cancel] at hl
      rw [← h0, hg] at hl
      simp only [Option.some.injEq] at hl
      rw [hl]
      exact singletons_refines hR.1
    · have hlt : i < cv.length := by omega
      have hp : cv[i]? = some (cv[i]'hlt) := List.getElem?_eq_getElem _
      have hnd := h.weak.nondecreasing
      have hopt' : IsOptimal E V (cv[i]'hlt) (Ps[i]'(by omega)) := h.optimal i _ _ hg
        (fun j c hj hji => getElem?_mono hnd hj hp (by omega))
        (fun j c hj hji => getElem?_mono hnd hp hj (by omega))
      exact hR.refines hE hopt' (h2 _ _ hp le_rfl)
  rw [Refines.antisymm hR.1 hopt.1 (hf _ hopt) hback]
  exact List.getElem_mem _

end PSP.Theory
