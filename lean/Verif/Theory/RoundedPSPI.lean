import Verif.Theory.RoundedSplit

/-!
# `PSP_I` and `HPSP` with rounded arithmetic: the decisions are right
-/

namespace PSP.Theory

open PSP.Spec PSP.Model

variable {E : List Arc} {V I : Finset ℕ} {φ : ℕ → ℕ} {g : Digraph}

/-! ### the truncation only sees the induced subgraph -/

theorem runLoopIF_induced {fl : ℚ → ℚ} {S : FlowSolver} {arcs : List Arc} {ns : List ℕ} (lam : ℚ)
    (rest done : List ℕ) (xl : List ℚ) (P : Partition) (h1 : ∀ i ∈ done, i ∈ ns) (h2 : ∀ i ∈ rest, i ∈ ns) :
    runLoopIF fl S (induced arcs ns.toFinset) lam done rest xl P = runLoopIF fl S arcs lam done rest xl P := by
  induction rest generalizing done xl P with
  | nil => rfl
  | cons l rest ih =>
    have hl := h2 l List.mem_cons_self
    have : minimizeIF fl S (induced arcs ns.toFinset) lam done l xl = minimizeIF fl S arcs lam done l xl := by
      unfold minimizeIF dilworthNetF
      rw [interiorArcs_induced h1]
      have : sinkCost (induced arcs ns.toFinset) done l = sinkCost arcs done l := by
        funext i; exact sinkCost_induced h1 hl i
      rw [this]
    rw [runLoopIF, runLoopIF, this]
    apply ih
    · intro i hi
      rcases List.mem_append.1 hi with hi | hi
      · exact h1 i hi
      · rw [List.mem_singleton.1 hi]; exact hl
    · intro i hi; exact h2 i (List.mem_cons_of_mem _ hi)

theorem dilworthIF_induced {fl : ℚ → ℚ} {S : FlowSolver} (arcs : List Arc) (ns : List ℕ) (lam : ℚ) :
    dilworthIF fl S arcs lam ns = dilworthIF fl S (induced arcs ns.toFinset) lam ns := by
  unfold dilworthIF
  rw [runLoopIF_induced lam ns [] [] ∅ (by simp) (fun i hi => hi)]

/-! ### the contracted graphs -/

theorem totalCap_induced_le (hE : NonnegE E) (I : Finset ℕ) : totalCap (induced E I) ≤ totalCap E := by
  unfold totalCap induced
  rw [sum_filter_map]
  apply List.sum_le_sum
  intro a ha
  split
  · exact le_rfl
  · exact hE a ha

theorem totalCap_eq_cross (hg : GoodGraph E V) : totalCap E = crossWeight E (singletons V) := by
  unfold totalCap crossWeight
  congr 1
  apply List.map_congr_left
  intro e he
  rw [if_neg]
  rintro ⟨B, hB, h1, h2⟩
  obtain ⟨v, _, rfl⟩ := Finset.mem_image.1 hB
  have := hg.lowHigh e he
  rw [Finset.mem_singleton.1 h1, Finset.mem_singleton.1 h2] at this
  omega

theorem Rep.total (hr : Rep E V 1 g φ) (hE : NonnegE E) (hW : Within E V) : totalCap g.arcs ≤ totalCap E := by
  rw [totalCap_eq_cross hr.good]
  have h := hr.cross hW subset_rfl (isPartition_singletons g.nodes.toFinset)
  rw [induced_self hr.good.within] at h
  rw [h]
  exact (crossWeight_le_total (induced_nonneg hE _) _).2.trans (totalCap_induced_le hE _)

theorem Rep.whole (hr : Rep E V 1 g φ) (hE : NonnegE E) (hW : Within E V) {W : ℚ} (h : totalCap E ≤ W) :
    Whole W g where
  nodup := hr.sorted.imp fun h => Nat.ne_of_lt h
  nonneg := hr.good.nonneg
  int e he := by
    obtain ⟨k, hk⟩ := hr.gran e he
    exact ⟨k, by rw [hk, mul_one]⟩
  total := (hr.total hE hW).trans h

set_option maxHeartbeats 1000000 in
/-- With integer weights of moderate size the decisions are right. -/
theorem decideF_spec {S : FlowSolver} {fl : ℚ → ℚ} {n : ℕ} {u M δ W e ε : ℚ} (H : Small S fl E n u M δ W e)
    (hE : NonnegE E) (hWi : Within E V) (hVn : V.card ≤ n) (hM : n * W ≤ M)
    (hε : 2 * n * δ + 60 * (n * n * u * W) < ε) (hnε : 2 * n * ε ≤ 1)
    {ao : List Arc → List Arc} (hao : ∀ l, (ao l).Perm l) :
    DecideSpec False (decideF fl ao S ε) E V 1 := by
  intro g φ I γ hr hI h3 hγd
  obtain ⟨hfl, hS, hδ, hW, htot, hn1, he, hne⟩ := H
  have hu := hfl.nonneg
  have hnq : (1 : ℚ) ≤ n := by exact_mod_cast hn1
  have hW0 : 0 ≤ W := by linarith
  have hWM : W ≤ M := by nlinarith
  have hwh := hr.whole hE hWi (htot.trans hWM)
  have hon := hr.onto hI
  set ns := subNodes g I with hns
  have hnsI : ns.toFinset = I := subNodes_toFinset hI
  have hsort : ns.Pairwise (· < ·) := hr.sorted.filter _
  have hIn : I.card ≤ n := by
    have : I ⊆ V := fun i hi => (hon i hi).1
    exact (Finset.card_le_card this).trans hVn
  have hlen : ns.length ≤ n := by
    rw [← List.toFinset_card_of_nodup (hsort.imp fun h => Nat.ne_of_lt h), hnsI]; exact hIn
  obtain ⟨hcs, hc1⟩ := cost_trivial hr hI (by omega) hγd
  have hwt : weightTotal g.arcs ns = crossWeight (induced g.arcs I) (singletons I) := by
    rw [weightTotal_eq hr.good.lowHigh, hnsI]
  set L := induced g.arcs I with hL
  have hLg : GoodGraph L I := hr.good.induced I
  have hLt : totalCap L ≤ W := (totalCap_induced_le hr.good.nonneg I).trans ((hr.total hE hWi).trans htot)
  have hLgr : Granular 1 L := fun e he => hr.gran e (mem_induced.1 he).1
  have hIne : I.Nonempty := Finset.card_pos.1 (by omega)
  have hIq : (3 : ℚ) ≤ I.card := by exact_mod_cast h3
  have hm1 : (0 : ℚ) < (I.card : ℚ) - 1 := by linarith
  have hcw := crossWeight_le_total hLg.nonneg (singletons I)
  rw [← hwt] at hcw
  have hγ0 : 0 ≤ γ := by rw [hγd]; exact div_nonneg hcw.1 hm1.le
  have hγW : γ ≤ W := by
    rw [hγd, div_le_iff₀ hm1]
    have : weightTotal g.arcs ns ≤ W := hcw.2.trans hLt
    nlinarith
  have hcards : ({I} : Partition).card < (singletons I).card := by
    rw [card_singletons, Finset.card_singleton]; omega
  have hcardn : (singletons I).card ≤ n := by rw [card_singletons]; exact hIn
  have heq : cost L γ {I} = cost L γ (singletons I) := hc1.trans hcs.symm
  -- sizes of the errors
  have hnuW : 0 ≤ n * u * W := by positivity
  have hn2 : n * u * W ≤ n * n * u * W := by nlinarith
  have hδn : 0 ≤ n * δ := by positivity
  have hε0 : 0 < ε := by nlinarith
  have hε1 : ε ≤ 1 := by nlinarith
  have huW0 : 0 ≤ u * W := by positivity
  have huW : u * W ≤ n * u * W := by nlinarith
  have hu1 : u ≤ 1 := by
    have : u ≤ u * W := by nlinarith
    linarith
  set lam := fl γ with hlam
  have hM1 := hfl.one_le
  have hrel : |lam - γ| ≤ u * W := hfl.err (by rwa [abs_of_nonneg hγ0]) (by linarith) (by linarith)
  have hrel' := abs_le.1 hrel
  have hlam0 : 0 ≤ lam := hfl.fl_nonneg hγ0
  have hlam2 : lam ≤ 2 * W := by nlinarith
  obtain ⟨d1, d2, d3, d4⟩ := dilworthIF_spec (E := L) ⟨hfl, hS, hδ, hW, hLt, hn1, he, hne⟩ (ns := ns) hsort hlen
    (by rw [hnsI]; exact hLg) hlam0 hlam2
  rw [hnsI] at d1 d2 d3
  have hdec : decideF fl ao S ε g.arcs ns I.card =
      if splitDoneF fl ε lam I.card (dilworthIF fl S L lam ns) then none
      else some (dilworthIF fl S L lam ns).2 := by
    unfold decideF
    dsimp only
    rw [splitGammaF_eq hfl hao hwh, ← hγd, ← hlam, dilworthIF_induced, hnsI]
  rw [hdec]
  set r := dilworthIF fl S L lam ns with hr'
  have hshift : ∀ R, IsPartition I R → |cost L lam R - cost L γ R| ≤ n * u * W := by
    intro R hR
    have e1 : cost L lam R - cost L γ R = -((lam - γ) * R.card) := by unfold cost; ring
    have hRn : (R.card : ℚ) ≤ n := by
      have : R.card ≤ n := hR.card_le.trans hIn
      exact_mod_cast this
    rw [e1, abs_neg, abs_mul, abs_of_nonneg (Nat.cast_nonneg R.card : (0 : ℚ) ≤ R.card)]
    have := mul_le_mul hrel hRn (Nat.cast_nonneg _) huW0
    linarith
  have hne' : n * e = n * δ + 20 * (n * n * u * W) := by rw [he]; ring
  have hgap : 2 * ε ≤ 1 / n := by
    rw [le_div_iff₀ (by linarith)]
    linarith
  have hopt : IsOptimal L I γ r.2 := by
    refine ⟨d1, fun R hR => cost_gap hLgr hcards hcardn heq ?_⟩
    have h1 := d2 R hR
    have h2 := abs_le.1 (hshift R hR)
    have h3 := abs_le.1 (hshift _ d1)
    linarith
  have ht : |fl (-lam - ε) - (-γ - ε)| ≤ 4 * (u * W) := by
    have h3 : |-lam - ε| ≤ 3 * W := by
      rw [abs_le]
      constructor <;> linarith
    have h6 := abs_le.1 (hfl.err h3 (by linarith) (by linarith))
    rw [abs_le]
    constructor <;> linarith
  have ht' := abs_le.1 ht
  constructor
  · intro hnone
    have hdone : splitDoneF fl ε lam I.card r = true := by
      by_contra h
      rw [if_neg h] at hnone
      exact absurd hnone (by simp)
    unfold splitDoneF at hdone
    rw [decide_eq_true_eq] at hdone
    by_cases hk1 : r.2.card = 1
    · rwa [hopt.1.eq_single_of_card hk1] at hopt
    · by_cases hkm : r.2.card = I.card
      · rw [hopt.1.eq_singletons_of_card hkm] at hopt
        exact hopt.of_cost_le (isPartition_single hIne) (by rw [hcs, hc1])
      · have hmin : ¬ r.1 < fl (-lam - ε) := fun h => hdone ⟨hk1, hkm, h⟩
        push Not at hmin
        refine hopt.of_cost_le (isPartition_single hIne) (cost_gap hLgr hcards hcardn heq ?_)
        have h1 := d3 _ d1
        have h2 := abs_le.1 (hshift _ d1)
        rw [hc1]
        linarith
  · intro P hP
    have hnd : ¬ splitDoneF fl ε lam I.card r = true := by
      intro h
      rw [if_pos h] at hP
      exact absurd hP (by simp)
    rw [if_neg hnd, Option.some.injEq] at hP
    subst hP
    unfold splitDoneF at hnd
    rw [decide_eq_true_eq, not_not] at hnd
    exact ⟨hopt, hnd.1, hnd.2.1, False.elim⟩

end PSP.Theory
