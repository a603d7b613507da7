import Verif.Theory.RoundedContract
import Verif.Theory.TreeRounded
import Verif.Theory.DTApprox

/-!
# `PSP_I` with rounded arithmetic, for arbitrary weights
-/

namespace PSP.Theory

open PSP.Spec PSP.Model

variable {E L : List Arc} {V I : Finset ℕ} {φ : ℕ → ℕ} {P Q R : Partition} {g : Digraph}

/-- Standing assumptions and the sizes of the errors: `w` bounds the rounding errors of one call, `y` the error of one
decision. -/
structure ISetup (S : FlowSolver) (fl : ℚ → ℚ) (ao : List Arc → List Arc) (ord : Partition → List CSet) (E : List Arc)
    (V : Finset ℕ) (n : ℕ) (u M δ W e ε w y τ : ℚ) : Prop where
  small : Small S fl E n u M δ W e
  half : 2 * totalCap E ≤ W
  nonneg : NonnegE E
  within : Within E V
  card : V.card ≤ n
  perm : ∀ l, (ao l).Perm l
  ord : Enumerates ord
  pos : 0 < ε
  low : u ≤ ε
  le : ε ≤ W
  exact : ε ≤ fl ε
  w_eq : w = n * n * u * W
  y_eq : y = 3 * n * δ + 70 * w
  τ_eq : τ = (n + 1) * y

theorem Rep.total' {u : ℚ} (hr : Rep E V u g φ) (hE : NonnegE E) (hW : Within E V) : totalCap g.arcs ≤ totalCap E := by
  rw [totalCap_eq_cross hr.good]
  have h := hr.cross hW subset_rfl (isPartition_singletons g.nodes.toFinset)
  rw [induced_self hr.good.within] at h
  rw [h]
  exact (crossWeight_le_total (induced_nonneg hE _) _).2.trans (totalCap_induced_le hE _)

/-- The facts about a contracted graph. -/
theorem RepF.facts {S : FlowSolver} {fl : ℚ → ℚ} {ao : List Arc → List Arc} {ord : Partition → List CSet} {n : ℕ}
    {u M δ W e ε w y τ : ℚ} (H : ISetup S fl ao ord E V n u M δ W e ε w y τ) (hr : RepF E V (4 * n * u) ε n g φ) :
    g.nodes.length ≤ n ∧ ∃ (E' : List Arc) (u' : ℚ), 0 < u' ∧ Rep E' V u' g φ ∧ Within E' V ∧ totalCap g.arcs ≤ W ∧
      ∀ (K : Finset ℕ) (lam : ℚ) (P : Partition), |cost (induced E' K) lam P - cost (induced E K) lam P| ≤ 2 * w := by
  obtain ⟨s, u', hs, hu', hrep⟩ := hr.rep
  obtain ⟨⟨hfl, hS, hδ, hW, htot, hn1, he, hne⟩, hhalf, hE, hWi, hVn, hao, hord, hε, huε, hεW, hex, hw, hy, hτ⟩ := H
  have hu := hfl.nonneg
  have hnq : (1 : ℚ) ≤ n := by exact_mod_cast hn1
  have hlen : g.nodes.length ≤ n := by
    rw [← List.toFinset_card_of_nodup (hrep.sorted.imp fun h => Nat.ne_of_lt h)]
    refine (Finset.card_le_card fun i hi => ?_).trans hVn
    exact hrep.sub i (List.mem_toFinset.1 hi)
  have hlq : (g.nodes.length : ℚ) ≤ n := by exact_mod_cast hlen
  have hl0 : (0 : ℚ) ≤ g.nodes.length := Nat.cast_nonneg _
  have hκ : 0 ≤ 4 * n * u := by positivity
  have hθ : 4 * n * u * ((n : ℚ) - g.nodes.length) ≤ 4 * n * n * u := by nlinarith
  have hnnu : 0 ≤ n * n * u := by positivity
  have hw1 : 20 * w ≤ 1 := by
    have e1 : n * e = n * δ + 20 * (n * n * u * W) := by rw [he]; ring
    have e2 : 0 ≤ n * δ := by positivity
    rw [hw]; linarith
  have hsmall : 4 * n * n * u ≤ 1 := by
    have : n * n * u ≤ n * n * u * W := by nlinarith
    rw [← hw] at this
    linarith
  have hs' : ∀ e, |s e - 1| ≤ 4 * n * n * u := fun e => (hs e).trans hθ
  have hs0 : ∀ e, 0 ≤ s e := fun e => by
    have := (abs_le.1 (hs' e)).1
    linarith
  have hE' := scale_nonneg hs0 hE
  have htc : 0 ≤ totalCap E := by
    unfold totalCap
    exact List.sum_nonneg (by
      intro x hx
      obtain ⟨a, ha, rfl⟩ := List.mem_map.1 hx
      exact hE a ha)
  refine ⟨hlen, scale s E, u', hu', hrep, scale_within hWi, ?_, fun K lam P => ?_⟩
  · refine (hrep.total' hE' (scale_within hWi)).trans ((totalCap_scale hs' hE).trans ?_)
    nlinarith
  · refine (cost_scale hs' hE K lam P).trans ?_
    have h2 : n * n * u * (2 * totalCap E) ≤ n * n * u * W := mul_le_mul_of_nonneg_left hhalf hnnu
    rw [hw]
    linarith

theorem relOpt_of_scaled {E' : List Arc} {η δ lam : ℚ} {K : Finset ℕ} {S0 : Partition}
    (h : ∀ (lam : ℚ) (P : Partition), |cost (induced E' K) lam P - cost (induced E K) lam P| ≤ η)
    (ho : RelOpt E' K S0 δ lam P) : RelOpt E K S0 (δ + 2 * η) lam P := by
  refine ⟨ho.1, fun R hR hr => ?_⟩
  have h1 := ho.2 R hR hr
  have h2 := abs_le.1 (h lam P)
  have h3 := abs_le.1 (h lam R)
  linarith

theorem relOpt_mono_err {δ δ' lam : ℚ} {K : Finset ℕ} {S0 : Partition} (ho : RelOpt E K S0 δ lam P) (h : δ ≤ δ') :
    RelOpt E K S0 δ' lam P := ⟨ho.1, fun R hR hr => (ho.2 R hR hr).trans (by linarith)⟩

set_option maxHeartbeats 1000000 in
/-- The decisions of `split`. -/
theorem decideF_near {S : FlowSolver} {fl : ℚ → ℚ} {ao : List Arc → List Arc} {ord : Partition → List CSet} {n : ℕ}
    {u M δ W e ε w y τ : ℚ} (H : ISetup S fl ao ord E V n u M δ W e ε w y τ) (hr : RepF E V (4 * n * u) ε n g φ)
    (hI : I ⊆ g.nodes.toFinset) (h2 : 2 ≤ I.card) {γ : ℚ} (hγ : γ = splitGammaF fl ao g.arcs (subNodes g I) I.card) :
    |cost (induced E (pullB φ V I)) γ (pull φ V (singletons I)) + γ| ≤ 6 * w ∧
    (I.card = 2 → RelOpt E (pullB φ V I) (pull φ V (singletons I)) (ε + y) γ (pull φ V (singletons I))) ∧
    (splitDoneF fl ε γ I.card (dilworthIF fl S g.arcs γ (subNodes g I)) = true →
      RelOpt E (pullB φ V I) (pull φ V (singletons I)) (ε + y) γ (pull φ V (singletons I))) ∧
    (splitDoneF fl ε γ I.card (dilworthIF fl S g.arcs γ (subNodes g I)) = false →
      IsPartition I (dilworthIF fl S g.arcs γ (subNodes g I)).2 ∧
      RelOpt E (pullB φ V I) (pull φ V (singletons I)) (y - 6 * w) γ
        (pull φ V (dilworthIF fl S g.arcs γ (subNodes g I)).2) ∧
      (dilworthIF fl S g.arcs γ (subNodes g I)).2.card ≠ 1 ∧
      (dilworthIF fl S g.arcs γ (subNodes g I)).2.card ≠ I.card ∧
      cost (induced E (pullB φ V I)) γ (pull φ V (dilworthIF fl S g.arcs γ (subNodes g I)).2) ≤ -γ - ε + y) := by
  obtain ⟨hnodes, E', u', hu', hrep, hW', htot', hsc⟩ := hr.facts H
  obtain ⟨⟨hfl, hS, hδ, hW, htot, hn1, he, hne⟩, hhalf, hE, hWi, hVn, hao, hord, hε, huε, hεW, hex, hw, hy, hτ⟩ := H
  have hu := hfl.nonneg
  have hnq : (1 : ℚ) ≤ n := by exact_mod_cast hn1
  have hW0 : 0 ≤ W := by linarith
  have hon := hrep.onto hI
  set ns := subNodes g I with hns
  have hnsI : ns.toFinset = I := subNodes_toFinset hI
  have hsort : ns.Pairwise (· < ·) := hrep.sorted.filter _
  have hIn : I.card ≤ n := by
    have : I ⊆ V := fun i hi => (hon i hi).1
    exact (Finset.card_le_card this).trans hVn
  have hlen : ns.length ≤ n := by
    rw [← List.toFinset_card_of_nodup (hsort.imp fun h => Nat.ne_of_lt h), hnsI]; exact hIn
  set L := induced g.arcs I with hL
  have hLg : GoodGraph L I := hrep.good.induced I
  have hLt : totalCap L ≤ W := (totalCap_induced_le hrep.good.nonneg I).trans htot'
  have hIne : I.Nonempty := Finset.card_pos.1 (by omega)
  have hIq : (2 : ℚ) ≤ I.card := by exact_mod_cast h2
  have hInq : (I.card : ℚ) ≤ n := by exact_mod_cast hIn
  have hm1 : (0 : ℚ) < (I.card : ℚ) - 1 := by linarith
  -- sizes of the errors
  have hw0 : 0 ≤ w := by rw [hw]; positivity
  have hδn : 0 ≤ n * δ := by positivity
  have hne' : n * e = n * δ + 20 * w := by rw [he, hw]; ring
  have hw1 : 20 * w ≤ 1 := by linarith
  have huW0 : 0 ≤ u * W := by positivity
  have huW : u * W ≤ w := by
    have h1 : u * W ≤ n * (u * W) := by nlinarith
    have h2 : n * (u * W) ≤ n * (n * (u * W)) := by nlinarith
    rw [hw]; linarith
  have hnnu : 0 ≤ n * n * u := by positivity
  have hnnuw : n * n * u ≤ w := by rw [hw]; nlinarith
  -- the sum of the weights
  set X := weightTotal g.arcs ns with hX
  have hwt : X = crossWeight L (singletons I) := by
    rw [hX, weightTotal_eq hrep.good.lowHigh, hnsI]
  have hcw := crossWeight_le_total hLg.nonneg (singletons I)
  rw [← hwt] at hcw
  have hXW : X ≤ W := hcw.2.trans hLt
  set x := weightTotalF fl ao g.arcs ns with hx
  have hxX : |x - X| ≤ 2 * w := by
    have hXs : X = (g.arcs.map fun a => if a.src ∈ ns ∧ a.dst ∈ ns then a.cap else 0).sum := by
      rw [hX]
      unfold weightTotal
      rw [sum_filter_map]
      simp
    have hal : (g.arcs.filter fun a => a.src ∈ ns ∧ a.dst ∈ ns).length ≤ n * n := by
      refine (List.length_filter_le _ _).trans ((arcs_length hrep.good).trans ?_)
      have h1 := (List.toFinset_card_le g.nodes).trans hnodes
      exact Nat.mul_le_mul h1 h1
    have := flSum_filter_err hfl hao (fun a => a.src ∈ ns ∧ a.dst ∈ ns) (k := n * n)
      (by push_cast; linarith) hal (fun a ha => huε.trans (hr.low a ha)) (by
        rw [← hXs]
        have := mul_le_mul_of_nonneg_left hXW hu
        linarith [hfl.one_le])
    rw [← hXs] at this
    refine this.trans ?_
    push_cast
    have h1 : n * n * u * X ≤ n * n * u * W := mul_le_mul_of_nonneg_left hXW hnnu
    rw [hw]; linarith
  have hxX' := abs_le.1 hxX
  have hx0 : 0 ≤ x := by
    rw [hx]
    unfold weightTotalF
    refine flSum_ge_zero hfl _ 0 le_rfl fun v hv => ?_
    obtain ⟨a, ha, rfl⟩ := List.mem_map.1 hv
    exact hrep.good.nonneg a ((hao _).mem_iff.1 (List.mem_filter.1 ha).1)
  have hx2 : x ≤ 2 * W := by linarith
  -- the value
  have hγe : γ = fl (x / ((I.card : ℚ) - 1)) := hγ
  have hq0 : 0 ≤ x / ((I.card : ℚ) - 1) := div_nonneg hx0 hm1.le
  have hγ0 : 0 ≤ γ := by rw [hγe]; exact hfl.fl_nonneg hq0
  have hγx : |γ * ((I.card : ℚ) - 1) - x| ≤ 2 * w := by
    have hK : x / ((I.card : ℚ) - 1) ≤ 2 * W / ((I.card : ℚ) - 1) := div_le_div_of_nonneg_right hx2 hm1.le
    have hum : u * ((I.card : ℚ) - 1) ≤ 2 * W := by
      have h1 : u * ((I.card : ℚ) - 1) ≤ u * n := mul_le_mul_of_nonneg_left (by linarith) hu
      have h2 : u * n ≤ u * n * n := by nlinarith [mul_nonneg hu (by linarith : (0 : ℚ) ≤ n)]
      linarith
    have h1 := hfl.err (x := x / ((I.card : ℚ) - 1)) (by rw [abs_of_nonneg hq0]; exact hK) ((le_div_iff₀ hm1).2 hum) (by
      have h2 : 2 * W / ((I.card : ℚ) - 1) ≤ 2 * W := div_le_self (by linarith) (by linarith)
      have h3 := mul_le_mul_of_nonneg_left h2 hu
      linarith [hfl.one_le])
    rw [← hγe] at h1
    have h3 : γ * ((I.card : ℚ) - 1) - x = (γ - x / ((I.card : ℚ) - 1)) * ((I.card : ℚ) - 1) := by
      field_simp
    rw [h3, abs_mul, abs_of_pos hm1]
    have h4 := mul_le_mul_of_nonneg_right h1 hm1.le
    have h5 : u * (2 * W / ((I.card : ℚ) - 1)) * ((I.card : ℚ) - 1) = u * (2 * W) := by field_simp
    rw [h5] at h4
    linarith
  have hγx' := abs_le.1 hγx
  have hγW : γ ≤ 2 * W := by
    have : γ ≤ γ * ((I.card : ℚ) - 1) := by nlinarith
    linarith
  have hcs : cost L γ (singletons I) + γ = X - γ * ((I.card : ℚ) - 1) := by
    unfold cost
    rw [card_singletons, ← hwt]
    ring
  have hcs' : |cost L γ (singletons I) + γ| ≤ 4 * w := by
    rw [hcs, abs_le]
    constructor <;> linarith
  have hcs'' := abs_le.1 hcs'
  have hc1 : cost L γ {I} = -γ := cost_whole g.arcs I γ
  have hSp := isPartition_singletons I
  have hup : ∀ {d : ℚ} {Q : Partition}, IsNearOptimal L I d γ Q →
      RelOpt E (pullB φ V I) (pull φ V (singletons I)) (d + 2 * (2 * w)) γ (pull φ V Q) := fun ho =>
    relOpt_of_scaled (fun lam P => hsc _ lam P) (hrep.rel_up hW' hI ho)
  refine ⟨?_, ?_, ?_, ?_⟩
  · have h1 := abs_le.1 (hsc (pullB φ V I) γ (pull φ V (singletons I)))
    rw [← hrep.cost hW' hI hSp, ← hL] at h1
    rw [abs_le]
    constructor <;> linarith
  · intro h
    have ho : IsNearOptimal L I (4 * w) γ (singletons I) := by
      refine ⟨hSp, fun R hR => ?_⟩
      have h3 := hR.card_le
      have h4 := hR.card_pos hIne
      have : R.card = 1 ∨ R.card = I.card := by omega
      rcases this with h | h
      · rw [hR.eq_single_of_card h, hc1]; linarith
      · rw [hR.eq_singletons_of_card h]; linarith
    refine relOpt_mono_err (hup ho) ?_
    rw [hy]; linarith
  all_goals
    rw [dilworthIF_induced, hnsI, ← hL]
    obtain ⟨d1, d2, d3, d4⟩ := dilworthIF_spec (E := L) ⟨hfl, hS, hδ, hW, hLt, hn1, he, hne⟩ (ns := ns) hsort hlen
      (by rw [hnsI]; exact hLg) hγ0 hγW
    rw [hnsI] at d1 d2 d3
    set r := dilworthIF fl S L γ ns with hr'
    intro hdone
    unfold splitDoneF at hdone
  · rw [decide_eq_true_eq] at hdone
    have ho : IsNearOptimal L I (ε + 3 * n * δ + 64 * w) γ (singletons I) := by
      refine ⟨hSp, fun R hR => ?_⟩
      have h3 := d2 R hR
      by_cases hk1 : r.2.card = 1
      · rw [d1.eq_single_of_card hk1, hc1] at h3
        linarith
      · by_cases hkm : r.2.card = I.card
        · rw [d1.eq_singletons_of_card hkm] at h3
          linarith
        · have hmin : ¬ r.1 < fl (-γ - ε) := fun h => hdone ⟨hk1, hkm, h⟩
          push Not at hmin
          have h4 := d3 R hR
          have h6 : |-γ - ε| ≤ 3 * W := by
            rw [abs_le]
            constructor <;> linarith
          have h8 := abs_le.1 (hfl.err h6 (by linarith) (by linarith [hfl.one_le]))
          rw [hw] at *
          linarith
    refine relOpt_mono_err (hup ho) ?_
    rw [hy]; linarith
  · rw [decide_eq_false_iff_not, not_not] at hdone
    have ho : IsNearOptimal L I (3 * n * e) γ r.2 := ⟨d1, d2⟩
    refine ⟨d1, relOpt_mono_err (hup ho) ?_, hdone.1, hdone.2.1, ?_⟩
    · rw [hy]; linarith
    · have h1 := abs_le.1 (hsc (pullB φ V I) γ (pull φ V r.2))
      rw [← hrep.cost hW' hI d1, ← hL] at h1
      have h6 : |-γ - ε| ≤ 3 * W := by
        rw [abs_le]
        constructor <;> linarith
      have h8 := abs_le.1 (hfl.err h6 (by linarith) (by linarith [hfl.one_le]))
      rw [hw] at *
      linarith [hdone.2.2]

/-! ### split -/

/-- The state after `split`. -/
structure PostF (E : List Arc) (κ ε τ β ε' : ℚ) (n : ℕ) (V I : Finset ℕ) (φ : ℕ → ℕ) (g' : Digraph)
    (φ' : ℕ → ℕ) (I' : Finset ℕ) (ch' : List PTree) : Prop where
  rep : RepF E V κ ε n g' φ'
  sub : I' ⊆ I
  nodes : I' ⊆ g'.nodes.toFinset
  kids : Kids φ' V I' ch'
  out : ∀ v ∈ V, φ v ∉ I → φ' v = φ v
  inn : ∀ v ∈ V, φ v ∈ I → φ' v ∈ I'
  same : ∀ v ∈ V, ∀ w ∈ V, φ v = φ w → φ' v = φ' w
  good : ∀ c ∈ ch', GoodF τ β ε' E c

variable {κ ε τ β ε' : ℚ} {n : ℕ}

theorem PostF.pullB_eq {g' : Digraph} {φ' : ℕ → ℕ} {I' : Finset ℕ} {ch' : List PTree}
    (h : PostF E κ ε τ β ε' n V I φ g' φ' I' ch') : pullB φ' V I' = pullB φ V I := by
  ext v
  rw [mem_pullB, mem_pullB]
  constructor
  · rintro ⟨h1, h2⟩
    refine ⟨h1, ?_⟩
    by_contra h3
    rw [h.out v h1 h3] at h2
    exact h3 (h.sub h2)
  · rintro ⟨h1, h2⟩
    exact ⟨h1, h.inn v h1 h2⟩

theorem PostF.trans {g1 g2 : Digraph} {φ1 φ2 : ℕ → ℕ} {I1 I2 : Finset ℕ} {ch1 ch2 : List PTree}
    (h1 : PostF E κ ε τ β ε' n V I φ g1 φ1 I1 ch1) (h2 : PostF E κ ε τ β ε' n V I1 φ1 g2 φ2 I2 ch2) :
    PostF E κ ε τ β ε' n V I φ g2 φ2 I2 ch2 where
  rep := h2.rep
  sub := h2.sub.trans h1.sub
  nodes := h2.nodes
  kids := h2.kids
  out v hv hn := by
    have e1 := h1.out v hv hn
    rw [h2.out v hv (by rw [e1]; exact fun h => hn (h1.sub h)), e1]
  inn v hv hi := h2.inn v hv (h1.inn v hv hi)
  same v hv w hw h := h2.same v hv w hw (h1.same v hv w hw h)
  good := h2.good

/-- Sets that were merged before `split` are not cut by the children found by it. -/
theorem PostF.coarser {g' : Digraph} {φ' : ℕ → ℕ} {I' : Finset ℕ} {ch' : List PTree}
    (h : PostF E κ ε τ β ε' n V I φ g' φ' I' ch') (hon : Onto φ V I) {D : Finset ℕ}
    (hD : D ∈ pull φ V (singletons I)) : ∃ B ∈ (ch'.map PTree.K).toFinset, D ⊆ B := by
  obtain ⟨i, hi, rfl⟩ := mem_pull_singletons.1 hD
  obtain ⟨hiV, hiφ⟩ := hon i hi
  rw [h.kids.eq]
  refine ⟨_, mem_pull_singletons.2 ⟨φ' i, h.inn i hiV (by rw [hiφ]; exact hi), rfl⟩, fun v hv => ?_⟩
  rw [mem_pullB, Finset.mem_singleton] at hv ⊢
  exact ⟨hv.1, h.same v hv.1 i hiV (by rw [hv.2, hiφ])⟩

/-- Only the entries of the elements other than the least one matter. -/
theorem Enc.congrF {st st' : HState} {t : PTree} (hg : GoodF τ β ε E t) (h : Enc st t)
    (hs : ∀ n ∈ t.K, n ≠ firstElem t.K → st'.W n = st.W n ∧ st'.K n = st.K n) : Enc st' t := by
  induction hg with
  | leaf v => exact Enc.leaf _
  | node K l ch hch hval hlen hnd hne hopt hbal ih =>
    cases h with
    | node _ _ _ henc hv =>
    have hsub : ∀ c ∈ ch, c.K ⊆ K := fun c hc =>
      hopt.1.subset (List.mem_toFinset.2 (List.mem_map_of_mem hc))
    have hmem : ∀ c ∈ ch, firstElem c.K ∈ c.K := fun c hc => firstElem_mem (hch c hc).nonempty
    refine Enc.node _ _ _ (fun c hc => ih c hc (henc c hc) fun n hn hne => ?_) fun c hc hne => ?_
    · apply hs n (hsub c hc hn)
      rintro rfl
      apply hne
      exact le_antisymm (firstElem_le (hsub c hc (hmem c hc))) (firstElem_le hn)
    · obtain ⟨h1, h2⟩ := hs _ (hsub c hc (hmem c hc)) hne
      rw [h1, h2]
      exact hv c hc hne

/-- What `HPSP::split` does next to `PSP_I::split`, with rounding. -/
def HSimF (fl : ℚ → ℚ) (ao : List Arc → List Arc) (S : FlowSolver) (ε : ℚ) (ord : Partition → List CSet) (k : ℕ)
    (g : Digraph) (I : Finset ℕ) (ch : List PTree) (g' : Digraph) (A : CSet) (l : ℚ) (ch' : List PTree) : Prop :=
  ∀ st : HState, (∀ c ∈ ch, Enc st c) → ∃ st', hpspSplitF fl ao S ε ord k g st (firstElem I) I = .ok (g', st') ∧
    Enc st' (.node A (some l) ch') ∧ st'.W (firstElem I) = l ∧ st'.K (firstElem I) = firstElem I ∧
    ∀ n, n ∉ I → st'.W n = st.W n ∧ st'.K n = st.K n

/-- Specification of `split` at fuel `k`. -/
def SplitNearF (fl : ℚ → ℚ) (ao : List Arc → List Arc) (S : FlowSolver) (ε : ℚ) (ord : Partition → List CSet)
    (E : List Arc) (V : Finset ℕ) (n : ℕ) (u w y τ : ℚ) (k : ℕ) : Prop :=
  ∀ (g : Digraph) (φ : ℕ → ℕ) (I : Finset ℕ) (ch : List PTree) (mu s : ℚ), RepF E V (4 * n * u) ε n g φ →
    I ⊆ g.nodes.toFinset → 2 ≤ I.card → I.card ≤ k → Kids φ V I ch →
    (∀ c ∈ ch, GoodF τ (6 * w) (ε + y) E c) → 0 ≤ s → s + k * y ≤ τ →
    (∀ c ∈ ch, ∀ m, c.val = some m → mu - s ≤ m) →
    RelOpt E (pullB φ V I) (pull φ V (singletons I)) (y - 6 * w) mu (pull φ V (singletons I)) →
    ∃ g' φ' I' ch' l, pspiSplitF fl ao S ε ord k g ch = .ok (g', some l, ch') ∧
      PostF E (4 * n * u) ε τ (6 * w) (ε + y) n V I φ g' φ' I' ch' ∧
      GoodF τ (6 * w) (ε + y) E (.node (pullB φ V I) (some l) ch') ∧
      HSimF fl ao S ε ord k g I ch g' (pullB φ V I) l ch' ∧
      (y ≤ ε → (∀ κ, 0 ≤ κ → cost (induced E (pullB φ V I)) mu (pull φ V (singletons I)) ≤ -mu - κ →
          l ≤ mu - κ / n + k * y) ∧
        ∀ c ∈ ch', c ∈ ch ∨ ∀ m, c.val = some m → l + (ε - y) / n - τ ≤ m)

theorem blocks_nearF {S : FlowSolver} {fl : ℚ → ℚ} {ao : List Arc → List Arc} {ord : Partition → List CSet}
    {u M δ W e w y : ℚ} (H : ISetup S fl ao ord E V n u M δ W e ε w y τ) {k : ℕ}
    (hk : SplitNearF fl ao S ε ord E V n u w y τ k) {K : CSet} {γ mu s : ℚ} {PP S0 : Partition} (hs : s + k * y ≤ τ)
    (hPP : RelOpt E K S0 (y - 6 * w) γ PP) (hS0 : Refines S0 PP) :
    ∀ (Bs : List CSet) (g : Digraph) (φ : ℕ → ℕ) (I : Finset ℕ) (ch : List PTree) (P : Partition),
      RepF E V (4 * n * u) ε n g φ → I ⊆ g.nodes.toFinset → Kids φ V I ch →
      (∀ c ∈ ch, GoodF τ (6 * w) (ε + y) E c) →
      IsPartition I P → pull φ V P = PP → Bs.Nodup → (∀ B ∈ Bs, B ∈ P ∧ B.card ≤ k) →
      (∀ B ∈ P, B ∉ Bs → B.card = 1) →
      (∀ B ∈ Bs, RelOpt E (pullB φ V B) (pull φ V (singletons B)) (y - 6 * w) mu (pull φ V (singletons B))) →
      (∀ B ∈ Bs, ∀ D ∈ S0, D ⊆ pullB φ V B → D ∈ pull φ V (singletons B)) →
      (∀ c ∈ ch, (∃ B ∈ Bs, c.K ⊆ pullB φ V B) → ∀ m, c.val = some m → mu - s ≤ m) →
      (∀ c ∈ ch, ∀ m, c.val = some m → γ - (s + y) ≤ m) → 0 ≤ s →
      ∃ g' φ' I' ch', pspiBlocksF fl ao ε (pspiSplitF fl ao S ε ord k) Bs g ch = .ok (g', ch') ∧
        PostF E (4 * n * u) ε τ (6 * w) (ε + y) n V I φ g' φ' I' ch' ∧ pull φ' V (singletons I') = PP ∧
        (∀ c ∈ ch', ∀ m, c.val = some m → γ - (s + y) ≤ m) ∧
        ∀ (st : HState) (newS : CSet), (∀ c ∈ ch, Enc st c) →
          ∃ st', hpspBlocksF fl ao ε (hpspSplitF fl ao S ε ord k) Bs g st newS =
              .ok (g', st', newS ∪ (Bs.map firstElem).toFinset) ∧
            (∀ c ∈ ch', Enc st' c) ∧ ∀ n, n ∉ I → st'.W n = st.W n ∧ st'.K n = st.K n := by
  intro Bs
  induction Bs with
  | nil =>
    intro g φ I ch P hr hI hkids hgood hP hpull _ _ hone _ _ _ hγ _
    refine ⟨g, φ, I, ch, by rw [pspiBlocksF], ⟨hr, subset_rfl, hI, hkids, fun _ _ _ => rfl, fun _ _ h => h,
      fun _ _ _ _ h => h, hgood⟩, ?_, hγ,
      fun st newS hst => ⟨st, by rw [hpspBlocksF]; simp, hst, fun n _ => ⟨rfl, rfl⟩⟩⟩
    have : P = singletons I := by
      apply singletons_of_refines hP
      intro B hB
      obtain ⟨i, rfl⟩ := Finset.card_eq_one.1 (hone B hB (by simp))
      exact ⟨{i}, Finset.mem_image_of_mem _ (hP.subset hB (by simp)), subset_rfl⟩
    rw [← this, hpull]
  | cons B Bs ih =>
    intro g φ I ch P hr hI hkids hgood hP hpull hnd hBs hone hmo hsb hmv hγ hs0
    have hBP := (hBs B List.mem_cons_self).1
    have hBI := hP.subset hBP
    have hBne := hP.nonempty hBP
    by_cases hc1 : B.card = 1
    · obtain ⟨g', φ', I', ch', he, hpost, hpp, hv, hsim⟩ := ih g φ I ch P hr hI hkids hgood hP hpull
        (List.nodup_cons.1 hnd).2 (fun C hC => hBs C (List.mem_cons_of_mem _ hC))
        (fun C hC hn => by
          by_cases hCB : C = B
          · rw [hCB]; exact hc1
          · exact hone C hC (by simp [hCB, hn]))
        (fun C hC => hmo C (List.mem_cons_of_mem _ hC))
        (fun C hC => hsb C (List.mem_cons_of_mem _ hC))
        (fun c hc ⟨C, hC, hs⟩ => hmv c hc ⟨C, List.mem_cons_of_mem _ hC, hs⟩) hγ hs0
      refine ⟨g', φ', I', ch', ?_, hpost, hpp, hv, fun st newS hst => ?_⟩
      · rw [pspiBlocksF, if_pos hc1, he]
      · obtain ⟨st', h1, h2, h3⟩ := hsim st (insert (firstElem B) newS) hst
        refine ⟨st', ?_, h2, h3⟩
        rw [hpspBlocksF, if_pos hc1, h1]
        congr 3
        ext v; simp
    · -- split the block
      obtain ⟨hnodes, E', u', hu', hrep, hW', _, _⟩ := hr.facts H
      have hBn : B ⊆ g.nodes.toFinset := hBI.trans hI
      obtain ⟨hk1, hk2⟩ := kids_split hrep hI hkids hBI
      have hcard : 2 ≤ B.card := by
        have := Finset.card_pos.2 hBne
        omega
      set moved := ch.filter fun c => ¬ Disjoint c.K B with hmoved
      set rest := ch.filter fun c => Disjoint c.K B with hrest
      have hsubB : ∀ c ∈ moved.reverse, c ∈ ch ∧ ∃ C ∈ B :: Bs, c.K ⊆ pullB φ V C := by
        intro c hc
        have hc' := List.mem_reverse.1 hc
        refine ⟨(List.mem_filter.1 hc').1, B, List.mem_cons_self, ?_⟩
        obtain ⟨i, hi, he⟩ := hk1.mem hc'
        intro v hv
        rw [← he, mem_pullB, Finset.mem_singleton] at hv
        exact mem_pullB.2 ⟨hv.1, hv.2 ▸ hi⟩
      have hKB : pullB φ V B ∈ PP := by rw [← hpull]; exact Finset.mem_image_of_mem _ hBP
      obtain ⟨g1, φ1, I1, ch1, l, he1, hpost1, hgood1, hsim1, -⟩ := hk g φ B moved.reverse mu s hr hBn hcard
        (hBs B List.mem_cons_self).2 hk1.reverse
        (fun c hc => hgood c (List.mem_filter.1 (List.mem_reverse.1 hc)).1) hs0 hs
        (fun c hc m hm => hmv c (hsubB c hc).1 (hsubB c hc).2 m hm) (hmo B List.mem_cons_self)
      -- contract
      obtain ⟨hnodes1, E1, u1, hu1, hrep1, hW1, htot1, _⟩ := hpost1.rep.facts H
      set i := firstElem B with hi
      have hiB : i ∈ B := firstElem_mem hBne
      have hiV : i ∈ V := hrep.sub i (List.mem_toFinset.1 (hBn hiB))
      have hiφ : φ i = i := hrep.fix i (List.mem_toFinset.1 (hBn hiB))
      have hi1 : φ1 i = i := by
        apply le_antisymm (hrep1.le i hiV)
        exact firstElem_le (hpost1.sub (hpost1.inn i hiV (by rw [hiφ]; exact hiB)))
      have hin : i ∈ g1.nodes := by rw [← hi1]; exact hrep1.maps i hiV
      obtain ⟨hlen1, hnd1, hpart1, hbal1⟩ := hgood1.shape
      have hother : ∃ j ∈ B, j ∈ g1.nodes ∧ j ≠ i := by
        have h1 := hpost1.kids.length (hrep1.onto hpost1.nodes)
        obtain ⟨j, hj, hji⟩ := Finset.exists_mem_ne (show 1 < I1.card by omega) i
        exact ⟨j, hpost1.sub hj, List.mem_toFinset.1 (hpost1.nodes hj), hji⟩
      have hr2 : RepF E V (4 * n * u) ε n (contractF fl ao ε g1 B i) (collapse B i φ1) := by
        obtain ⟨⟨hfl, hS, hδ, hW, htot, hn1, he, hne⟩, hhalf, hE, hWi, hVn, hao, hord, hε, huε, hεW, hex, hw, hy, hτ⟩ := H
        have hu := hfl.nonneg
        have hnq : (1 : ℚ) ≤ n := by exact_mod_cast hn1
        have e1 : n * e = n * δ + 20 * (n * n * u * W) := by rw [he]; ring
        have e2 : 0 ≤ n * δ := by positivity
        have e3 : 0 ≤ n * n * u := by positivity
        have e4 : n * n * u ≤ n * n * u * W := by nlinarith
        refine hpost1.rep.contract hWi hε hfl huε ?_ hex hao hnodes1 le_rfl ?_ hiB hin (fun j hj => firstElem_le hj) hother
        · have e5 : n * n * (u * W) = n * n * u * W := by ring
          have e6 : 0 ≤ u * W := by positivity
          have e7 : u * W ≤ n * n * (u * W) := le_mul_of_one_le_left e6 (by nlinarith)
          have e8 := mul_le_mul_of_nonneg_left htot1 hu
          linarith [hfl.one_le]
        · linarith
      obtain ⟨hnodes2, E2, u2, hu2, hrep2, hW2, _, _⟩ := hr2.facts H
      set φ2 := collapse B i φ1 with hφ2
      set g2 := contractF fl ao ε g1 B i with hg2
      -- the map after the step
      have hφin : ∀ v ∈ V, φ v ∈ B → φ2 v = i := by
        intro v hv hvB
        rw [hφ2]; unfold collapse
        rw [if_pos (hpost1.sub (hpost1.inn v hv hvB))]
      have hφout : ∀ v ∈ V, φ v ∉ B → φ2 v = φ v := by
        intro v hv hvB
        rw [hφ2]; unfold collapse
        rw [hpost1.out v hv hvB, if_neg hvB]
      set I2 : Finset ℕ := insert i (I \ B) with hI2
      have hpullB : ∀ C : Finset ℕ, Disjoint C B → pullB φ2 V C = pullB φ V C := by
        intro C hCB
        ext v
        rw [mem_pullB, mem_pullB]
        apply and_congr_right
        intro hv
        by_cases hvB : φ v ∈ B
        · rw [hφin v hv hvB]
          exact ⟨fun h => absurd hiB (Finset.disjoint_left.1 hCB h),
            fun h => absurd hvB (Finset.disjoint_left.1 hCB h)⟩
        · rw [hφout v hv hvB]
      have hpulli : pullB φ2 V {i} = pullB φ V B := by
        ext v
        rw [mem_pullB, mem_pullB, Finset.mem_singleton]
        apply and_congr_right
        intro hv
        by_cases hvB : φ v ∈ B
        · simp [hφin v hv hvB, hvB]
        · rw [hφout v hv hvB]
          exact ⟨fun h => absurd (h ▸ hiB) hvB, fun h => absurd h hvB⟩
      have hps : ∀ C : Finset ℕ, Disjoint C B →
          pull φ2 V (singletons C) = pull φ V (singletons C) := by
        intro C hCB
        ext A
        rw [mem_pull_singletons, mem_pull_singletons]
        constructor
        · rintro ⟨j, hj, rfl⟩
          exact ⟨j, hj, (hpullB {j} (by simpa using Finset.disjoint_left.1 hCB hj)).symm⟩
        · rintro ⟨j, hj, rfl⟩
          exact ⟨j, hj, hpullB {j} (by simpa using Finset.disjoint_left.1 hCB hj)⟩
      have hI2n : I2 ⊆ g2.nodes.toFinset := by
        intro j hj
        rw [List.mem_toFinset]
        rcases Finset.mem_insert.1 hj with rfl | hj
        · have := hrep2.maps i hiV
          rwa [hφin i hiV (by rw [hiφ]; exact hiB)] at this
        · rw [Finset.mem_sdiff] at hj
          have hjn := List.mem_toFinset.1 (hI hj.1)
          have := hrep2.maps j (hrep.sub j hjn)
          rwa [hφout j (hrep.sub j hjn) (by rw [hrep.fix j hjn]; exact hj.2), hrep.fix j hjn] at this
      set t : PTree := .node (pullB φ V B) (some l) ch1 with ht
      have hkids2 : Kids φ2 V I2 (t :: rest) := by
        constructor
        · rw [List.map_cons, List.nodup_cons]
          refine ⟨?_, hk2.nodup⟩
          intro hm
          obtain ⟨c, hc, he⟩ := List.mem_map.1 hm
          obtain ⟨j, hj, he'⟩ := hk2.mem hc
          rw [Finset.mem_sdiff] at hj
          have hjn := List.mem_toFinset.1 (hI hj.1)
          have h1 : j ∈ pullB φ V {j} := mem_pullB.2 ⟨hrep.sub j hjn, by simp [hrep.fix j hjn]⟩
          rw [he', he] at h1
          have h2 := (mem_pullB.1 h1).2
          rw [hrep.fix j hjn] at h2
          exact hj.2 h2
        · rw [List.map_cons, List.toFinset_cons, hk2.eq, ← hps (I \ B) Finset.sdiff_disjoint]
          ext A
          rw [Finset.mem_insert, mem_pull_singletons, mem_pull_singletons, hI2]
          simp only [Finset.mem_insert, exists_eq_or_imp, hpulli, ht, PTree.K]
          exact or_congr_left ⟨fun h => h.symm, fun h => h.symm⟩
      have hval : γ - y ≤ l := by
        have := value_near hPP hS0 hKB hpart1 (fun D hD hs =>
          hpost1.coarser (hrep.onto hBn) (hsb B List.mem_cons_self D hD hs))
          (by rw [List.toFinset_card_of_nodup hnd1, List.length_map]; exact hlen1) hbal1
        linarith
      have hK' : B ∪ (moved.map PTree.K).foldr (· ∪ ·) ∅ = pullB φ V B := hk1.union (hrep.onto hBn)
      -- the partition after the step
      have hP2 : IsPartition I2 (insert {i} (P.erase B)) := by
        rw [isPartition_iff]
        refine ⟨?_, ?_, ?_⟩
        · intro C hC
          rcases Finset.mem_insert.1 hC with rfl | hC
          · exact ⟨by simp, by simp [hI2]⟩
          · have hC' := Finset.mem_of_mem_erase hC
            refine ⟨hP.nonempty hC', fun j hj => ?_⟩
            rw [hI2]
            refine Finset.mem_insert_of_mem (Finset.mem_sdiff.2 ⟨hP.subset hC' hj, fun hjB => ?_⟩)
            exact Finset.ne_of_mem_erase hC (hP.eq_of_mem hC' hBP hj hjB)
        · intro j hj
          rcases Finset.mem_insert.1 hj with rfl | hj
          · exact ⟨{i}, by simp, by simp⟩
          · rw [Finset.mem_sdiff] at hj
            obtain ⟨C, hC, hjC⟩ := hP.exists_block hj.1
            refine ⟨C, Finset.mem_insert_of_mem (Finset.mem_erase.2 ⟨?_, hC⟩), hjC⟩
            rintro rfl; exact hj.2 hjC
        · have hno : ∀ C ∈ P.erase B, i ∉ C := fun C hC hiC =>
            Finset.ne_of_mem_erase hC (hP.eq_of_mem (Finset.mem_of_mem_erase hC) hBP hiC hiB)
          intro C hC D hD v hv hv'
          rcases Finset.mem_insert.1 hC with rfl | hC <;> rcases Finset.mem_insert.1 hD with rfl | hD
          · rfl
          · rw [Finset.mem_singleton.1 hv] at hv'; exact absurd hv' (hno D hD)
          · rw [Finset.mem_singleton.1 hv'] at hv; exact absurd hv (hno C hC)
          · exact hP.eq_of_mem (Finset.mem_of_mem_erase hC) (Finset.mem_of_mem_erase hD) hv hv'
      have hdisB : ∀ C ∈ P, C ≠ B → Disjoint C B := fun C hC hne => hP.disjoint hC hBP hne
      have hpull2 : pull φ2 V (insert {i} (P.erase B)) = PP := by
        rw [← hpull]
        unfold pull
        rw [Finset.image_insert, hpulli]
        conv_rhs => rw [← Finset.insert_erase hBP, Finset.image_insert]
        congr 1
        apply Finset.image_congr
        intro C hC
        have hC := Finset.mem_erase.1 hC
        exact hpullB C (hdisB C hC.2 hC.1)
      have hBsne : ∀ C ∈ Bs, C ≠ B := fun C hC h => (List.nodup_cons.1 hnd).1 (h ▸ hC)
      have hBsdis : ∀ C ∈ Bs, Disjoint C B := fun C hC =>
        hdisB C (hBs C (List.mem_cons_of_mem _ hC)).1 (hBsne C hC)
      have hold : ∀ c ∈ t :: rest, (∃ C ∈ Bs, c.K ⊆ pullB φ2 V C) → c ∈ ch ∧ ∃ C ∈ B :: Bs, c.K ⊆ pullB φ V C := by
        rintro c hc ⟨C, hC, hs⟩
        rw [hpullB C (hBsdis C hC)] at hs
        rcases List.mem_cons.1 hc with rfl | hc
        · exfalso
          have h1 : i ∈ pullB φ V C := hs (mem_pullB.2 ⟨hiV, by rw [hiφ]; exact hiB⟩)
          have h2 := (mem_pullB.1 h1).2
          rw [hiφ] at h2
          exact Finset.disjoint_left.1 (hBsdis C hC) h2 hiB
        · exact ⟨(List.mem_filter.1 hc).1, C, List.mem_cons_of_mem _ hC, hs⟩
      obtain ⟨g', φ', I', ch', he, hpost, hpp, hv, hsim⟩ := ih g2 φ2 I2 (t :: rest) (insert {i} (P.erase B))
        hr2 hI2n hkids2
        (fun c hc => by
          rcases List.mem_cons.1 hc with rfl | hc
          · exact hgood1
          · exact hgood c (List.mem_filter.1 hc).1)
        hP2 hpull2 (List.nodup_cons.1 hnd).2
        (fun C hC => by
          obtain ⟨h1, h2⟩ := hBs C (List.mem_cons_of_mem _ hC)
          exact ⟨Finset.mem_insert_of_mem (Finset.mem_erase.2 ⟨hBsne C hC, h1⟩), h2⟩)
        (fun C hC hn => by
          rcases Finset.mem_insert.1 hC with rfl | hC
          · simp
          · exact hone C (Finset.mem_of_mem_erase hC) (by
              simp [Finset.ne_of_mem_erase hC, hn]))
        (fun C hC => by
          rw [hpullB C (hBsdis C hC), hps C (hBsdis C hC)]
          exact hmo C (List.mem_cons_of_mem _ hC))
        (fun C hC D hD => by
          rw [hpullB C (hBsdis C hC), hps C (hBsdis C hC)]
          exact hsb C (List.mem_cons_of_mem _ hC) D hD)
        (fun c hc hs => hmv c (hold c hc hs).1 (hold c hc hs).2)
        (fun c hc m hm => by
          rcases List.mem_cons.1 hc with rfl | hc
          · rw [ht, PTree.val, Option.some.injEq] at hm
            rw [← hm]; linarith
          · exact hγ c (List.mem_filter.1 hc).1 m hm) hs0
      have hI2I : I2 ⊆ I := by
        rw [hI2]
        exact Finset.insert_subset (hBI hiB) Finset.sdiff_subset
      refine ⟨g', φ', I', ch', ?_, ?_, hpp, hv, ?_⟩
      · rw [pspiBlocksF, if_neg hc1, ← hmoved]
        dsimp only
        rw [he1, Outcome.ok_bind, hK']
        exact he
      · refine ⟨hpost.rep, hpost.sub.trans hI2I, hpost.nodes, hpost.kids, ?_, ?_, ?_, hpost.good⟩
        · intro v hvV hvI
          have e := hφout v hvV fun h => hvI (hBI h)
          rw [hpost.out v hvV (by rw [e]; exact fun h => hvI (hI2I h)), e]
        · intro v hvV hvI
          apply hpost.inn v hvV
          by_cases hvB : φ v ∈ B
          · rw [hφin v hvV hvB, hI2]; simp
          · rw [hφout v hvV hvB, hI2]
            exact Finset.mem_insert_of_mem (Finset.mem_sdiff.2 ⟨hvI, hvB⟩)
        · intro v hv w hw hvw
          apply hpost.same v hv w hw
          by_cases hvB : φ v ∈ B
          · rw [hφin v hv hvB, hφin w hw (hvw ▸ hvB)]
          · rw [hφout v hv hvB, hφout w hw (hvw ▸ hvB), hvw]
      · intro st newS hst
        obtain ⟨st1, h1, h2, _, _, h3⟩ := hsim1 st fun c hc =>
          hst c (List.mem_filter.1 (List.mem_reverse.1 hc)).1
        obtain ⟨st', h4, h5, h6⟩ := hsim st1 (insert i newS) (fun c hc => by
          rcases List.mem_cons.1 hc with rfl | hc
          · exact h2
          · have hc' := (List.mem_filter.1 hc).1
            refine (hst c hc').congrF (hgood c hc') fun n hn hne => h3 n fun hnB => ?_
            exact hkids.not_mem hrep hI hc' hn hne (hBI hnB))
        refine ⟨st', ?_, h5, fun n hn => ?_⟩
        · rw [hpspBlocksF, if_neg hc1, ← hi, h1, Outcome.ok_bind]
          dsimp only
          rw [h4]
          congr 3
          ext v; simp [hi]
        · obtain ⟨a, b⟩ := h6 n fun h => hn (hI2I h)
          obtain ⟨c, d⟩ := h3 n fun h => hn (hBI h)
          exact ⟨a.trans c, b.trans d⟩

theorem ISetup.y_nonneg {S : FlowSolver} {fl : ℚ → ℚ} {ao : List Arc → List Arc} {ord : Partition → List CSet}
    {u M δ W e w y : ℚ} (H : ISetup S fl ao ord E V n u M δ W e ε w y τ) : 0 ≤ w ∧ 6 * w ≤ y := by
  have hu := H.small.rounds.nonneg
  have hW := H.small.one
  have hδ := H.small.err
  have hw : 0 ≤ w := by rw [H.w_eq]; positivity
  have : (0 : ℚ) ≤ n * δ := by positivity
  exact ⟨hw, by rw [H.y_eq]; linarith⟩

theorem split_nearF {S : FlowSolver} {fl : ℚ → ℚ} {ao : List Arc → List Arc} {ord : Partition → List CSet}
    {u M δ W e w y : ℚ} (H : ISetup S fl ao ord E V n u M δ W e ε w y τ) (k : ℕ) :
    SplitNearF fl ao S ε ord E V n u w y τ k := by
  obtain ⟨hw0, hy6⟩ := H.y_nonneg
  have hy0 : 0 ≤ y := by linarith
  induction k with
  | zero =>
    intro g φ I ch mu s _ _ h2 hk
    omega
  | succ k ih =>
    intro g φ I ch mu s hr hI h2 hcard hkids hgood hs0 hs hmu hmo
    obtain ⟨hnodes, E', u', hu', hrep, hW', _, _⟩ := hr.facts H
    have hon := hrep.onto hI
    have hlen := hkids.length hon
    have hids := hkids.ids hrep hI
    set ns := subNodes g I with hns
    have hIne : I.Nonempty := Finset.card_pos.1 (by omega)
    have hky : (0 : ℚ) ≤ k * y := by positivity
    have hsy : s + y + k * y ≤ τ := by push_cast at hs; linarith
    set γ := splitGammaF fl ao g.arcs ns I.card with hγ
    obtain ⟨hbal, htwo, hdone, hsplit⟩ := decideF_near H hr hI h2 hγ
    rw [← hns] at hdone hsplit
    have hKne : (pullB φ V I).Nonempty := by
      obtain ⟨i, hi⟩ := hIne
      exact ⟨i, mem_pullB.2 ⟨(hon i hi).1, by rw [(hon i hi).2]; exact hi⟩⟩
    have hle : γ ≤ mu + y := by
      have h1 := hmo.2 _ (isPartition_single hKne) (by
        intro D hD
        exact ⟨_, Finset.mem_singleton_self _, hmo.1.subset hD⟩)
      have h3 := cost_shift (E := induced E (pullB φ V I)) (l := mu) (m := γ) (pull φ V (singletons I)) {pullB φ V I}
      rw [cost_whole, cost_whole, card_pull hon (isPartition_singletons I), card_singletons, Finset.card_singleton] at h3
      rw [cost_whole] at h1
      have h4 := (abs_le.1 hbal).1
      have hIq : (1 : ℚ) ≤ (I.card : ℚ) - 1 := by
        have : (2 : ℚ) ≤ I.card := by exact_mod_cast h2
        linarith
      push_cast at h3
      by_contra hlt
      push Not at hlt
      nlinarith
    have hval0 : ∀ c ∈ ch, ∀ m, c.val = some m → γ - (s + y) ≤ m := fun c hc m hm => by
      have := hmu c hc m hm
      linarith
    have hnq : (0 : ℚ) < n := by exact_mod_cast H.small.pos
    have hIn : (I.card : ℚ) - 1 ≤ n := by
      have : I ⊆ V := fun i hi => (hon i hi).1
      have h1 : (I.card : ℚ) ≤ n := by exact_mod_cast (Finset.card_le_card this).trans H.card
      linarith
    have hIq : (1 : ℚ) ≤ (I.card : ℚ) - 1 := by
      have : (2 : ℚ) ≤ I.card := by exact_mod_cast h2
      linarith
    have hfall : ∀ κ, 0 ≤ κ → cost (induced E (pullB φ V I)) mu (pull φ V (singletons I)) ≤ -mu - κ →
        γ ≤ mu - κ / n + y := by
      intro κ hκ hc
      have h3 := cost_shift (E := induced E (pullB φ V I)) (l := mu) (m := γ) (pull φ V (singletons I)) {pullB φ V I}
      rw [cost_whole, cost_whole, card_pull hon (isPartition_singletons I), card_singletons, Finset.card_singleton] at h3
      have h4 := (abs_le.1 hbal).1
      push_cast at h3
      have h5 : κ / n * ((I.card : ℚ) - 1) ≤ κ := by
        rw [div_mul_eq_mul_div, div_le_iff₀ hnq]
        exact mul_le_mul_of_nonneg_left hIn hκ
      by_contra hlt
      push Not at hlt
      have h6 : y ≤ y * ((I.card : ℚ) - 1) := by nlinarith
      have h7 : (mu - κ / n + y) * ((I.card : ℚ) - 1) < γ * ((I.card : ℚ) - 1) :=
        mul_lt_mul_of_pos_right hlt (by linarith)
      have h8 : (mu - κ / n + y) * ((I.card : ℚ) - 1) =
        mu * ((I.card : ℚ) - 1) - κ / n * ((I.card : ℚ) - 1) + y * ((I.card : ℚ) - 1) := by ring
      nlinarith
    -- finishing
    have hfinish : (∀ st : HState, hpspSplitF fl ao S ε ord (k + 1) g st (firstElem I) I =
          .ok (g, st.assign I γ (firstElem I))) → RelOpt E (pullB φ V I) (pull φ V (singletons I)) (ε + y) γ (pull φ V (singletons I)) →
        ∃ g' φ' I' ch' l, (Outcome.ok (g, some γ, ch) : Outcome (Digraph × Option ℚ × List PTree)) =
          .ok (g', some l, ch') ∧ PostF E (4 * n * u) ε τ (6 * w) (ε + y) n V I φ g' φ' I' ch' ∧
        GoodF τ (6 * w) (ε + y) E (.node (pullB φ V I) (some l) ch') ∧
        HSimF fl ao S ε ord (k + 1) g I ch g' (pullB φ V I) l ch' ∧
        (y ≤ ε → (∀ κ, 0 ≤ κ → cost (induced E (pullB φ V I)) mu (pull φ V (singletons I)) ≤ -mu - κ →
            l ≤ mu - κ / n + (k + 1 : ℕ) * y) ∧
          ∀ c ∈ ch', c ∈ ch ∨ ∀ m, c.val = some m → l + (ε - y) / n - τ ≤ m) := by
      intro hh ho
      refine ⟨g, φ, I, ch, γ, rfl, ⟨hr, subset_rfl, hI, hkids, fun _ _ _ => rfl, fun _ _ h => h,
        fun _ _ _ _ h => h, hgood⟩, ?_, ?_, fun _ => ⟨fun κ hκ hc => ?_, fun c hc => Or.inl hc⟩⟩
      rotate_left 2
      · have := hfall κ hκ hc
        push_cast
        linarith
      · rw [← hkids.eq] at ho hbal
        exact GoodF.node _ _ _ hgood (fun c hc m hm => by have := hval0 c hc m hm; linarith) (by omega) hkids.nodup hKne
          ho hbal
      · intro st hst
        have hfi := firstElem_mem hIne
        refine ⟨_, hh st, ?_, ?_, ?_, ?_⟩
        · refine Enc.node _ _ _ (fun c hc => (hst c hc).congrF (hgood c hc) fun n hn hne => ?_)
            fun c hc hne => ?_
          · have := hkids.not_mem hrep hI hc hn hne
            simp [HState.assign, this]
          · obtain ⟨i, hi, he⟩ := hkids.mem hc
            rw [← he, hrep.firstElem_group (List.mem_toFinset.1 (hI hi)), hrep.firstElem_pullB hI hIne]
            simp [HState.assign, hi]
        · simp [HState.assign, hfi]
        · simp [HState.assign, hfi]
        · intro n hn
          simp [HState.assign, hn]
    rw [pspiSplitF]
    dsimp only
    rw [hids, ← hns, if_neg (by omega), hlen, ← hγ]
    by_cases hl2 : I.card = 2
    · rw [if_pos hl2]
      refine hfinish (fun st => ?_) (htwo hl2)
      rw [hpspSplitF]
      dsimp only
      rw [← hns, if_neg (by omega), if_pos hl2]
    · rw [if_neg hl2]
      set r := dilworthIF fl S g.arcs γ ns with hr'
      cases hd : splitDoneF fl ε γ I.card r with
      | true =>
        rw [if_pos rfl]
        refine hfinish (fun st => ?_) (hdone hd)
        rw [hpspSplitF]
        dsimp only
        rw [← hns, if_neg (by omega), if_neg hl2, ← hγ, ← hr', hd, if_pos rfl]
      | false =>
        rw [if_neg (by simp)]
        obtain ⟨hrp, hPP, hk1, hkm, hdeep⟩ := hsplit hd
        have hrlt : r.2.card < I.card := lt_of_le_of_ne hrp.card_le hkm
        have hrpos := hrp.card_pos hIne
        have href : Refines (pull φ V (singletons I)) (pull φ V r.2) :=
          (refines_pull hon (isPartition_singletons I)).2 (singletons_refines hrp)
        obtain ⟨hond, hos⟩ := H.ord r.2
        have hmemo : ∀ B, B ∈ ord r.2 ↔ B ∈ r.2 := by
          intro B; rw [← List.mem_toFinset, hos]
        obtain ⟨g1, φ1, I1, ch1, he1, hpost1, hpp1, hv1, hsim1⟩ := blocks_nearF (mu := mu) (s := s) H ih (by linarith) hPP href
          (ord r.2) g φ I ch r.2 hr hI hkids hgood hrp rfl hond
          (fun B hB => by
            have hB := (hmemo B).1 hB
            refine ⟨hB, ?_⟩
            have := card_block_lt hrp (by omega) hB
            omega)
          (fun B hB hn => absurd ((hmemo B).2 hB) hn)
          (fun B hB => by
            have hB := (hmemo B).1 hB
            have := hmo.part (pull_isPartition hon hrp) href (Finset.mem_image_of_mem _ hB)
            rwa [part_pull hrp hB hon] at this)
          (fun B hB D hD hs => by
            rw [← part_pull hrp ((hmemo B).1 hB) hon]
            exact mem_part.2 ⟨hD, hs⟩)
          (fun c hc _ m hm => hmu c hc m hm)
          hval0 hs0
        obtain ⟨_, E1, u1, hu1, hrep1, hW1, _, _⟩ := hpost1.rep.facts H
        have hcard1 : I1.card = r.2.card := by
          have h1 := card_pull (hrep1.onto hpost1.nodes) (isPartition_singletons I1)
          rw [hpp1, card_pull hon hrp, card_singletons] at h1
          exact h1.symm
        have hpb := hpost1.pullB_eq
        obtain ⟨g2, φ2, I2, ch2, l, he2, hpost2, hgood2, hsim2, hgap2⟩ := ih g1 φ1 I1 ch1 γ (s + y) hpost1.rep hpost1.nodes
          (by omega) (by omega) hpost1.kids hpost1.good (by linarith) hsy hv1
          (by rw [hpb, hpp1]; exact hPP.mono href)
        refine ⟨g2, φ2, I2, ch2, l, ?_, hpost1.trans hpost2, ?_, ?_, ?_⟩
        rotate_right 1
        · intro hyε
          obtain ⟨hs1, hs2⟩ := hgap2 hyε
          have hdeep' : cost (induced E (pullB φ1 V I1)) γ (pull φ1 V (singletons I1)) ≤ -γ - (ε - y) := by
            rw [hpb, hpp1]; linarith
          have hl := hs1 (ε - y) (by linarith) hdeep'
          have h0 : 0 ≤ (ε - y) / n := div_nonneg (by linarith) hnq.le
          refine ⟨fun κ hκ hc => ?_, fun c hc => Or.inr fun m hm => ?_⟩
          · have := hfall κ hκ hc
            push_cast
            linarith
          · rcases hs2 c hc with h | h
            · have := hv1 c h m hm
              linarith
            · exact h m hm
        · rw [he1, Outcome.ok_bind, he2]
        · rw [← hpb]; exact hgood2
        · -- the simulation
          have hI1ne : I1.Nonempty := Finset.card_pos.1 (by omega)
          have hI1 : ∅ ∪ ((ord r.2).map firstElem).toFinset = I1 := by
            have e1 : (pull φ1 V (singletons I1)).image firstElem = I1 := by
              ext i
              rw [Finset.mem_image]
              constructor
              · rintro ⟨A, hA, rfl⟩
                obtain ⟨j, hj, rfl⟩ := mem_pull_singletons.1 hA
                rwa [hrep1.firstElem_group (List.mem_toFinset.1 (hpost1.nodes hj))]
              · intro hi
                exact ⟨_, mem_pull_singletons.2 ⟨i, hi, rfl⟩,
                  hrep1.firstElem_group (List.mem_toFinset.1 (hpost1.nodes hi))⟩
            rw [← e1, hpp1]
            ext i
            rw [Finset.empty_union, List.mem_toFinset, List.mem_map, Finset.mem_image]
            constructor
            · rintro ⟨B, hB, rfl⟩
              have hB' := (hmemo B).1 hB
              exact ⟨_, Finset.mem_image_of_mem _ hB', hrep.firstElem_pullB
                ((hrp.subset hB').trans hI) (hrp.nonempty hB')⟩
            · rintro ⟨A, hA, rfl⟩
              obtain ⟨B, hB', rfl⟩ := Finset.mem_image.1 hA
              exact ⟨B, (hmemo B).2 hB', (hrep.firstElem_pullB
                ((hrp.subset hB').trans hI) (hrp.nonempty hB')).symm⟩
          have hfe : firstElem I1 = firstElem I := by
            rw [← hrep.firstElem_pullB hI hIne, ← hpb, hrep1.firstElem_pullB hpost1.nodes hI1ne]
          intro st hst
          obtain ⟨st1, h1, h3, h4⟩ := hsim1 st ∅ hst
          rw [hI1] at h1
          obtain ⟨st2, h5, h6, h7, h8, h9⟩ := hsim2 st1 h3
          rw [hfe] at h5 h7 h8
          rw [hpb] at h6
          refine ⟨st2, ?_, h6, h7, h8, fun n hn => ?_⟩
          · rw [hpspSplitF]
            dsimp only
            rw [← hns, if_neg (by omega), if_neg (by omega), ← hγ, ← hr', hd, if_neg (by simp), h1, Outcome.ok_bind, h5]
          · obtain ⟨a, b⟩ := h9 n fun h => hn (hpost1.sub h)
            obtain ⟨c, d⟩ := h4 n hn
            exact ⟨a.trans c, b.trans d⟩

/-! ### the run -/

theorem approx_mono {C C' : ℚ} {Ps : List Partition} {cv : List ℚ} (h : IsApproximateSequence E V C Ps cv)
    (hC : C ≤ C') : IsApproximateSequence E V C' Ps cv :=
  ⟨h.length, h.first, h.last, h.refine, h.nondecreasing, fun i P lam h1 h2 h3 => near_mono (h.optimal i P lam h1 h2 h3) hC⟩

theorem pspiRunF_near {S : FlowSolver} {fl : ℚ → ℚ} {ao : List Arc → List Arc} {ord : Partition → List CSet}
    {u M δ W e w y : ℚ} (hn : 2 ≤ n) (hg : GoodDigraph g n) (hlow : ∀ e ∈ g.arcs, ε ≤ e.cap)
    (H : ISetup S fl ao ord g.arcs (Finset.range n) n u M δ W e ε w y τ) :
    ∃ g' r, pspiRunF fl ao S ε ord g = .ok (g', r) ∧
      IsApproximateSequence g.arcs (Finset.range n) (((n : ℚ) - 1) * ε + 5 * n ^ 3 * y) r.psp
        (r.cv.insertionSort (· ≤ ·)) ∧
      List.Forall₂ (fun x y' => |x - y'| ≤ 3 * n ^ 2 * y) r.cv (r.cv.insertionSort (· ≤ ·)) := by
  obtain ⟨hw0, hy6⟩ := H.y_nonneg
  have hy0 : 0 ≤ y := by linarith
  set V := Finset.range n with hV
  have hVc : V.card = n := by simp [hV]
  have hE := hg.good.nonneg
  have hW := hg.good.within
  have hcn : g.countNodes = n := by rw [Digraph.countNodes, hg.nodes, List.length_range]
  have hVn : V ⊆ g.nodes.toFinset := by
    intro i hi; rw [List.mem_toFinset, hg.nodes]; simpa [hV] using hi
  obtain ⟨u', hu', hgr⟩ := exists_granular g.arcs
  have hsc : scale (fun _ => 1) g.arcs = g.arcs := by
    unfold scale
    simp
  have hrep : RepF g.arcs V (4 * n * u) ε n g id := by
    refine ⟨⟨fun _ => 1, u', fun e => ?_, hu', ?_⟩, hlow⟩
    · rw [show g.nodes.length = n from hcn]; simp
    · rw [hsc]; exact rep_init hg hgr
  obtain ⟨g', φ', I', ch', l, he, hpost, hgood, -, -⟩ := split_nearF H
    (n + 1) g id V _ (crossWeight g.arcs (singletons V)) 0 hrep hVn (by omega) (by omega) (kids_init n)
    (fun c hc => by
      obtain ⟨i, _, rfl⟩ := List.mem_map.1 hc
      exact GoodF.leaf i)
    le_rfl (by rw [H.τ_eq]; push_cast; linarith)
    (fun c hc m hm => by
      obtain ⟨i, _, rfl⟩ := List.mem_map.1 hc
      simp [PTree.val] at hm)
    (by
      rw [pullB_id subset_rfl, pull_id _ _ subset_rfl]
      have := isOptimal_singletons (V := V) hE (le_refl (crossWeight g.arcs (singletons V)))
      refine ⟨this.1, fun R hR _ => ?_⟩
      rw [induced_self hW]
      have := this.2 R hR
      linarith)
  rw [pullB_id subset_rfl] at hgood
  have hτ0 : 0 ≤ τ := by rw [H.τ_eq]; positivity
  obtain ⟨psp, cv, hq, happ, hclose⟩ := queue_nearF hn hE hW hτ0 (by linarith) (by linarith [H.pos]) hgood
  have hnq : (2 : ℚ) ≤ n := by exact_mod_cast hn
  refine ⟨g', ⟨psp, cv⟩, ?_, ?_, ?_⟩
  · unfold pspiRunF
    simp only [hcn]
    rw [if_neg (by omega), he, Outcome.ok_bind]
    simp only
    rw [show makeDense n = Finset.range n from rfl, hq]
    rfl
  · refine approx_mono happ ?_
    rw [H.τ_eq]
    have h1 : ((n : ℚ) - 1) * (6 * w) ≤ ((n : ℚ) - 1) * y := mul_le_mul_of_nonneg_left hy6 (by linarith)
    have h2 : (3 * (n : ℚ) ^ 3 + 3 * n ^ 2 + n - 3) ≤ 5 * n ^ 3 := by nlinarith
    have h3 := mul_le_mul_of_nonneg_right h2 hy0
    linarith
  · refine hclose.imp fun a b h => h.trans ?_
    rw [H.τ_eq]
    have h2 : 2 * ((n : ℚ) * (n + 1)) ≤ 3 * n ^ 2 := by nlinarith
    have h3 := mul_le_mul_of_nonneg_right h2 hy0
    linarith

end PSP.Theory
