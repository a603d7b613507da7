import Verif.Theory.RoundedPSPI
import Verif.Theory.PSPIApprox

/-!
# Contraction with rounded sums

The contracted graph represents exactly a graph whose weights are slightly changed.
-/

namespace PSP.Theory

open PSP.Spec PSP.Model

variable {E L : List Arc} {V I : Finset ℕ} {φ : ℕ → ℕ} {P Q R : Partition} {ε θ : ℚ} {g : Digraph}

/-! ### changed weights -/

/-- The weights multiplied by `s`. -/
def scale (s : Arc → ℚ) (E : List Arc) : List Arc := E.map fun e => ⟨e.src, e.dst, s e * e.cap⟩

theorem scale_within {s : Arc → ℚ} (hW : Within E V) : Within (scale s E) V := by
  intro e he
  obtain ⟨a, ha, rfl⟩ := List.mem_map.1 he
  exact hW a ha

theorem scale_nonneg {s : Arc → ℚ} (hs : ∀ e, 0 ≤ s e) (hE : NonnegE E) : NonnegE (scale s E) := by
  intro e he
  obtain ⟨a, ha, rfl⟩ := List.mem_map.1 he
  exact mul_nonneg (hs a) (hE a ha)

theorem sum_scale {s : Arc → ℚ} (hs : ∀ e, |s e - 1| ≤ θ) (hE : NonnegE E) (p : Arc → Prop) [DecidablePred p]
    (hp : ∀ e, p ⟨e.src, e.dst, s e * e.cap⟩ ↔ p e) :
    |((scale s E).map fun e => if p e then e.cap else 0).sum - (E.map fun e => if p e then e.cap else 0).sum| ≤
      θ * (E.map fun e => if p e then e.cap else 0).sum := by
  unfold scale
  induction E with
  | nil => simp
  | cons e E ih =>
    have ih := ih fun a ha => hE a (List.mem_cons_of_mem _ ha)
    have he := hE e List.mem_cons_self
    simp only [List.map_cons, List.sum_cons, hp]
    have h1 := abs_le.1 ih
    have h2 := abs_le.1 (hs e)
    split
    · rw [abs_le]
      constructor
      · nlinarith
      · nlinarith
    · rw [abs_le]
      constructor <;> linarith

theorem crossWeight_induced (E : List Arc) (K : Finset ℕ) (P : Partition) : crossWeight (induced E K) P =
    (E.map fun e => if e.src ∈ K ∧ e.dst ∈ K ∧ ¬ Same P e.src e.dst then e.cap else 0).sum := by
  unfold crossWeight induced
  rw [sum_filter_map]
  congr 1
  apply List.map_congr_left
  intro e _
  by_cases hs : Same P e.src e.dst <;> by_cases hm : e.src ∈ K <;> by_cases hm' : e.dst ∈ K <;> simp [hs, hm, hm']

/-- Changed weights change the cost of a partition little. -/
theorem cost_scale {s : Arc → ℚ} (hs : ∀ e, |s e - 1| ≤ θ) (hE : NonnegE E) (K : Finset ℕ) (lam : ℚ) (P : Partition) :
    |cost (induced (scale s E) K) lam P - cost (induced E K) lam P| ≤ θ * totalCap E := by
  have h := sum_scale hs hE (fun e => e.src ∈ K ∧ e.dst ∈ K ∧ ¬ Same P e.src e.dst) (fun e => Iff.rfl)
  rw [← crossWeight_induced, ← crossWeight_induced] at h
  unfold cost
  rw [show crossWeight (induced (scale s E) K) P - lam * P.card - (crossWeight (induced E K) P - lam * P.card) =
    crossWeight (induced (scale s E) K) P - crossWeight (induced E K) P by ring]
  refine h.trans (mul_le_mul_of_nonneg_left ?_ ((abs_nonneg _).trans (hs ⟨0, 0, 0⟩)))
  exact (crossWeight_le_total (induced_nonneg hE K) P).2.trans (totalCap_induced_le hE K)

theorem totalCap_scale {s : Arc → ℚ} (hs : ∀ e, |s e - 1| ≤ θ) (hE : NonnegE E) :
    totalCap (scale s E) ≤ (1 + θ) * totalCap E := by
  have h := sum_scale hs hE (fun _ => True) (fun e => Iff.rfl)
  simp only [if_true] at h
  have := (abs_le.1 h).2
  unfold totalCap
  linarith

/-! ### contraction -/

/-- The factor of an arc when the arcs between `S` and `v` get the factor `f v`. -/
def factor (f : ℕ → ℚ) (S : Finset ℕ) (i j : ℕ) : ℚ :=
  if i ∈ S ∧ j ∉ S then f j else if i ∉ S ∧ j ∈ S then f i else 1

theorem factor_comm (f : ℕ → ℚ) (S : Finset ℕ) (i j : ℕ) : factor f S i j = factor f S j i := by
  unfold factor
  by_cases h1 : i ∈ S <;> by_cases h2 : j ∈ S <;> simp [h1, h2]

/-- The graph with changed weights. -/
def scaleG (f : ℕ → ℚ) (S : Finset ℕ) (g : Digraph) : Digraph where
  nodes := g.nodes
  arcs := scale (fun e => factor f S e.src e.dst) g.arcs

theorem capacityTo_scale (f : ℕ → ℚ) (S : Finset ℕ) (L : List Arc) (v : ℕ) :
    capacityTo (scale (fun e => factor f S e.src e.dst) L) S v = f v * capacityTo L S v := by
  unfold capacityTo scale
  rw [List.map_map, ← List.sum_map_mul_left]
  congr 1
  apply List.map_congr_left
  intro e _
  simp only [Function.comp, factor]
  by_cases h1 : e.src ∈ S <;> by_cases h2 : e.dst ∈ S <;> simp [h1, h2]
  · split_ifs with h
    · rw [h]
    · rfl
  · split_ifs with h
    · rw [h]
    · rfl

theorem pairW_scale (s : ℕ → ℕ → ℚ) (hs : ∀ i j, s i j = s j i) (φ : ℕ → ℕ) (L : List Arc) (i j : ℕ) :
    pairW (scale (fun e => s (φ e.src) (φ e.dst)) L) φ i j = s i j * pairW L φ i j := by
  unfold pairW scale
  rw [List.map_map, ← List.sum_map_mul_left]
  congr 1
  apply List.map_congr_left
  intro e _
  simp only [Function.comp]
  by_cases h : (φ e.src = i ∧ φ e.dst = j) ∨ (φ e.src = j ∧ φ e.dst = i)
  · rw [if_pos h, if_pos h]
    rcases h with ⟨h1, h2⟩ | ⟨h1, h2⟩
    · rw [h1, h2]
    · rw [h1, h2, hs j i]
  · rw [if_neg h, if_neg h, mul_zero]

/-- Changing the weights on both sides. -/
theorem Rep.scaleG {u : ℚ} (h : Rep E V u g φ) {f : ℕ → ℚ} (hf : ∀ v, 0 ≤ f v) (S : Finset ℕ) :
    ∃ u', 0 < u' ∧ Rep (scale (fun e => factor f S (φ e.src) (φ e.dst)) E) V u' (scaleG f S g) φ := by
  obtain ⟨u', hu', hgr⟩ := exists_granular (Theory.scaleG f S g).arcs
  have hfac : ∀ i j, 0 ≤ factor f S i j := by
    intro i j
    unfold factor
    split_ifs
    · exact hf j
    · exact hf i
    · exact zero_le_one
  refine ⟨u', hu', h.sorted, ?_, hgr, h.sub, h.fix, h.maps, h.le, fun i hi j hj hij => ?_⟩
  · refine ⟨?_, scale_within h.good.within, ?_, scale_nonneg (fun e => hfac _ _) h.good.nonneg⟩
    · intro e he
      obtain ⟨a, ha, rfl⟩ := List.mem_map.1 he
      exact h.good.lowHigh a ha
    · unfold SimpleE
      show (scale _ g.arcs).Pairwise _
      unfold scale
      rw [List.pairwise_map]
      exact h.good.simple
  · rw [pairW_scale (factor f S) (factor_comm f S) φ E i j, ← h.weight i hi j hj hij]
    exact pairW_scale (factor f S) (factor_comm f S) id g.arcs i j

theorem flSum_low {fl : ℚ → ℚ} {u M : ℚ} (h : Rounds fl u M) (hε : ε ≤ fl ε) (h0 : 0 ≤ ε) (l : List ℚ) :
    ∀ s, (s = 0 ∨ ε ≤ s) → (∀ x ∈ l, ε ≤ x) → flSum fl s l = 0 ∨ ε ≤ flSum fl s l := by
  induction l with
  | nil => intro s hs _; exact hs
  | cons x l ih =>
    intro s hs hl
    refine ih (fl (s + x)) (Or.inr ?_) fun y hy => hl y (by simp [hy])
    have hx := hl x (by simp)
    refine hε.trans (h.mono ?_)
    rcases hs with rfl | hs <;> linarith

/-- The arcs of a simple graph that connect `S` with `v`. -/
theorem star_length {N : Finset ℕ} (hg : GoodGraph L N) (S : Finset ℕ) (v : ℕ) :
    (L.filter fun a => (a.src ∈ S ∧ a.dst ∉ S ∧ a.dst = v) ∨ (a.src ∉ S ∧ a.dst ∈ S ∧ a.src = v)).length ≤ N.card := by
  set F := L.filter fun a => (a.src ∈ S ∧ a.dst ∉ S ∧ a.dst = v) ∨ (a.src ∉ S ∧ a.dst ∈ S ∧ a.src = v) with hF
  have hmem : ∀ a ∈ F, a ∈ L ∧ ((a.src ∈ S ∧ a.dst ∉ S ∧ a.dst = v) ∨ (a.src ∉ S ∧ a.dst ∈ S ∧ a.src = v)) := by
    intro a ha
    rw [hF, List.mem_filter, decide_eq_true_eq] at ha
    exact ha
  have hnd : (F.map fun a => if a.src = v then a.dst else a.src).Nodup := by
    show List.Pairwise _ _
    rw [List.pairwise_map]
    refine List.Pairwise.imp_of_mem ?_ (hg.simple.filter _)
    intro a b ha hb hab he
    obtain ⟨ha1, ha2⟩ := hmem a ha
    obtain ⟨hb1, hb2⟩ := hmem b hb
    have la := hg.lowHigh a ha1
    have lb := hg.lowHigh b hb1
    apply hab
    by_cases h1 : a.src = v <;> by_cases h2 : b.src = v
    · rw [if_pos h1, if_pos h2] at he
      exact ⟨h1.trans h2.symm, he⟩
    · rw [if_pos h1, if_neg h2] at he
      have : b.dst = v := by
        rcases hb2 with h | h
        · exact h.2.2
        · exact absurd h.2.2 h2
      omega
    · rw [if_neg h1, if_pos h2] at he
      have : a.dst = v := by
        rcases ha2 with h | h
        · exact h.2.2
        · exact absurd h.2.2 h1
      omega
    · rw [if_neg h1, if_neg h2] at he
      have h3 : b.dst = v := by
        rcases hb2 with h | h
        · exact h.2.2
        · exact absurd h.2.2 h2
      have h4 : a.dst = v := by
        rcases ha2 with h | h
        · exact h.2.2
        · exact absurd h.2.2 h1
      exact ⟨he, h4.trans h3.symm⟩
  rw [← List.length_map (f := fun a : Arc => if a.src = v then a.dst else a.src), ← List.toFinset_card_of_nodup hnd]
  apply Finset.card_le_card
  intro w hw
  obtain ⟨a, ha, rfl⟩ := List.mem_map.1 (List.mem_toFinset.1 hw)
  have := hg.within a (hmem a ha).1
  split
  · exact this.2
  · exact this.1

theorem arcs_length {N : Finset ℕ} (hg : GoodGraph L N) : L.length ≤ N.card * N.card := by
  have hnd : (L.map fun a => (a.src, a.dst)).Nodup := by
    show List.Pairwise _ _
    rw [List.pairwise_map]
    refine hg.simple.imp ?_
    intro a b hab he
    exact hab ⟨congrArg Prod.fst he, congrArg Prod.snd he⟩
  rw [← List.length_map (f := fun a : Arc => (a.src, a.dst)), ← List.toFinset_card_of_nodup hnd, ← Finset.card_product]
  apply Finset.card_le_card
  intro w hw
  obtain ⟨a, ha, rfl⟩ := List.mem_map.1 (List.mem_toFinset.1 hw)
  exact Finset.mem_product.2 (hg.within a ha)

/-- Error of the sum of the weights of the arcs with `p`. -/
theorem flSum_filter_err {fl : ℚ → ℚ} {u M : ℚ} (hfl : Rounds fl u M) {ao : List Arc → List Arc}
    (hao : ∀ l, (ao l).Perm l) (p : Arc → Prop) [DecidablePred p] {k : ℕ} (hk : 2 * k * u ≤ 1)
    (hlen : (L.filter fun a => p a).length ≤ k) (hlow : ∀ a ∈ L, u ≤ a.cap)
    (hM : 2 * u * (L.map fun a => if p a then a.cap else 0).sum ≤ M) :
    |flSum fl 0 (((ao L).filter fun a => p a).map (·.cap)) - (L.map fun a => if p a then a.cap else 0).sum| ≤
      2 * k * u * (L.map fun a => if p a then a.cap else 0).sum := by
  have hsum : (((ao L).filter fun a => p a).map (·.cap)).sum = (L.map fun a => if p a then a.cap else 0).sum := by
    rw [sum_filter_map, ((hao L).map _).sum_eq]
    simp
  have hl : (((ao L).filter fun a => p a).map (·.cap)).length ≤ k := by
    rw [List.length_map, ((hao L).filter _).length_eq]; exact hlen
  have h := hfl.flSum_pos' hk hl (fun x hx => by
    obtain ⟨a, ha, rfl⟩ := List.mem_map.1 hx
    exact hlow a ((hao L).mem_iff.1 (List.mem_filter.1 ha).1)) (by rw [hsum]; exact hM)
  rwa [hsum] at h

/-- The contracted graph represents the original graph with weights changed by at most `κ` per contracted node. -/
structure RepF (E : List Arc) (V : Finset ℕ) (κ ε : ℚ) (n : ℕ) (g : Digraph) (φ : ℕ → ℕ) : Prop where
  rep : ∃ (s : Arc → ℚ) (u : ℚ), (∀ e, |s e - 1| ≤ κ * ((n : ℚ) - g.nodes.length)) ∧ 0 < u ∧
    Rep (scale s E) V u g φ
  low : ∀ e ∈ g.arcs, ε ≤ e.cap

theorem RepF.contract {κ u M : ℚ} {n : ℕ} (h : RepF E V κ ε n g φ) (hW : Within E V) (hε : 0 < ε) {fl : ℚ → ℚ}
    (hfl : Rounds fl u M) (huε : u ≤ ε) (hM : 2 * u * totalCap g.arcs ≤ M) (hfε : ε ≤ fl ε) {ao : List Arc → List Arc} (hao : ∀ l, (ao l).Perm l)
    (hnodes : g.nodes.length ≤ n) (hκ : 4 * n * u ≤ κ) (hκ1 : κ * n ≤ 1) {S : Finset ℕ} {i : ℕ} (hi : i ∈ S)
    (hin : i ∈ g.nodes) (hmin : ∀ j ∈ S, i ≤ j) (hother : ∃ j ∈ S, j ∈ g.nodes ∧ j ≠ i) :
    RepF E V κ ε n (contractF fl ao ε g S i) (collapse S i φ) := by
  obtain ⟨s, w, hs, hw, hr⟩ := h.rep
  have hu := hfl.nonneg
  have hκ0 : 0 ≤ κ := le_trans (by positivity) hκ
  have hn0 : (1 : ℚ) ≤ n := by
    have : 1 ≤ g.nodes.length := List.length_pos_of_mem hin
    exact_mod_cast this.trans hnodes
  have h2n : 2 * (n : ℚ) * u ≤ 1 := by nlinarith
  have hnc : g.nodes.toFinset.card ≤ n := (List.toFinset_card_le _).trans hnodes
  -- the sums
  have herr : ∀ v, |capacityToF fl ao g.arcs S v - capacityTo g.arcs S v| ≤ 2 * n * u * capacityTo g.arcs S v := by
    intro v
    unfold capacityToF
    rw [capacityTo_sum]
    refine flSum_filter_err hfl hao _ h2n ((star_length hr.good S v).trans hnc) (fun a ha => huε.trans (h.low a ha)) ?_
    refine le_trans (mul_le_mul_of_nonneg_left ?_ (by linarith)) hM
    unfold totalCap
    apply List.sum_le_sum
    intro a ha
    split
    · exact le_rfl
    · exact hr.good.nonneg a ha
  have hcap0 : ∀ v, 0 ≤ capacityTo g.arcs S v := by
    intro v
    rw [capacityTo_sum]
    apply List.sum_nonneg
    intro y hy
    obtain ⟨a, ha, rfl⟩ := List.mem_map.1 hy
    split
    · exact hr.good.nonneg a ha
    · exact le_rfl
  set f : ℕ → ℚ := fun v => if capacityTo g.arcs S v = 0 then 1 else capacityToF fl ao g.arcs S v / capacityTo g.arcs S v
    with hf
  have hfc : ∀ v, f v * capacityTo g.arcs S v = capacityToF fl ao g.arcs S v := by
    intro v
    rw [hf]
    dsimp only
    by_cases h0 : capacityTo g.arcs S v = 0
    · rw [if_pos h0, h0, mul_zero]
      have := herr v
      rw [h0, mul_zero, sub_zero] at this
      exact (abs_eq_zero.1 (le_antisymm this (abs_nonneg _))).symm
    · rw [if_neg h0]; field_simp
  have hf1 : ∀ v, |f v - 1| ≤ 2 * n * u := by
    intro v
    rw [hf]
    dsimp only
    by_cases h0 : capacityTo g.arcs S v = 0
    · rw [if_pos h0, sub_self, abs_zero]; positivity
    · rw [if_neg h0]
      have hpos : 0 < capacityTo g.arcs S v := lt_of_le_of_ne (hcap0 v) (Ne.symm h0)
      have h3 := herr v
      rw [div_sub_one h0, abs_div, abs_of_pos hpos, div_le_iff₀ hpos]
      exact h3
  have hf0 : ∀ v, 0 ≤ f v := fun v => by
    have := (abs_le.1 (hf1 v)).1
    linarith
  obtain ⟨w', hw', hr'⟩ := hr.scaleG hf0 S
  have hcapF : ∀ v, capacityTo (Theory.scaleG f S g).arcs S v = capacityToF fl ao g.arcs S v := by
    intro v
    rw [show (Theory.scaleG f S g).arcs = scale (fun e => factor f S e.src e.dst) g.arcs from rfl, capacityTo_scale, hfc]
  -- the contracted graph
  have heq : Model.contract ε (Theory.scaleG f S g) S i = contractF fl ao ε g S i := by
    unfold Model.contract contractF
    congr 1
    congr 1
    · show (scale _ g.arcs).filter _ = _
      unfold scale
      rw [List.filter_map]
      rw [show (g.arcs.filter ((fun a => decide (¬ (a.src = i ∨ a.dst = i) ∧ ¬ (a.src ∈ S ∧ a.src ≠ i) ∧
          ¬ (a.dst ∈ S ∧ a.dst ≠ i))) ∘ fun e : Arc => (⟨e.src, e.dst, factor f S e.src e.dst * e.cap⟩ : Arc))) =
        g.arcs.filter fun a => decide (¬ (a.src = i ∨ a.dst = i) ∧ ¬ (a.src ∈ S ∧ a.src ≠ i) ∧
          ¬ (a.dst ∈ S ∧ a.dst ≠ i)) from rfl]
      conv_rhs => rw [← List.map_id (g.arcs.filter _)]
      apply List.map_congr_left
      intro e he
      rw [List.mem_filter, decide_eq_true_eq] at he
      obtain ⟨_, h1, h2, h3⟩ := he
      push Not at h1 h2 h3
      have a1 : e.src ∉ S := fun h => h1.1 (h2 h)
      have a2 : e.dst ∉ S := fun h => h1.2 (h3 h)
      simp [factor, a1, a2]
    · show (g.nodes.insertionSort _).filterMap _ = _
      congr 1
      funext v
      unfold contractArc contractArcF
      rw [hcapF]
  have hlowF : ∀ v, capacityToF fl ao g.arcs S v = 0 ∨ ε ≤ capacityToF fl ao g.arcs S v := by
    intro v
    unfold capacityToF
    refine flSum_low hfl hfε hε.le _ 0 (Or.inl rfl) fun x hx => ?_
    obtain ⟨a, ha, rfl⟩ := List.mem_map.1 hx
    exact h.low a ((hao _).mem_iff.1 (List.mem_filter.1 ha).1)
  have hres := hr'.contract_of (ε := ε) (scale_within (scale_within hW)) hw' (S := S) (fun b _ _ hsmall => by
    rw [hcapF] at hsmall ⊢
    rcases hlowF b with h1 | h1
    · exact h1
    · exact absurd (lt_of_le_of_lt (h1.trans (le_abs_self _)) hsmall) (lt_irrefl _)) hi hin hmin
  rw [heq] at hres
  refine ⟨⟨fun e => factor f S (φ e.src) (φ e.dst) * s e, w', fun e => ?_, hw', ?_⟩, fun e he => ?_⟩
  · -- the factors
    have hlt : (contractF fl ao ε g S i).nodes.length + 1 ≤ g.nodes.length := by
      obtain ⟨j, hjS, hjn, hji⟩ := hother
      show (g.nodes.filter _).length < g.nodes.length
      rw [List.length_filter_lt_length_iff_exists]
      exact ⟨j, hjn, by simp [hjS, hji]⟩
    have hlt' : ((contractF fl ao ε g S i).nodes.length : ℚ) + 1 ≤ g.nodes.length := by exact_mod_cast hlt
    have hfac : |factor f S (φ e.src) (φ e.dst) - 1| ≤ 2 * n * u := by
      unfold factor
      split_ifs
      · exact hf1 _
      · exact hf1 _
      · rw [sub_self, abs_zero]; positivity
    have h1 := abs_le.1 hfac
    have h2 := hs e
    have hθ : κ * ((n : ℚ) - g.nodes.length) ≤ 1 := by
      have : (0 : ℚ) ≤ g.nodes.length := Nat.cast_nonneg _
      nlinarith
    have h3 : |s e| ≤ 2 := by
      have := abs_le.1 (h2.trans hθ)
      rw [abs_le]; constructor <;> linarith
    have h4 : |factor f S (φ e.src) (φ e.dst) * s e - 1| ≤ 2 * n * u * 2 + |s e - 1| := by
      rw [show factor f S (φ e.src) (φ e.dst) * s e - 1 = (factor f S (φ e.src) (φ e.dst) - 1) * s e + (s e - 1) by ring]
      refine (abs_add_le _ _).trans ?_
      rw [abs_mul]
      have := mul_le_mul hfac h3 (abs_nonneg _) (by positivity)
      linarith
    have h5 : κ * 1 ≤ κ * ((g.nodes.length : ℚ) - (contractF fl ao ε g S i).nodes.length) :=
      mul_le_mul_of_nonneg_left (by linarith) hκ0
    linarith
  · have : scale (fun e => factor f S (φ e.src) (φ e.dst) * s e) E =
        scale (fun e => factor f S (φ e.src) (φ e.dst)) (scale s E) := by
      unfold scale
      rw [List.map_map]
      apply List.map_congr_left
      intro e _
      simp [mul_assoc]
    rw [this]
    exact hres
  · rcases List.mem_append.1 he with he | he
    · exact h.low e (List.mem_filter.1 he).1
    · obtain ⟨v, _, hv⟩ := List.mem_filterMap.1 he
      unfold contractArcF at hv
      dsimp only at hv
      split_ifs at hv with h1 h2
      · rw [not_or, not_lt] at h1
        obtain rfl := Option.some.inj hv
        exact h1.2
      · rw [not_or, not_lt] at h1
        obtain rfl := Option.some.inj hv
        exact h1.2

end PSP.Theory
