import Verif.Theory.RoundedDT
import Verif.Theory.SortedApprox

/-!
# `DT` with rounded arithmetic and arbitrary weights
-/

namespace PSP.Theory

open PSP.Spec PSP.Model

/-- What is fixed during a run. -/
structure DSetup (S : FlowSolver) (fl : ℚ → ℚ) (ao : List Arc → List Arc) (ord : Partition → List CSet) (g : Digraph)
    (n : ℕ) (u M δ W e ε : ℚ) : Prop where
  small : Small S fl g.arcs n u M δ W e
  good : GoodDigraph g n
  len : g.arcs.length ≤ n * n
  two : 2 ≤ n
  ord : Enumerates ord
  perm : ∀ l, (ao l).Perm l
  pos : 0 < ε
  le : ε ≤ W
  fine : 220 * (n * n * n * u * W) ≤ 1
  below : 9 * (n * n * δ) + 220 * (n * n * n * u * W) ≤ ε

namespace DSetup

variable {S : FlowSolver} {fl : ℚ → ℚ} {ao : List Arc → List Arc} {ord : Partition → List CSet} {g : Digraph} {n : ℕ}
  {u M δ W e ε : ℚ}

/-- Consequences of the bounds: `z = n³uW`, `w = n²uW`. -/
theorem nums (h : DSetup S fl ao ord g n u M δ W e ε) :
    (2 : ℚ) ≤ n ∧ 0 ≤ u ∧ 1 ≤ W ∧ 0 ≤ δ ∧ 0 ≤ (u * W) ∧ 2 * (n * n * u * W) ≤ (n * n * n * u * W : ℚ) ∧
      2 * (n * u * W) ≤ (n * n * u * W : ℚ) ∧ 2 * (u * W) ≤ (n * u * W : ℚ) ∧ 2 * (n * δ) ≤ (n * n * δ : ℚ) ∧
      0 ≤ (n * δ : ℚ) ∧ 220 * (n * n * n * u * W) ≤ 1 ∧ n * e = n * δ + 20 * (n * n * u * W) := by
  have h2 : (2 : ℚ) ≤ n := by exact_mod_cast h.two
  have hu := h.small.rounds.nonneg
  have hW := h.small.one
  have hδ := h.small.err
  have h3 : 0 ≤ u * W := by positivity
  have h4 : 0 ≤ n * n * δ := by positivity
  have h5 := h.below
  have h6 := h.fine
  refine ⟨h2, hu, hW, hδ, h3, ?_, ?_, ?_, ?_, by positivity, by linarith, by rw [h.small.e_eq]; ring⟩
  · have : 0 ≤ n * n * u * W := by positivity
    nlinarith
  · have : 0 ≤ n * u * W := by positivity
    nlinarith
  · nlinarith
  · have : 0 ≤ n * δ := by positivity
    nlinarith

theorem cut_err (h : DSetup S fl ao ord g n u M δ W e ε) (X : CSet) :
    |cutValueF fl ao g.arcs X - getCutValue g.arcs X| ≤ 2 * (n * n * u) * (getCutValue g.arcs X + u) := by
  obtain ⟨n1, hu, hW, hδ, huW, z1, z2, z3, d1, d2, hz, hne⟩ := h.nums
  have hE := h.good.good.nonneg
  have hsum : (((ao g.arcs).filter fun a => a.src ∉ X ∧ a.dst ∈ X).map (·.cap)).sum = getCutValue g.arcs X := by
    rw [sum_filter_map, ((h.perm g.arcs).map _).sum_eq]
    unfold getCutValue
    simp
  have habs : ((((ao g.arcs).filter fun a => a.src ∉ X ∧ a.dst ∈ X).map (·.cap)).map abs) =
      ((ao g.arcs).filter fun a => a.src ∉ X ∧ a.dst ∈ X).map (·.cap) := by
    rw [List.map_map]
    apply List.map_congr_left
    intro a ha
    exact abs_of_nonneg (hE a ((h.perm g.arcs).mem_iff.1 (List.mem_filter.1 ha).1))
  have hl : (((ao g.arcs).filter fun a => a.src ∉ X ∧ a.dst ∈ X).map (·.cap)).length ≤ n * n := by
    rw [List.length_map]
    exact ((List.length_filter_le _ _).trans (h.perm g.arcs).length_eq.le).trans h.len
  have hu2 : u ≤ u * W := by nlinarith
  have hsmall : 2 * ((n * n : ℕ) : ℚ) * u ≤ 1 := by
    push_cast
    have : n * n * u ≤ n * n * u * W := by
      have : 0 ≤ n * n * u := by positivity
      nlinarith
    have : 0 ≤ n * n * u := by positivity
    linarith
  have hcut := cut_le_total hE X
  have hT := h.small.total
  have hcu : u * (getCutValue g.arcs X + u) ≤ u * (2 * W) := mul_le_mul_of_nonneg_left (by linarith) hu
  have h1 := h.small.rounds.flSum_err' hsmall hl (s := 0) (B := getCutValue g.arcs X + u) (by
    rw [habs, hsum, abs_zero, zero_add]
    linarith) (by linarith [hcut.1]) (by have := h.small.rounds.one_le; linarith)
  rw [hsum, zero_add] at h1
  push_cast at h1
  unfold cutValueF
  linarith

theorem value_err (h : DSetup S fl ao ord g n u M δ W e ε) {P : Partition} (hP : IsPartition (Finset.range n) P) :
    |partitionValueF fl ao ord g.arcs P - crossWeight g.arcs P| ≤ 4 * (n * n * u * W) := by
  obtain ⟨n1, hu, hW, hδ, huW, z1, z2, z3, d1, d2, hz, hne⟩ := h.nums
  have hE := h.good.good.nonneg
  have hsum : ((ord P).map (getCutValue g.arcs)).sum = crossWeight g.arcs P := by
    rw [← partitionValue_eq_crossWeight (fun e he => (h.good.good.within e he).2) hP]
    have := (List.sum_toFinset (getCutValue g.arcs) (h.ord P).1).symm
    rw [(h.ord P).2] at this
    exact this
  have hc := crossWeight_le_total hE P
  have hcW := hc.2.trans h.small.total
  have hn2u : 0 ≤ n * n * u := by positivity
  have hM1 := h.small.rounds.one_le
  have hu2 : u ≤ u * W := by nlinarith
  have hn2u1 : 220 * (n * n * u) ≤ 1 := by
    have : n * n * u ≤ n * n * u * W := by nlinarith
    linarith
  have hnu' : 220 * (n * u) ≤ 1 := by
    have : n * u ≤ n * n * u := by nlinarith
    linarith
  -- the summands
  have key : ∀ l : List CSet, |(l.map (cutValueF fl ao g.arcs)).sum - (l.map (getCutValue g.arcs)).sum| ≤
      2 * (n * n * u) * ((l.map (getCutValue g.arcs)).sum + l.length * u) ∧
      ((l.map (cutValueF fl ao g.arcs)).map abs).sum ≤
        (l.map (getCutValue g.arcs)).sum + 2 * (n * n * u) * ((l.map (getCutValue g.arcs)).sum + l.length * u) := by
    intro l
    induction l with
    | nil => simp
    | cons X l ih =>
      have h1 := abs_le.1 (h.cut_err X)
      have h2 := abs_le.1 ih.1
      have h3 := (cut_le_total hE X).1
      have h5 : |cutValueF fl ao g.arcs X| ≤ getCutValue g.arcs X + 2 * (n * n * u) * (getCutValue g.arcs X + u) := by
        rw [abs_le]; constructor <;> linarith
      simp only [List.map_cons, List.sum_cons, List.length_cons]
      push_cast
      refine ⟨?_, by linarith [ih.2]⟩
      rw [abs_le]
      constructor <;> linarith
  obtain ⟨k1, k2⟩ := key (ord P)
  rw [hsum] at k1 k2
  have hlen : ((ord P).map (cutValueF fl ao g.arcs)).length ≤ n := by
    rw [List.length_map, ← List.toFinset_card_of_nodup (h.ord P).1, (h.ord P).2]
    simpa using hP.card_le
  have hnu : 2 * (n : ℚ) * u ≤ 1 := by
    have : n * u ≤ n * u * W := by
      have : 0 ≤ n * u := by positivity
      nlinarith
    have : 0 ≤ n * u * W := by positivity
    linarith
  have hlen' : ((ord P).length : ℚ) * u ≤ n * u := by
    rw [List.length_map] at hlen
    exact mul_le_mul_of_nonneg_right (by exact_mod_cast hlen) hu
  have hlu : 2 * (n * n * u) * (crossWeight g.arcs P + (ord P).length * u) ≤ 2 * (n * n * u) * (W + 1 / 220) :=
    mul_le_mul_of_nonneg_left (by linarith) (by linarith)
  have hnnW : n * n * u ≤ n * n * u * W := by nlinarith
  have h1 := h.small.rounds.flSum_err' hnu hlen (s := 0) (B := 3 / 2 * W) (by rw [abs_zero, zero_add]; linarith)
    (by linarith) (by linarith)
  rw [zero_add] at h1
  unfold partitionValueF
  have h1 := abs_le.1 h1
  have k1 := abs_le.1 k1
  rw [abs_le]
  constructor <;> linarith

theorem gamma_err (h : DSetup S fl ao ord g n u M δ W e ε) {Q P : Partition} (hQ : IsPartition (Finset.range n) Q)
    (hP : IsPartition (Finset.range n) P) (hc : Q.card < P.card) :
    |gammaF fl ao ord g Q P - gammaApos g Q P| ≤ 10 * (n * n * u * W) := by
  obtain ⟨n1, hu, hW, hδ, huW, z1, z2, z3, d1, d2, hz, hne⟩ := h.nums
  have hE := h.good.good.nonneg
  have hfl := h.small.rounds
  have hM1 := hfl.one_le
  have hu2 : u ≤ u * W := by nlinarith
  have a1 := abs_le.1 (h.value_err hQ)
  have a2 := abs_le.1 (h.value_err hP)
  have b1 := crossWeight_le_total hE Q
  have b2 := crossWeight_le_total hE P
  have hT := h.small.total
  have hgv : ∀ R, IsPartition (Finset.range n) R → getPartitionValue g.arcs R = crossWeight g.arcs R :=
    fun R hR => partitionValue_eq_crossWeight (fun e he => (h.good.good.within e he).2) hR
  have hd : (1 : ℚ) ≤ (P.card : ℚ) - Q.card := by
    have : ((Q.card + 1 : ℕ) : ℚ) ≤ P.card := by exact_mod_cast hc
    push_cast at this
    linarith
  unfold gammaF gammaApos
  rw [hgv Q hQ, hgv P hP]
  set vQ := partitionValueF fl ao ord g.arcs Q
  set vP := partitionValueF fl ao ord g.arcs P
  set d := (P.card : ℚ) - Q.card
  have e1 : |vP - vQ| ≤ 2 * W := by rw [abs_le]; constructor <;> linarith
  have e2 := abs_le.1 (hfl.err e1 (by linarith) (by linarith))
  have e3 : |fl (vP - vQ) - (crossWeight g.arcs P - crossWeight g.arcs Q)| ≤ 8 * (n * n * u * W) + 2 * (u * W) := by
    rw [abs_le]; constructor <;> linarith
  have hdiv : ∀ x : ℚ, |x / d| ≤ |x| := fun x => by
    rw [abs_div, abs_of_pos (by linarith : 0 < d)]
    exact div_le_self (abs_nonneg x) hd
  have e4 : |fl (vP - vQ) / d - (crossWeight g.arcs P - crossWeight g.arcs Q) / d| ≤
      8 * (n * n * u * W) + 2 * (u * W) := by
    rw [← sub_div]; exact (hdiv _).trans e3
  have e5 : |fl (vP - vQ) / d| ≤ 3 * W := by
    refine (hdiv _).trans ?_
    have := abs_le.1 e3
    rw [abs_le]; constructor <;> linarith
  have e6 := abs_le.1 (hfl.err e5 (by linarith) (by linarith))
  have e4 := abs_le.1 e4
  rw [abs_le]
  constructor <;> linarith

theorem h_err (h : DSetup S fl ao ord g n u M δ W e ε) {Q P : Partition} (hQ : IsPartition (Finset.range n) Q)
    (hP : IsPartition (Finset.range n) P) (hc : Q.card < P.card) :
    |fl (hF fl ao ord g Q P - ε) - (hApos g Q P - ε)| ≤ 12 * (n * n * n * u * W) := by
  obtain ⟨n1, hu, hW, hδ, huW, z1, z2, z3, d1, d2, hz, hne⟩ := h.nums
  have hE := h.good.good.nonneg
  have hfl := h.small.rounds
  have hM1 := hfl.one_le
  have hu2 : u ≤ u * W := by nlinarith
  have a1 := h.value_err hQ
  have a2 := h.value_err hP
  have b1 := crossWeight_le_total hE Q
  have b2 := crossWeight_le_total hE P
  have hT := h.small.total
  have hgv : ∀ R, IsPartition (Finset.range n) R → getPartitionValue g.arcs R = crossWeight g.arcs R :=
    fun R hR => partitionValue_eq_crossWeight (fun e he => (h.good.good.within e he).2) hR
  have hd : (1 : ℚ) ≤ (P.card : ℚ) - Q.card := by
    have : ((Q.card + 1 : ℕ) : ℚ) ≤ P.card := by exact_mod_cast hc
    push_cast at this
    linarith
  have hPn : (P.card : ℚ) ≤ n := by exact_mod_cast (by simpa using hP.card_le : P.card ≤ n)
  have hQn : (Q.card : ℚ) ≤ n := by exact_mod_cast (by simpa using hQ.card_le : Q.card ≤ n)
  have hP0 : (0 : ℚ) ≤ P.card := Nat.cast_nonneg _
  have hQ0 : (0 : ℚ) ≤ Q.card := Nat.cast_nonneg _
  have hw0 : 0 ≤ n * n * u * W := by linarith
  have hnW : 2 ≤ n * W := by nlinarith
  unfold hF hApos
  rw [hgv Q hQ, hgv P hP]
  set vQ := partitionValueF fl ao ord g.arcs Q
  set vP := partitionValueF fl ao ord g.arcs P
  set d := (P.card : ℚ) - Q.card
  -- one product
  have prod : ∀ (k v f : ℚ), 0 ≤ k → k ≤ n → |v - f| ≤ 4 * (n * n * u * W) → 0 ≤ f → f ≤ W →
      |fl (k * v) - k * f| ≤ 4 * (n * n * n * u * W) + 2 * (n * u * W) ∧ 0 ≤ k * f ∧ k * f ≤ n * W := by
    intro k v f hk0 hkn hv hf0 hfW
    have c1 : |k * v - k * f| ≤ n * (4 * (n * n * u * W)) := by
      rw [← mul_sub, abs_mul, abs_of_nonneg hk0]
      exact mul_le_mul hkn hv (abs_nonneg _) (by linarith)
    have c2 : 0 ≤ k * f := mul_nonneg hk0 hf0
    have c3 : k * f ≤ n * W := mul_le_mul hkn hfW hf0 (by linarith)
    have c4 : |k * v| ≤ 2 * (n * W) := by
      have c1 := abs_le.1 c1
      rw [abs_le]; constructor <;> linarith
    have c5 := abs_le.1 (hfl.err c4 (by linarith) (by linarith))
    refine ⟨?_, c2, c3⟩
    have c1 := abs_le.1 c1
    rw [abs_le]; constructor <;> linarith
  obtain ⟨p1, p2, p3⟩ := prod P.card vQ (crossWeight g.arcs Q) hP0 hPn a1 b1.1 (b1.2.trans hT)
  obtain ⟨q1, q2, q3⟩ := prod Q.card vP (crossWeight g.arcs P) hQ0 hQn a2 b2.1 (b2.2.trans hT)
  have p1 := abs_le.1 p1
  have q1 := abs_le.1 q1
  set x := fl (P.card * vQ)
  set y := fl (Q.card * vP)
  have e1 : |x - y| ≤ 3 * (n * W) := by rw [abs_le]; constructor <;> linarith
  have e2 := abs_le.1 (hfl.err e1 (by linarith) (by linarith))
  have hdiv : ∀ x : ℚ, |x / d| ≤ |x| := fun x => by
    rw [abs_div, abs_of_pos (by linarith : 0 < d)]
    exact div_le_self (abs_nonneg x) hd
  have e3 : |fl (x - y) - (P.card * crossWeight g.arcs Q - Q.card * crossWeight g.arcs P)| ≤
      8 * (n * n * n * u * W) + 7 * (n * u * W) := by rw [abs_le]; constructor <;> linarith
  have e4 : |fl (x - y) / d - (P.card * crossWeight g.arcs Q - Q.card * crossWeight g.arcs P) / d| ≤
      8 * (n * n * n * u * W) + 7 * (n * u * W) := by
    rw [← sub_div]; exact (hdiv _).trans e3
  have e5 : |fl (x - y) / d| ≤ 3 * (n * W) := by
    refine (hdiv _).trans ?_
    have := abs_le.1 e3
    rw [abs_le]; constructor <;> linarith
  have e6 := abs_le.1 (hfl.err e5 (by linarith) (by linarith))
  set t := fl (fl (x - y) / d)
  have e5 := abs_le.1 e5
  have hε := h.pos
  have hε1 := h.le
  have hWn : 2 * W ≤ n * W := mul_le_mul_of_nonneg_right n1 (by linarith)
  have e7 : |t - ε| ≤ 5 * (n * W) := by rw [abs_le]; constructor <;> linarith
  have e8 := abs_le.1 (hfl.err e7 (by linarith) (by linarith))
  have e4 := abs_le.1 e4
  rw [abs_le]
  constructor <;> linarith

/-- One truncation: the next partition is nearly optimal; either both ends are, or it is better than both. -/
theorem step (h : DSetup S fl ao ord g n u M δ W e ε) {Q P : Partition} (hQ : IsPartition (Finset.range n) Q)
    (hP : IsPartition (Finset.range n) P) (hc : Q.card < P.card) {lam : ℚ} (hlam : lam = gammaF fl ao ord g Q P)
    (h0 : 0 ≤ lam) (h2 : lam ≤ 2 * W) :
    ∃ m T, dilworthDTF fl S g lam = .ok (m, T) ∧
      IsNearOptimal g.arcs (Finset.range n) (3 * (n * δ) + 60 * (n * n * u * W)) lam T ∧
      (m > fl (hF fl ao ord g Q P - ε) → ∀ R, IsPartition (Finset.range n) R →
        cost g.arcs lam Q ≤ cost g.arcs lam R + (ε + n * δ + 39 * (n * n * n * u * W)) ∧
        cost g.arcs lam P ≤ cost g.arcs lam R + (ε + n * δ + 39 * (n * n * n * u * W))) ∧
      (¬ m > fl (hF fl ao ord g Q P - ε) →
        cost g.arcs lam T + (ε - 2 * (n * δ) - 49 * (n * n * n * u * W)) ≤ cost g.arcs lam Q ∧
        cost g.arcs lam T + (ε - 2 * (n * δ) - 49 * (n * n * n * u * W)) ≤ cost g.arcs lam P) := by
  obtain ⟨n1, hu, hW, hδ, huW, z1, z2, z3, d1, d2, hz, hne⟩ := h.nums
  obtain ⟨hγ, hh⟩ := gammaApos_eq h.good hQ hP hc
  have hfin : g.nodes.toFinset = Finset.range n := by
    rw [h.good.nodes]; ext v; simp
  obtain ⟨t1, t2, t3, t4⟩ := dilworthIF_spec h.small (ns := g.nodes) (by
      rw [h.good.nodes]; exact List.pairwise_lt_range) (by rw [h.good.nodes, List.length_range])
      (by rw [hfin]; exact h.good.good) h0 h2
  rw [hfin] at t1 t2 t3
  have herr := h.gamma_err hQ hP hc
  rw [← hlam] at herr
  have hherr := abs_le.1 (h.h_err hQ hP hc)
  rw [hh] at hherr
  set γ := gammaApos g Q P
  have hshift : ∀ R, IsPartition (Finset.range n) R →
      |cost g.arcs lam R - cost g.arcs γ R| ≤ 10 * (n * n * n * u * W) := by
    intro R hR
    have e1 : cost g.arcs lam R - cost g.arcs γ R = -((lam - γ) * R.card) := by unfold cost; ring
    have hRn : (R.card : ℚ) ≤ n := by
      have : R.card ≤ n := by simpa using hR.card_le
      exact_mod_cast this
    rw [e1, abs_neg, abs_mul, abs_of_nonneg (Nat.cast_nonneg R.card : (0 : ℚ) ≤ R.card)]
    have := mul_le_mul herr hRn (Nat.cast_nonneg _) (by linarith)
    linarith
  have sQ := abs_le.1 (hshift Q hQ)
  have sP := abs_le.1 (hshift P hP)
  set r := dilworthIF fl S g.arcs lam g.nodes
  refine ⟨r.1, r.2, dilworthDTF_eq fl S g lam h.good.nodes h.good.good.lowHigh, ⟨t1, fun R hR => ?_⟩, ?_, ?_⟩
  · have := t2 R hR
    linarith
  · intro hm R hR
    have := t3 R hR
    constructor <;> linarith
  · intro hm
    have hm := not_lt.1 hm
    constructor <;> linarith

set_option maxHeartbeats 1000000 in
/-- `DT::split` with rounded arithmetic. -/
theorem split (h : DSetup S fl ao ord g n u M δ W e ε) {η σ C : ℚ} (hη : η = 3 * (n * δ) + 60 * (n * n * u * W))
    (hσ : σ = η + 10 * (n * n * u * W)) (hC : C = ε + 6 * (n * δ) + 60 * (n * n * n * u * W)) (k : ℕ) :
    ∀ (a b : ℚ) (Q P : Partition), IsNearOptimal g.arcs (Finset.range n) η a Q →
      IsNearOptimal g.arcs (Finset.range n) η b P → 0 ≤ a → b ≤ W → η + σ < b - a →
      (∀ R, IsPartition (Finset.range n) R → Q.card < R.card → 0 ≤ gammaF fl ao ord g Q R) → Q.card < P.card →
      P.card ≤ Q.card + k →
      ∃ r s c, dtSplitF fl ao ord S ε g k Q P = .ok r ∧
        NChain g.arcs (Finset.range n) C σ a Q (s ++ [(c, b, P)]) ∧
        r.1 = s.map (·.1) ++ [c] ∧ r.2.Perm (s.map (·.2.2)) := by
  obtain ⟨n1, hu, hW, hδ, huW, z1, z2, z3, d1, d2, hz, hne⟩ := h.nums
  have hε := h.pos
  have hε1 := h.le
  have hbelow := h.below
  have hη0 : 0 ≤ η := by rw [hη]; linarith
  have hησ : η ≤ σ := by rw [hσ]; linarith
  have hσ0 : 0 ≤ σ := hη0.trans hησ
  have hnη : n * η = 3 * (n * n * δ) + 60 * (n * n * n * u * W) := by rw [hη]; ring
  have hnσ : n * σ = 3 * (n * n * δ) + 70 * (n * n * n * u * W) := by rw [hσ, hη]; ring
  have hη1 : 2 * η ≤ n * η := mul_le_mul_of_nonneg_right n1 hη0
  have hσ1 : 2 * σ ≤ n * σ := mul_le_mul_of_nonneg_right n1 (hη0.trans hησ)
  have hE := h.good.good.nonneg
  -- slopes
  have slope : ∀ (a : ℚ) (Q R : Partition), IsNearOptimal g.arcs (Finset.range n) η a Q → IsPartition (Finset.range n) R →
      Q.card < R.card → a - σ ≤ gammaF fl ao ord g Q R := by
    intro a Q R hQ hR hc
    have e1 := abs_le.1 (h.gamma_err hQ.1 hR hc)
    have e2 := (gammaApos_eq h.good hQ.1 hR hc).1
    have e3 := hQ.2 R hR
    have hd : (1 : ℚ) ≤ (R.card : ℚ) - Q.card := by
      have : ((Q.card + 1 : ℕ) : ℚ) ≤ R.card := by exact_mod_cast hc
      push_cast at this
      linarith
    have e4 := cost_shift (E := g.arcs) (l := gammaApos g Q R) (m := a) Q R
    have : a - η ≤ gammaApos g Q R := by
      by_contra hlt
      push Not at hlt
      have : η * 1 ≤ η * ((R.card : ℚ) - Q.card) := mul_le_mul_of_nonneg_left hd hη0
      nlinarith
    linarith
  have slope' : ∀ (b : ℚ) (R P : Partition), IsNearOptimal g.arcs (Finset.range n) η b P → IsPartition (Finset.range n) R →
      R.card < P.card → gammaF fl ao ord g R P ≤ b + σ := by
    intro b R P hP hR hc
    have e1 := abs_le.1 (h.gamma_err hR hP.1 hc)
    have e2 := (gammaApos_eq h.good hR hP.1 hc).1
    have e3 := hP.2 R hR
    have hd : (1 : ℚ) ≤ (P.card : ℚ) - R.card := by
      have : ((R.card + 1 : ℕ) : ℚ) ≤ P.card := by exact_mod_cast hc
      push_cast at this
      linarith
    have e4 := cost_shift (E := g.arcs) (l := gammaApos g R P) (m := b) P R
    have : gammaApos g R P ≤ b + η := by
      by_contra hlt
      push Not at hlt
      have : η * 1 ≤ η * ((P.card : ℚ) - R.card) := mul_le_mul_of_nonneg_left hd hη0
      nlinarith
    linarith
  induction k with
  | zero => intro a b Q P _ _ _ _ _ _ h1 h2; omega
  | succ k ih =>
    intro a b Q P hQ hP h0a hbW hab hlow hc hk
    have hg1 := slope a Q P hQ hP.1 hc
    have hg2 := slope' b Q P hP hQ.1 hc
    obtain ⟨m, T, hrun, hT, hbase, hmore⟩ := h.step hQ.1 hP.1 hc rfl (hlow P hP.1 hc) (by linarith)
    rw [← hη] at hT
    unfold dtSplitF
    rw [if_neg (by omega), hrun]
    simp only [Outcome.ok_bind, Outcome.pure_eq]
    set lam := gammaF fl ao ord g Q P with hlam
    have hPQ : P ≠ Q := fun h => by rw [h] at hc; exact lt_irrefl _ hc
    have hfin : Finer Q P := ⟨near_refines hE hQ hP (by linarith), hPQ⟩
    have hTn : (T.card : ℚ) ≤ n := by exact_mod_cast (by simpa using hT.1.card_le : T.card ≤ n)
    have hQn : (Q.card : ℚ) ≤ n := by exact_mod_cast (by simpa using hQ.1.card_le : Q.card ≤ n)
    have hT0 : (0 : ℚ) ≤ T.card := Nat.cast_nonneg _
    have hQ0 : (0 : ℚ) ≤ Q.card := Nat.cast_nonneg _
    have hPn : (P.card : ℚ) ≤ n := by exact_mod_cast (by simpa using hP.1.card_le : P.card ≤ n)
    have hP0 : (0 : ℚ) ≤ P.card := Nat.cast_nonneg _
    have sQ := cost_shift (E := g.arcs) (l := lam) (m := a) T Q
    have sP := cost_shift (E := g.arcs) (l := lam) (m := b) T P
    have oQ := hQ.2 T hT.1
    have oP := hP.2 T hT.1
    have base : (∀ R, IsPartition (Finset.range n) R → cost g.arcs lam Q ≤ cost g.arcs lam R + C) →
        (∀ R, IsPartition (Finset.range n) R → cost g.arcs lam P ≤ cost g.arcs lam R + C) →
        ∃ r s c, (Outcome.ok ([lam], ([] : List Partition))) = .ok r ∧
        NChain g.arcs (Finset.range n) C σ a Q (s ++ [(c, b, P)]) ∧
        r.1 = s.map (·.1) ++ [c] ∧ r.2.Perm (s.map (·.2.2)) := fun h1 h2 =>
      ⟨_, [], lam, rfl, ⟨by linarith, hg1, hg2, ⟨hQ.1, h1⟩, ⟨hP.1, h2⟩, hfin, trivial⟩, rfl, List.Perm.refl _⟩
    -- `Q` and `P` have nearly the same cost at the computed parameter
    have hγ := (gammaApos_eq h.good hQ.1 hP.1 hc).1
    have herr := h.gamma_err hQ.1 hP.1 hc
    rw [← hlam] at herr
    have hcl : |cost g.arcs lam P - cost g.arcs lam Q| ≤ 10 * (n * n * n * u * W) := by
      have e := cost_shift (E := g.arcs) (l := gammaApos g Q P) (m := lam) P Q
      rw [e, hγ, sub_self, zero_sub, abs_neg, abs_mul]
      have : |(P.card : ℚ) - Q.card| ≤ n := by rw [abs_le]; constructor <;> linarith
      have := mul_le_mul herr this (abs_nonneg _) (by linarith)
      linarith
    have hcl := abs_le.1 hcl
    by_cases hcond : m > fl (hF fl ao ord g Q P - ε) ∨ Q.card = T.card ∨ P.card = T.card
    · rw [if_pos hcond]
      rcases hcond with hm | hm | hm
      · refine base (fun R hR => ?_) (fun R hR => ?_)
        · have := (hbase hm R hR).1
          linarith
        · have := (hbase hm R hR).2
          linarith
      · rw [hm, sub_self, mul_zero] at sQ
        refine base (fun R hR => ?_) (fun R hR => ?_)
        · have := hT.2 R hR
          linarith
        · have := hT.2 R hR
          linarith
      · rw [hm, sub_self, mul_zero] at sP
        refine base (fun R hR => ?_) (fun R hR => ?_)
        · have := hT.2 R hR
          linarith
        · have := hT.2 R hR
          linarith
    · rw [if_neg hcond]
      push Not at hcond
      obtain ⟨hm, hne1, hne2⟩ := hcond
      obtain ⟨m1, m2⟩ := hmore (not_lt.2 hm)
      -- more blocks than `Q`
      have hc1 : Q.card < T.card := by
        rcases lt_trichotomy Q.card T.card with h' | h' | h'
        · exact h'
        · exact absurd h' hne1
        · exfalso
          have hd : (T.card : ℚ) ≤ Q.card := by exact_mod_cast h'.le
          have : (a - lam) * ((Q.card : ℚ) - T.card) ≤ σ * n := by
            rcases le_total a lam with h1 | h1
            · have := mul_nonneg (by linarith : (0 : ℚ) ≤ lam - a) (by linarith : (0 : ℚ) ≤ (Q.card : ℚ) - T.card)
              have : 0 ≤ σ * n := by positivity
              linarith
            · exact mul_le_mul (by linarith) (by linarith) (by linarith) (by linarith)
          linarith
      have hc2 : T.card < P.card := by
        rcases lt_trichotomy T.card P.card with h' | h' | h'
        · exact h'
        · exact absurd h'.symm hne2
        · exfalso
          have hd : (P.card : ℚ) ≤ T.card := by exact_mod_cast h'.le
          have : (lam - b) * ((T.card : ℚ) - P.card) ≤ σ * n := by
            rcases le_total lam b with h1 | h1
            · have := mul_nonneg (by linarith : (0 : ℚ) ≤ b - lam) (by linarith : (0 : ℚ) ≤ (T.card : ℚ) - P.card)
              have : 0 ≤ σ * n := by positivity
              linarith
            · exact mul_le_mul (by linarith) (by linarith) (by linarith) (by linarith)
          linarith
      have q1 : (Q.card : ℚ) < T.card := by exact_mod_cast hc1
      have q2 : (T.card : ℚ) < P.card := by exact_mod_cast hc2
      -- the parameters are far apart
      have g1 : η + σ < lam - a := by
        by_contra hcon
        have : (lam - a) * ((T.card : ℚ) - Q.card) ≤ (η + σ) * n := by
          rcases le_total a lam with h1 | h1
          · exact mul_le_mul (not_lt.1 hcon) (by linarith) (by linarith) (by linarith)
          · have := mul_nonneg (by linarith : (0 : ℚ) ≤ a - lam) (by linarith : (0 : ℚ) ≤ (T.card : ℚ) - Q.card)
            have : 0 ≤ (η + σ) * n := by positivity
            linarith
        linarith
      have g2 : η + σ < b - lam := by
        by_contra hcon
        have : (b - lam) * ((P.card : ℚ) - T.card) ≤ (η + σ) * n := by
          rcases le_total lam b with h1 | h1
          · exact mul_le_mul (not_lt.1 hcon) (by linarith) (by linarith) (by linarith)
          · have := mul_nonneg (by linarith : (0 : ℚ) ≤ lam - b) (by linarith : (0 : ℚ) ≤ (P.card : ℚ) - T.card)
            have : 0 ≤ (η + σ) * n := by positivity
            linarith
        linarith
      obtain ⟨r1, s1, c1, e1, l1, v1, p1⟩ := ih a lam Q T hQ hT h0a (by linarith) g1 hlow hc1 (by omega)
      obtain ⟨r2, s2, c2, e2, l2, v2, p2⟩ := ih lam b T P hT hP (by linarith) hbW g2
        (fun R hR hcR => by have := slope lam T R hT hR hcR; linarith) hc2 (by omega)
      rw [e1, e2]
      simp only [Outcome.ok_bind]
      refine ⟨_, s1 ++ (c1, lam, T) :: s2, c2, rfl, ?_, ?_, ?_⟩
      · have := l1.append l2
        simpa using this
      · simp [v1, v2]
      · simp only [List.map_append, List.map_cons]
        exact (List.Perm.cons _ (p1.append p2)).trans List.perm_middle.symm

end DSetup

theorem flSum_ge_zero {fl : ℚ → ℚ} {u M : ℚ} (h : Rounds fl u M) (l : List ℚ) : ∀ s, 0 ≤ s → (∀ x ∈ l, 0 ≤ x) →
    0 ≤ flSum fl s l := by
  induction l with
  | nil => intro s hs _; exact hs
  | cons x l ih =>
    intro s hs hl
    exact ih (fl (s + x)) (h.fl_nonneg (add_nonneg hs (hl x (by simp)))) fun y hy => hl y (by simp [hy])

theorem cutValueF_nonneg {fl : ℚ → ℚ} {u M : ℚ} (h : Rounds fl u M) {ao : List Arc → List Arc}
    (hao : ∀ l, (ao l).Perm l) {E : List Arc} (hE : NonnegE E) (X : CSet) : 0 ≤ cutValueF fl ao E X := by
  refine flSum_ge_zero h _ 0 le_rfl fun x hx => ?_
  obtain ⟨a, ha, rfl⟩ := List.mem_map.1 hx
  exact hE a ((hao E).mem_iff.1 (List.mem_filter.1 ha).1)

/-- The first computed value is not negative. -/
theorem DSetup.start {S : FlowSolver} {fl : ℚ → ℚ} {ao : List Arc → List Arc} {ord : Partition → List CSet}
    {g : Digraph} {n : ℕ} {u M δ W e ε : ℚ} (h : DSetup S fl ao ord g n u M δ W e ε) {R : Partition}
    (hc : ({Finset.range n} : Partition).card < R.card) : 0 ≤ gammaF fl ao ord g {Finset.range n} R := by
  have hfl := h.small.rounds
  have hE := h.good.good.nonneg
  have h1 : partitionValueF fl ao ord g.arcs {Finset.range n} = 0 := by
    have hcut : cutValueF fl ao g.arcs (Finset.range n) = 0 := by
      unfold cutValueF
      rw [List.filter_eq_nil_iff.2]
      · rfl
      · intro a ha
        have := (h.good.good.within a ((h.perm g.arcs).mem_iff.1 ha)).1
        simp only [decide_eq_true_eq, not_and]
        intro h' _
        exact h' this
    have hall : ∀ X ∈ ord {Finset.range n}, cutValueF fl ao g.arcs X = 0 := by
      intro X hX
      have : X ∈ (ord {Finset.range n}).toFinset := List.mem_toFinset.2 hX
      rw [(h.ord _).2, Finset.mem_singleton] at this
      rw [this]; exact hcut
    unfold partitionValueF
    rw [List.map_congr_left hall]
    generalize ord {Finset.range n} = l
    induction l with
    | nil => rfl
    | cons X l ih =>
      rw [List.map_cons]
      show flSum fl (fl (0 + 0)) _ = 0
      rw [add_zero, hfl.zero]
      exact ih
  have h2 : 0 ≤ partitionValueF fl ao ord g.arcs R := by
    refine flSum_ge_zero hfl _ 0 le_rfl fun x hx => ?_
    obtain ⟨X, _, rfl⟩ := List.mem_map.1 hx
    exact cutValueF_nonneg hfl h.perm hE X
  have hd : (0 : ℚ) ≤ (R.card : ℚ) - ({Finset.range n} : Partition).card := by
    have : ((({Finset.range n} : Partition).card : ℕ) : ℚ) ≤ R.card := by exact_mod_cast hc.le
    linarith
  unfold gammaF
  rw [h1, sub_zero]
  exact hfl.fl_nonneg (div_nonneg (hfl.fl_nonneg h2) hd)

/-- The run of `DT` with rounded arithmetic, for all weights. -/
theorem dtRunF_near {S : FlowSolver} {fl : ℚ → ℚ} {ao : List Arc → List Arc} {ord : Partition → List CSet}
    {g : Digraph} {n : ℕ} {u M δ W e ε : ℚ} (h : DSetup S fl ao ord g n u M δ W e ε) :
    ∃ r, dtRunF fl ao ord S ε g = .ok r ∧
      IsApproximateSequence g.arcs (Finset.range n) (2 * ε) r.psp r.cv := by
  obtain ⟨n1, hu, hW, hδ, huW, z1, z2, z3, d1, d2, hz, hne⟩ := h.nums
  have hn := h.two
  have hε1 := h.le
  have hε0 := h.pos
  have hbelow := h.below
  have hg := h.good
  have hV : (Finset.range n).Nonempty := ⟨0, by simp; omega⟩
  have hcard : (singletons (Finset.range n)).card = n := by rw [card_singletons, Finset.card_range]
  have o1 := isOptimal_single hg.good.nonneg hg.good.within hV (lam := 0) le_rfl
  have o2 := isOptimal_singletons hg.good.nonneg (lam := W)
    ((crossWeight_le_total hg.good.nonneg (singletons (Finset.range n))).2.trans h.small.total)
  have hη0 : 0 ≤ 3 * (n * δ) + 60 * (n * n * u * W) := by linarith
  obtain ⟨r, s, c, e, l, v, p⟩ := h.split rfl rfl rfl n 0 W {Finset.range n}
    (singletons (Finset.range n)) ⟨o1.1, fun R hR => (o1.2 R hR).trans (by linarith)⟩
    ⟨o2.1, fun R hR => (o2.2 R hR).trans (by linarith)⟩ le_rfl le_rfl
    (by linarith) (fun R _ hc => h.start hc) (by rw [hcard]; simp; omega) (by rw [hcard]; simp)
  have hap := l.approx hV (by linarith) (by simp) (by simp)
  have hinc : ((({Finset.range n} : Partition) :: (s ++ [(c, W, singletons (Finset.range n))]).map (·.2.2))).Pairwise
      fun P Q => P.card < Q.card := by
    have hp := l.partition (isPartition_single hV)
    refine (finer_pairwise hp l.finer).imp_of_mem ?_
    intro P Q hP hQ hPQ
    exact hPQ.1.card_lt (hp Q hQ) (hp P hP) hPQ.2
  refine ⟨⟨{Finset.range n} :: (s ++ [(c, W, singletons (Finset.range n))]).map (·.2.2),
    ((s ++ [(c, W, singletons (Finset.range n))]).map (·.1)).insertionSort (· ≤ ·)⟩, ?_, ?_⟩
  · unfold dtRunF
    rw [hg.countNodes]
    simp only [makeFine_eq, makeDense]
    rw [e]
    simp only [Outcome.ok_bind, Outcome.pure_eq]
    congr 2
    · apply eq_of_perm_card _ _ hinc
      · refine (List.perm_insertionSort _ _).trans (List.Perm.cons _ ?_)
        rw [List.map_append]
        refine (List.Perm.cons _ p).trans ?_
        exact (List.perm_append_comm (l₁ := [singletons (Finset.range n)]))
      · have : Std.Total (α := Partition) (fun P Q => P.card ≤ Q.card) := ⟨fun a b => le_total _ _⟩
        have : IsTrans Partition (fun P Q => P.card ≤ Q.card) := ⟨fun a b c => le_trans⟩
        exact List.pairwise_insertionSort _ _
    · rw [v]
      simp
  · refine ⟨hap.length, hap.first, hap.last, hap.refine, hap.nondecreasing, fun i P lam hi h1 h2 => ?_⟩
    refine near_mono (hap.optimal i P lam hi h1 h2) ?_
    rw [Finset.card_range]
    have : 2 * (3 * (n * δ) + 60 * (n * n * u * W) + 10 * (n * n * u * W)) * (n : ℚ) =
        6 * (n * n * δ) + 140 * (n * n * n * u * W) := by ring
    linarith

end PSP.Theory
