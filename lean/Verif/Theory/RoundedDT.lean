import Verif.Theory.RoundedDilworth
import Verif.Theory.PSPISplit

/-!
# `DT` with rounded arithmetic
-/

namespace PSP.Theory

open PSP.Spec PSP.Model

/-- All weights are integers. -/
def IntegerCaps (E : List Arc) : Prop := ∀ e ∈ E, ∃ k : ℤ, e.cap = k

theorem IntegerCaps.granular {E : List Arc} (h : IntegerCaps E) : Granular 1 E := by
  intro e he
  obtain ⟨k, hk⟩ := h e he
  exact ⟨k, by rw [hk, mul_one]⟩

theorem int_sum {l : List ℚ} (h : ∀ x ∈ l, ∃ k : ℤ, x = k) : ∃ k : ℤ, l.sum = k := by
  induction l with
  | nil => exact ⟨0, by simp⟩
  | cons x l ih =>
    obtain ⟨a, ha⟩ := h x List.mem_cons_self
    obtain ⟨b, hb⟩ := ih fun y hy => h y (List.mem_cons_of_mem _ hy)
    exact ⟨a + b, by rw [List.sum_cons, ha, hb]; push_cast; ring⟩

theorem crossWeight_le_total {E : List Arc} (hE : NonnegE E) (P : Partition) :
    0 ≤ crossWeight E P ∧ crossWeight E P ≤ totalCap E := by
  unfold crossWeight totalCap
  constructor
  · apply List.sum_nonneg
    intro y hy
    obtain ⟨a, ha, rfl⟩ := List.mem_map.1 hy
    split
    · exact le_rfl
    · exact hE a ha
  · apply List.sum_le_sum
    intro a ha
    split
    · exact hE a ha
    · exact le_rfl

theorem cutValueF_eq {fl : ℚ → ℚ} {u M : ℚ} (hfl : Rounds fl u M) {ao : List Arc → List Arc}
    (hao : ∀ l, (ao l).Perm l) {E : List Arc} (hE : NonnegE E)
    (hi : IntegerCaps E) (hM : totalCap E ≤ M) (X : CSet) :
    cutValueF fl ao E X = getCutValue E X ∧ ∃ k : ℤ, getCutValue E X = k := by
  have hsum : (((ao E).filter fun a => a.src ∉ X ∧ a.dst ∈ X).map (·.cap)).sum = getCutValue E X := by
    rw [sum_filter_map, ((hao E).map _).sum_eq]
    unfold getCutValue
    simp
  have hmem : ∀ x : ℚ, x ∈ ((ao E).filter fun a => a.src ∉ X ∧ a.dst ∈ X).map (·.cap) →
      0 ≤ x ∧ ∃ k : ℤ, x = k := by
    intro x hx
    obtain ⟨a, ha, rfl⟩ := List.mem_map.1 hx
    have ha := (hao E).mem_iff.1 (List.mem_filter.1 ha).1
    exact ⟨hE a ha, hi a ha⟩
  refine ⟨?_, ?_⟩
  · unfold cutValueF
    rw [hfl.flSum_int _ 0 hmem le_rfl ⟨0, by simp⟩ (by
      rw [hsum, zero_add]; exact (cut_le_total hE X).2.trans hM), hsum, zero_add]
  · rw [← hsum]
    exact int_sum fun x hx => (hmem x hx).2

theorem partitionValueF_eq {fl : ℚ → ℚ} {u M : ℚ} (hfl : Rounds fl u M) {ord : Partition → List CSet}
    (hord : Enumerates ord) {ao : List Arc → List Arc} (hao : ∀ l, (ao l).Perm l) {E : List Arc} (hE : NonnegE E) (hi : IntegerCaps E) (hM : totalCap E ≤ M)
    {V : Finset ℕ} (hW : Within E V) {P : Partition} (hP : IsPartition V P) :
    partitionValueF fl ao ord E P = crossWeight E P := by
  have hmap : (ord P).map (cutValueF fl ao E) = (ord P).map (getCutValue E) :=
    List.map_congr_left fun X _ => (cutValueF_eq hfl hao hE hi hM X).1
  have hsum : ((ord P).map (getCutValue E)).sum = crossWeight E P := by
    rw [← partitionValue_eq_crossWeight (fun e he => (hW e he).2) hP]
    have := (List.sum_toFinset (getCutValue E) (hord P).1).symm
    rw [(hord P).2] at this
    exact this
  unfold partitionValueF
  rw [hmap, hfl.flSum_int _ 0 _ le_rfl ⟨0, by simp⟩ (by
    rw [hsum, zero_add]; exact (crossWeight_le_total hE P).2.trans hM), hsum, zero_add]
  intro x hx
  obtain ⟨X, _, rfl⟩ := List.mem_map.1 hx
  exact ⟨(cut_le_total hE X).1, (cutValueF_eq hfl hao hE hi hM X).2⟩

/-- At the crossing point of two partitions costs differ by multiples of `1 / (|P| - |Q|)`. -/
theorem cost_gap {E : List Arc} (hg : Granular 1 E) {n : ℕ} {c : ℚ} {A B Q R : Partition}
    (hc : A.card < B.card) (hn : B.card ≤ n) (heq : cost E c A = cost E c B)
    (hlt : cost E c Q < cost E c R + 1 / n) : cost E c Q ≤ cost E c R := by
  obtain ⟨ka, hka⟩ := hg.crossWeight A
  obtain ⟨kb, hkb⟩ := hg.crossWeight B
  obtain ⟨kq, hkq⟩ := hg.crossWeight Q
  obtain ⟨kr, hkr⟩ := hg.crossWeight R
  rw [mul_one] at hka hkb hkq hkr
  have hd : (0 : ℚ) < (B.card : ℚ) - A.card := by
    have : (A.card : ℚ) < B.card := by exact_mod_cast hc
    linarith
  have hBn : (B.card : ℚ) ≤ n := by exact_mod_cast hn
  have hA0 : (0 : ℚ) ≤ A.card := Nat.cast_nonneg _
  have hn0 : (0 : ℚ) < n := by linarith
  have hdiff : ((B.card : ℚ) - A.card) * (cost E c Q - cost E c R) =
      (((B.card - A.card : ℤ) * (kq - kr) + (kb - ka) * ((R.card : ℤ) - Q.card) : ℤ) : ℚ) := by
    unfold cost at *
    rw [hka, hkb] at heq
    rw [hkq, hkr]
    push_cast
    have : c * ((B.card : ℚ) - A.card) = kb - ka := by linarith
    linear_combination ((R.card : ℚ) - Q.card) * this
  by_contra hgt
  push Not at hgt
  have hpos : 0 < ((B.card : ℚ) - A.card) * (cost E c Q - cost E c R) := mul_pos hd (by linarith)
  rw [hdiff] at hpos
  have h1 : (1 : ℚ) ≤ ((B.card : ℚ) - A.card) * (cost E c Q - cost E c R) := by
    rw [hdiff]
    have : (0 : ℤ) < ((B.card - A.card : ℤ) * (kq - kr) + (kb - ka) * ((R.card : ℤ) - Q.card) : ℤ) := by
      exact_mod_cast hpos
    exact_mod_cast this
  have h2 : ((B.card : ℚ) - A.card) * (cost E c Q - cost E c R) < ((B.card : ℚ) - A.card) * (1 / n) :=
    mul_lt_mul_of_pos_left (by linarith) hd
  have h3 : ((B.card : ℚ) - A.card) * (1 / n) ≤ n * (1 / n) :=
    mul_le_mul_of_nonneg_right (by linarith) (by positivity)
  rw [mul_one_div_cancel hn0.ne'] at h3
  linarith

/-- The two numbers computed from the values of two partitions are rounded once only. -/
theorem gammaF_eq {fl : ℚ → ℚ} {g : Digraph} {n : ℕ} {u M W : ℚ} (hfl : Rounds fl u M)
    (htot : totalCap g.arcs ≤ W) (hn1 : 1 ≤ n) (hW0 : 0 ≤ W) (hg : GoodDigraph g n) (hi : IntegerCaps g.arcs)
    (hM : n * W ≤ M) {ord : Partition → List CSet} (hord : Enumerates ord) {ao : List Arc → List Arc} (hao : ∀ l, (ao l).Perm l) {Q P : Partition}
    (hQ : IsPartition (Finset.range n) Q) (hP : IsPartition (Finset.range n) P) :
    gammaF fl ao ord g Q P = fl (gammaApos g Q P) ∧ hF fl ao ord g Q P = fl (hApos g Q P) := by
  have hnq : (1 : ℚ) ≤ n := by exact_mod_cast hn1
  have htM : totalCap g.arcs ≤ M := by nlinarith
  have hE := hg.good.nonneg
  have hvQ := partitionValueF_eq hfl hord hao hE hi htM hg.good.within hQ
  have hvP := partitionValueF_eq hfl hord hao hE hi htM hg.good.within hP
  obtain ⟨kQ, hkQ⟩ := hi.granular.crossWeight Q
  obtain ⟨kP, hkP⟩ := hi.granular.crossWeight P
  rw [mul_one] at hkQ hkP
  have hcQ := crossWeight_le_total hE Q
  have hcP := crossWeight_le_total hE P
  have hPnq : (P.card : ℚ) ≤ n := by exact_mod_cast (by simpa using hP.card_le : P.card ≤ n)
  have hQnq : (Q.card : ℚ) ≤ n := by exact_mod_cast (by simpa using hQ.card_le : Q.card ≤ n)
  have hP0 : (0 : ℚ) ≤ P.card := Nat.cast_nonneg _
  have hQ0 : (0 : ℚ) ≤ Q.card := Nat.cast_nonneg _
  have hgv : ∀ R, IsPartition (Finset.range n) R → getPartitionValue g.arcs R = crossWeight g.arcs R :=
    fun R hR => partitionValue_eq_crossWeight (fun e he => (hg.good.within e he).2) hR
  have b1 : (P.card : ℚ) * crossWeight g.arcs Q ≤ n * W :=
    mul_le_mul hPnq (hcQ.2.trans htot) hcQ.1 (by linarith)
  have b2 : (Q.card : ℚ) * crossWeight g.arcs P ≤ n * W :=
    mul_le_mul hQnq (hcP.2.trans htot) hcP.1 (by linarith)
  have n1 : 0 ≤ (P.card : ℚ) * crossWeight g.arcs Q := mul_nonneg hP0 hcQ.1
  have n2 : 0 ≤ (Q.card : ℚ) * crossWeight g.arcs P := mul_nonneg hQ0 hcP.1
  constructor
  · unfold gammaF
    rw [hvQ, hvP, gammaApos, hgv Q hQ, hgv P hP, hkQ, hkP]
    rw [hkQ] at hcQ
    rw [hkP] at hcP
    have := hfl.int (kP - kQ) (by
      push_cast
      rw [abs_le]
      constructor <;> linarith)
    push_cast at this
    rw [this]
  · unfold hF
    rw [hvQ, hvP, hApos, hgv Q hQ, hgv P hP]
    rw [hkQ] at b1 n1
    rw [hkP] at b2 n2
    rw [hkQ, hkP]
    have e1 := hfl.int (P.card * kQ) (by
      push_cast; rw [abs_of_nonneg n1]; linarith)
    have e2 := hfl.int (Q.card * kP) (by
      push_cast; rw [abs_of_nonneg n2]; linarith)
    have e3 := hfl.int (P.card * kQ - Q.card * kP) (by
      push_cast; rw [abs_le]; constructor <;> linarith)
    push_cast at e1 e2 e3
    rw [e1, e2, e3]

set_option maxHeartbeats 1000000 in
/-- One rounded truncation at the crossing point of two partitions decides correctly. -/
theorem dilworthDTF_decides {S : FlowSolver} {fl : ℚ → ℚ} {g : Digraph} {n : ℕ} {u M δ W e ε : ℚ}
    (H : Small S fl g.arcs n u M δ W e) (hg : GoodDigraph g n) (hi : IntegerCaps g.arcs)
    (hM : n * W ≤ M) (hε : 2 * n * δ + 60 * (n * n * u * W) < ε) (hnε : 2 * n * ε ≤ 1)
    {ord : Partition → List CSet} (hord : Enumerates ord) {ao : List Arc → List Arc} (hao : ∀ l, (ao l).Perm l) {a b : ℚ} {Q P : Partition} (h0a : 0 ≤ a) (hbW : b ≤ W)
    (hQ : IsOptimal g.arcs (Finset.range n) a Q) (hP : IsOptimal g.arcs (Finset.range n) b P)
    (hc : Q.card < P.card) :
    gammaF fl ao ord g Q P = fl (gammaApos g Q P) ∧
    ∃ m P', dilworthDTF fl S g (gammaF fl ao ord g Q P) = .ok (m, P') ∧
      IsOptimal g.arcs (Finset.range n) (gammaApos g Q P) P' ∧
      (m > fl (hF fl ao ord g Q P - ε) ↔ cost g.arcs (gammaApos g Q P) Q ≤ cost g.arcs (gammaApos g Q P) P') := by
  obtain ⟨hγ, hh⟩ := gammaApos_eq hg hQ.1 hP.1 hc
  have haγ := slope_ge hQ hP.1 hc hγ
  have hγb := slope_le hP hQ.1 hc hγ
  set γ := gammaApos g Q P with hγdef
  have H' := H
  obtain ⟨hfl, hS, hδ, hW, htot, hn1, he, hne⟩ := H'
  have hu := hfl.nonneg
  have hnq : (1 : ℚ) ≤ n := by exact_mod_cast hn1
  have hW0 : 0 ≤ W := by linarith
  have hE := hg.good.nonneg
  have hcQ := crossWeight_le_total hE Q
  have hPn : P.card ≤ n := by simpa using hP.1.card_le
  have hPnq : (P.card : ℚ) ≤ n := by exact_mod_cast hPn
  have hQnq : (Q.card : ℚ) ≤ n := by exact_mod_cast (by omega : Q.card ≤ n)
  have hP0 : (0 : ℚ) ≤ P.card := Nat.cast_nonneg _
  have hQ0 : (0 : ℚ) ≤ Q.card := Nat.cast_nonneg _
  obtain ⟨hgam, hhF⟩ := gammaF_eq hfl htot hn1 hW0 hg hi hM hord hao hQ.1 hP.1
  have hnuW : 0 ≤ n * u * W := by positivity
  have hn2 : n * u * W ≤ n * n * u * W := by nlinarith
  have hδn : 0 ≤ n * δ := by positivity
  have hε0 : 0 < ε := by nlinarith
  have hε1 : ε ≤ 1 := by nlinarith
  have huW0 : 0 ≤ u * W := by positivity
  have huW : u * W ≤ n * u * W := by nlinarith
  have hu1 : u ≤ 1 := by
    have : u ≤ u * W := by nlinarith
    linarith
  have hγ0 : 0 ≤ γ := h0a.trans haγ
  have hγW : γ ≤ W := hγb.trans hbW
  set lam := fl γ with hlam
  have hM1 := hfl.one_le
  have hrel : |lam - γ| ≤ u * W := hfl.err (by rwa [abs_of_nonneg hγ0]) (by linarith) (by linarith)
  have hrel' := abs_le.1 hrel
  have hlam0 : 0 ≤ lam := hfl.fl_nonneg hγ0
  have hlam2 : lam ≤ 2 * W := by nlinarith
  have hfin : g.nodes.toFinset = Finset.range n := by
    rw [hg.nodes]; ext v; simp
  obtain ⟨d1, d2, d3, d4⟩ := dilworthIF_spec H (ns := g.nodes) (by
      rw [hg.nodes]; exact List.pairwise_lt_range) (by rw [hg.nodes, List.length_range])
      (by rw [hfin]; exact hg.good) hlam0 hlam2
  rw [hfin] at d1 d2 d3
  set r := dilworthIF fl S g.arcs lam g.nodes with hr
  have hshift : ∀ R, IsPartition (Finset.range n) R → |cost g.arcs lam R - cost g.arcs γ R| ≤ n * u * W := by
    intro R hR
    have e1 : cost g.arcs lam R - cost g.arcs γ R = -((lam - γ) * R.card) := by unfold cost; ring
    have hRn : (R.card : ℚ) ≤ n := by
      have : R.card ≤ n := by simpa using hR.card_le
      exact_mod_cast this
    rw [e1, abs_neg, abs_mul, abs_of_nonneg (Nat.cast_nonneg R.card : (0 : ℚ) ≤ R.card)]
    have := mul_le_mul hrel hRn (Nat.cast_nonneg _) huW0
    linarith
  have hne' : n * e = n * δ + 20 * (n * n * u * W) := by rw [he]; ring
  have hgap : 2 * ε ≤ 1 / n := by
    rw [le_div_iff₀ (by linarith)]
    linarith
  have hP'opt : IsOptimal g.arcs (Finset.range n) γ r.2 := by
    refine ⟨d1, fun R hR => cost_gap hi.granular hc hPn hγ ?_⟩
    have h1 := d2 R hR
    have h2 := abs_le.1 (hshift R hR)
    have h3 := abs_le.1 (hshift _ d1)
    linarith
  have hhval : |hApos g Q P| ≤ n * W := by
    rw [hh]
    unfold cost
    have : γ * Q.card ≤ W * n := mul_le_mul hγW hQnq hQ0 hW0
    have h' : 0 ≤ γ * Q.card := mul_nonneg hγ0 hQ0
    rw [abs_le]
    constructor
    · linarith
    · nlinarith
  have ht : |fl (hF fl ao ord g Q P - ε) - (hApos g Q P - ε)| ≤ 4 * (n * u * W) := by
    rw [hhF]
    have h1 : |fl (hApos g Q P) - hApos g Q P| ≤ n * u * W := by
      have := hfl.err hhval (by nlinarith) (by linarith)
      linarith
    have h3 : |fl (hApos g Q P) - ε| ≤ 3 * (n * W) := by
      have := abs_le.1 hhval
      have h4 := abs_le.1 h1
      have hnW : n * u * W ≤ n * W := by
        have : (0 : ℚ) ≤ n * W := by positivity
        nlinarith
      have hnW1 : 1 ≤ n * W := by nlinarith
      rw [abs_le]
      constructor <;> linarith
    have h6 := abs_le.1 (hfl.err h3 (by nlinarith) (by linarith))
    have h7 := abs_le.1 h1
    rw [abs_le]
    constructor <;> linarith
  refine ⟨hgam, r.1, r.2, ?_, hP'opt, ?_⟩
  · rw [hgam, dilworthDTF_eq fl S g lam hg.nodes hg.good.lowHigh]
  · have ht' := abs_le.1 ht
    rw [hh] at ht'
    have hsQ := abs_le.1 (hshift Q hQ.1)
    have hsP := abs_le.1 (hshift _ d1)
    constructor
    · intro hm
      by_contra hlt
      push Not at hlt
      have : ¬ cost g.arcs γ Q < cost g.arcs γ r.2 + 1 / n := fun h => by
        have := cost_gap hi.granular hc hPn hγ h
        linarith
      push Not at this
      have h1 := d3 _ d1
      linarith
    · intro hle
      show _ < r.1
      linarith

/-- `DT::split` with rounded arithmetic. -/
theorem dtSplitF_spec {S : FlowSolver} {fl : ℚ → ℚ} {g : Digraph} {n : ℕ} {u M δ W e ε : ℚ}
    (H : Small S fl g.arcs n u M δ W e) (hg : GoodDigraph g n) (hi : IntegerCaps g.arcs)
    (hM : n * W ≤ M) (hε : 2 * n * δ + 60 * (n * n * u * W) < ε) (hnε : 2 * n * ε ≤ 1)
    {ord : Partition → List CSet} (hord : Enumerates ord) {ao : List Arc → List Arc} (hao : ∀ l, (ao l).Perm l) (k : ℕ) :
    ∀ (a b : ℚ) (Q P : Partition), IsOptimal g.arcs (Finset.range n) a Q →
      IsOptimal g.arcs (Finset.range n) b P → 0 ≤ a → b ≤ W → a < b → Q.card < P.card →
      P.card ≤ Q.card + k →
      ∃ r s c, dtSplitF fl ao ord S ε g k Q P = .ok r ∧
        ALinked False g.arcs (Finset.range n) (1 / n) a Q (s ++ [(c, b, P)]) ∧
        r.1 = (s.map (·.1) ++ [c]).map fl ∧ r.2.Perm (s.map (·.2.2)) := by
  have hnpos : (0 : ℚ) < 1 / n := by
    have : (1 : ℚ) ≤ n := by exact_mod_cast H.pos
    positivity
  induction k with
  | zero => intro a b Q P _ _ _ _ _ h1 h2; omega
  | succ k ih =>
    intro a b Q P hQ hP h0a hbW hab hc hk
    obtain ⟨hγ, hh⟩ := gammaApos_eq hg hQ.1 hP.1 hc
    obtain ⟨hgam, m, P', hrun, hopt, hdec⟩ :=
      dilworthDTF_decides H hg hi hM hε hnε hord hao h0a hbW hQ hP hc
    unfold dtSplitF
    rw [if_neg (by omega), hrun]
    simp only [Outcome.ok_bind, Outcome.pure_eq]
    set γ := gammaApos g Q P with hγdef
    have base : cost g.arcs γ Q ≤ cost g.arcs γ P' →
        ∃ r s c, (Outcome.ok ([gammaF fl ao ord g Q P], ([] : List Partition))) = .ok r ∧
        ALinked False g.arcs (Finset.range n) (1 / n) a Q (s ++ [(c, b, P)]) ∧
        r.1 = (s.map (·.1) ++ [c]).map fl ∧ r.2.Perm (s.map (·.2.2)) := by
      intro hlt
      refine ⟨_, [], γ, rfl, ⟨hQ, hab, hc, hγ, ?_, False.elim, hP⟩, by simp [hgam], List.Perm.refl _⟩
      intro R hR
      have := hopt.2 R hR
      linarith
    by_cases hcond : m > fl (hF fl ao ord g Q P - ε) ∨ Q.card = P'.card ∨ P.card = P'.card
    · rw [if_pos hcond]
      apply base
      rcases hcond with h | h | h
      · exact hdec.1 h
      · have h1 := hQ.2 P' hopt.1
        unfold cost at *
        rw [h] at h1 ⊢
        linarith
      · have h1 := hP.2 P' hopt.1
        rw [hγ]
        unfold cost at *
        rw [h] at h1 ⊢
        linarith
    · rw [if_neg hcond]
      push Not at hcond
      obtain ⟨hm, hne1, hne2⟩ := hcond
      have hlt : cost g.arcs γ P' < cost g.arcs γ Q := not_le.1 fun h => absurd (hdec.2 h) (not_lt.2 hm)
      have haγ : a < γ := by
        rcases lt_or_eq_of_le (slope_ge hQ hP.1 hc hγ) with h | h
        · exact h
        · exfalso
          have := hQ.2 P' hopt.1
          rw [h] at this; linarith
      have hγb : γ < b := by
        rcases lt_or_eq_of_le (slope_le hP hQ.1 hc hγ) with h | h
        · exact h
        · exfalso
          have := hP.2 P' hopt.1
          rw [← h] at this; linarith
      have hc1 : Q.card < P'.card :=
        lt_of_le_of_ne (hQ.card_le hg.good.nonneg hopt haγ) hne1
      have hc2 : P'.card < P.card :=
        lt_of_le_of_ne (hopt.card_le hg.good.nonneg hP hγb) (Ne.symm hne2)
      obtain ⟨r1, s1, c1, e1, l1, v1, p1⟩ := ih a γ Q P' hQ hopt h0a (hγb.le.trans hbW) haγ hc1 (by omega)
      obtain ⟨r2, s2, c2, e2, l2, v2, p2⟩ := ih γ b P' P hopt hP (h0a.trans haγ.le) hbW hγb hc2 (by omega)
      rw [e1, e2]
      simp only [Outcome.ok_bind]
      refine ⟨_, s1 ++ (c1, γ, P') :: s2, c2, rfl, ?_, ?_, ?_⟩
      · have := l1.append l2
        simpa using this
      · simp [v1, v2]
      · simp only [List.map_append, List.map_cons]
        exact (List.Perm.cons _ (p1.append p2)).trans List.perm_middle.symm

/-- The run of `DT` with rounded arithmetic: the partitions are exact, the values are rounded. -/
theorem dtRunF_spec {S : FlowSolver} {fl : ℚ → ℚ} {g : Digraph} {n : ℕ} {u M δ W e ε : ℚ}
    (H : Small S fl g.arcs n u M δ W e) (hg : GoodDigraph g n) (hn : 2 ≤ n) (hi : IntegerCaps g.arcs)
    (hM : n * W ≤ M) (hε : 2 * n * δ + 60 * (n * n * u * W) < ε) (hnε : 2 * n * ε ≤ 1)
    {ord : Partition → List CSet} (hord : Enumerates ord) {ao : List Arc → List Arc} (hao : ∀ l, (ao l).Perm l) :
    ∃ s c, dtRunF fl ao ord S ε g = .ok ⟨{Finset.range n} :: (s ++ [(c, W, singletons (Finset.range n))]).map (·.2.2),
        ((s ++ [(c, W, singletons (Finset.range n))]).map (·.1)).map fl⟩ ∧
      ALinked False g.arcs (Finset.range n) (1 / n) 0 {Finset.range n}
        (s ++ [(c, W, singletons (Finset.range n))]) := by
  have hV : (Finset.range n).Nonempty := ⟨0, by simp; omega⟩
  have hcard : (singletons (Finset.range n)).card = n := by rw [card_singletons, Finset.card_range]
  have hW := H.one
  obtain ⟨r, s, c, e, l, v, p⟩ := dtSplitF_spec H hg hi hM hε hnε hord hao n 0 W {Finset.range n}
    (singletons (Finset.range n)) (isOptimal_single hg.good.nonneg hg.good.within hV le_rfl)
    (isOptimal_singletons hg.good.nonneg ((crossWeight_le_total hg.good.nonneg _).2.trans H.total)) le_rfl le_rfl
    (by linarith) (by rw [hcard]; simp; omega) (by rw [hcard]; simp)
  refine ⟨s, c, ?_, l⟩
  unfold dtRunF
  rw [hg.countNodes]
  simp only [makeFine_eq, makeDense]
  rw [e]
  simp only [Outcome.ok_bind, Outcome.pure_eq]
  congr 2
  · apply eq_of_perm_card _ _ l.card_increasing
    · refine (List.perm_insertionSort _ _).trans (List.Perm.cons _ ?_)
      rw [List.map_append]
      refine (List.Perm.cons _ p).trans ?_
      exact (List.perm_append_comm (l₁ := [singletons (Finset.range n)]))
    · have : Std.Total (α := Partition) (fun P Q => P.card ≤ Q.card) := ⟨fun a b => le_total _ _⟩
      have : IsTrans Partition (fun P Q => P.card ≤ Q.card) := ⟨fun a b c => le_trans⟩
      exact List.pairwise_insertionSort _ _
  · rw [v]
    have := l.nondecreasing
    have e2 : s.map (·.1) ++ [c] = (s ++ [(c, W, singletons (Finset.range n))]).map (·.1) := by simp
    rw [e2]
    exact (List.Pairwise.map fl (fun a b h => H.rounds.mono h) this).insertionSort_eq

end PSP.Theory
