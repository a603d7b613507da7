import Verif.Spec.Approx
import Verif.Theory.ApproxMerge
import Verif.Theory.PDTFinal

/-!
# Sequences of nearly optimal partitions
-/

namespace PSP.Theory

open PSP.Spec PSP.Model

variable {E : List Arc} {V : Finset ℕ} {C : ℚ}

/-! ### weights on a grid: two nearly optimal partitions are optimal at a nearby parameter -/

variable {u : ℚ}

theorem crossWeight_multiple (hE : ∀ e ∈ E, ∃ k : ℤ, e.cap = k * u) (P : Finset (Finset ℕ)) :
    ∃ k : ℤ, crossWeight E P = k * u := by
  unfold crossWeight
  induction E with
  | nil => exact ⟨0, by simp⟩
  | cons e E ih =>
    obtain ⟨k, hk⟩ := ih fun a ha => hE a (List.mem_cons_of_mem _ ha)
    obtain ⟨m, hm⟩ := hE e List.mem_cons_self
    rw [List.map_cons, List.sum_cons, hk]
    split
    · exact ⟨k, by simp⟩
    · exact ⟨m + k, by rw [hm]; push_cast; ring⟩

/-- Partitions of different sizes that are both nearly optimal at `c` are both optimal at the parameter at which they
cost the same. -/
theorem near_pair (hu : 0 < u) (hE : ∀ e ∈ E, ∃ k : ℤ, e.cap = k * u) (hC : V.card * (V.card - 1) * C < u) {c : ℚ}
    {P Q : Finset (Finset ℕ)} (hP : IsNearOptimal E V C c P) (hQ : IsNearOptimal E V C c Q) (hlt : P.card < Q.card)
    (hV : V.Nonempty) : ∃ κ, |c - κ| ≤ C ∧ IsOptimal E V κ P ∧ IsOptimal E V κ Q := by
  have hd0 : (1 : ℚ) ≤ Q.card - P.card := by
    have : ((P.card + 1 : ℕ) : ℚ) ≤ Q.card := by exact_mod_cast hlt
    push_cast at this
    linarith
  have hcard : ∀ R, IsPartition V R → (1 : ℚ) ≤ R.card ∧ (R.card : ℚ) ≤ V.card := fun R hR =>
    ⟨by exact_mod_cast hR.card_pos hV, by exact_mod_cast hR.card_le⟩
  obtain ⟨p1, p2⟩ := hcard P hP.1
  obtain ⟨q1, q2⟩ := hcard Q hQ.1
  set d : ℚ := (Q.card : ℚ) - P.card with hd
  set κ := (crossWeight E Q - crossWeight E P) / d with hκ
  have hκd : κ * d = crossWeight E Q - crossWeight E P := by rw [hκ]; field_simp
  have h1 := hP.2 Q hQ.1
  have h2 := hQ.2 P hP.1
  unfold cost at h1 h2
  have hC0 : 0 ≤ C := by
    have := hP.2 P hP.1
    linarith
  have heq : (c - κ) * d = (crossWeight E P - c * P.card) - (crossWeight E Q - c * Q.card) := by
    rw [sub_mul, hκd, hd]; ring
  have habs : |c - κ| ≤ C := by
    have h3 : |(c - κ) * d| ≤ C := by
      rw [heq, abs_le]
      constructor <;> linarith
    rw [abs_mul, abs_of_pos (by linarith : 0 < d)] at h3
    have := abs_nonneg (c - κ)
    nlinarith
  have hcost : cost E κ P = cost E κ Q := by
    unfold cost
    have : κ * Q.card - κ * P.card = crossWeight E Q - crossWeight E P := by rw [← hκd, hd]; ring
    linarith
  have hopt : IsOptimal E V κ P := by
    refine ⟨hP.1, fun R hR => ?_⟩
    by_contra hcon
    have hcon := not_le.1 hcon
    obtain ⟨r1, r2⟩ := hcard R hR
    -- the difference is a multiple of `1 / d`
    obtain ⟨a, ha⟩ := crossWeight_multiple hE P
    obtain ⟨b, hb⟩ := crossWeight_multiple hE R
    obtain ⟨w, hw⟩ := crossWeight_multiple hE Q
    have hint : (cost E κ P - cost E κ R) * d =
        (((a - b) * ((Q.card : ℤ) - P.card) - (w - a) * ((P.card : ℤ) - R.card) : ℤ) : ℚ) * u := by
      unfold cost
      push_cast
      have : (crossWeight E P - κ * P.card - (crossWeight E R - κ * R.card)) * d =
          (crossWeight E P - crossWeight E R) * d - κ * d * (P.card - R.card) := by ring
      rw [this, hκd, ha, hb, hw, hd]
      ring
    have hpos : 0 < (cost E κ P - cost E κ R) * d := mul_pos (by linarith) (by linarith)
    rw [hint] at hpos
    have hge : u ≤ (cost E κ P - cost E κ R) * d := by
      rw [hint]
      have h1 := pos_of_mul_pos_left hpos hu.le
      have h2 : (1 : ℚ) ≤ (((a - b) * ((Q.card : ℤ) - P.card) - (w - a) * ((P.card : ℤ) - R.card) : ℤ) : ℚ) := by
        exact_mod_cast (by exact_mod_cast h1 : (0 : ℤ) < _)
      nlinarith
    -- but it is small
    have h4 := hP.2 R hR
    have h5 : cost E κ P - cost E κ R = cost E c P - cost E c R + (c - κ) * (P.card - R.card) := by
      unfold cost; ring
    have h6 : (c - κ) * ((P.card : ℚ) - R.card) ≤ C * (V.card - 1) := by
      refine (le_abs_self _).trans ?_
      rw [abs_mul]
      apply mul_le_mul habs _ (abs_nonneg _) hC0
      rw [abs_le]
      constructor <;> linarith
    have h7 : cost E κ P - cost E κ R ≤ V.card * C := by linarith
    have h8 : d ≤ V.card - 1 := by linarith
    have h9 : (cost E κ P - cost E κ R) * d ≤ V.card * C * (V.card - 1) := by
      apply mul_le_mul h7 h8 (by linarith)
      positivity
    linarith
  exact ⟨κ, habs, hopt, hQ.1, fun R hR => hcost ▸ hopt.2 R hR⟩

theorem near_linked (hu : 0 < u) (hE : ∀ e ∈ E, ∃ k : ℤ, e.cap = k * u) (hC : V.card * (V.card - 1) * C < u) (hV : V.Nonempty)
    {Ps : List (Finset (Finset ℕ))} {cv : List ℚ} {P : Finset (Finset ℕ)} {a : ℚ} (hlen : Ps.length = cv.length)
    (hr : (P :: Ps).Pairwise fun P Q => Refines Q P ∧ Q ≠ P) (hinc : cv.Pairwise (· ≤ ·)) (ha : ∀ c ∈ cv, a ≤ c)
    (hopt : ∀ (i : ℕ) (Q : Finset (Finset ℕ)) (lam : ℚ), (P :: Ps)[i]? = some Q → a ≤ lam →
      (∀ (j : ℕ) (c : ℚ), cv[j]? = some c → j < i → c ≤ lam) → (∀ (j : ℕ) (c : ℚ), cv[j]? = some c → i ≤ j → lam ≤ c) →
      IsNearOptimal E V C lam Q) :
    ∃ s, Ps = s.map Prod.snd ∧ Linked E V P s ∧ List.Forall₂ (fun c c' => |c - c'| ≤ C) cv (s.map Prod.fst) := by
  induction Ps generalizing cv P a with
  | nil =>
    have : cv = [] := List.eq_nil_of_length_eq_zero (by simpa using hlen.symm)
    subst this
    exact ⟨[], rfl, trivial, by simp⟩
  | cons Q Ps ih =>
    cases cv with
    | nil => simp at hlen
    | cons c cv =>
      rw [List.pairwise_cons] at hr hinc
      have hget : ∀ (j : ℕ) (c' : ℚ), (c :: cv)[j]? = some c' → c ≤ c' := by
        intro j c' hj
        rcases List.mem_cons.1 (List.mem_of_getElem? hj) with h | h
        · exact h.ge
        · exact hinc.1 c' h
      have h1 : IsNearOptimal E V C c P := hopt 0 P c (by simp) (ha c (by simp)) (by simp) (fun j c' hj _ => hget j c' hj)
      have h2 : IsNearOptimal E V C c Q := hopt 1 Q c (by simp) (ha c (by simp)) (by
          intro j c' hj hj1
          have : j = 0 := by omega
          subst this
          simp at hj
          exact hj.ge) (fun j c' hj _ => hget j c' hj)
      obtain ⟨hQP, hne⟩ := hr.1 Q (by simp)
      have hlt := hQP.card_lt h2.1 h1.1 hne
      obtain ⟨κ, hk, o1, o2⟩ := near_pair hu hE hC h1 h2 hlt hV
      obtain ⟨s, e1, e2, e3⟩ := ih (cv := cv) (P := Q) (a := c) (by simpa using hlen) hr.2 hinc.2 hinc.1 (by
        intro i R lam hi hal h1 h2
        refine hopt (i + 1) R lam (by simpa using hi) ((ha c (by simp)).trans hal) ?_ ?_
        · intro j c' hj hji
          cases j with
          | zero => simp at hj; linarith
          | succ j => exact h1 j c' (by simpa using hj) (by omega)
        · intro j c' hj hji
          cases j with
          | zero => omega
          | succ j => exact h2 j c' (by simpa using hj) (by omega))
      exact ⟨(κ, Q) :: s, by simp [e1], ⟨o1, o2, ⟨hQP, hne⟩, e2⟩, List.Forall₂.cons hk e3⟩

/-- **Approximate sequences of graphs whose weights are multiples of `u`.** If the error is small enough the partitions are optimal,
and the critical values are within the error. -/
theorem approx_weak (hu : 0 < u) (hE : ∀ e ∈ E, ∃ k : ℤ, e.cap = k * u) (hnn : NonnegE E) (hW : Within E V)
    (hV : V.Nonempty) (hC : V.card * (V.card - 1) * C < u) {Ps : List (Finset (Finset ℕ))} {cv : List ℚ}
    (h : IsApproximateSequence E V C Ps cv) :
    ∃ cv', IsWeakPrincipalSequence E V Ps cv' ∧ List.Forall₂ (fun c c' => |c - c'| ≤ C) cv cv' := by
  obtain ⟨hlen, hfirst, hlast, href, hinc, hopt⟩ := h
  cases Ps with
  | nil => simp at hlen
  | cons P Ps =>
    simp only [List.head?_cons, Option.some.injEq] at hfirst
    subst hfirst
    obtain ⟨a, ha⟩ : ∃ a : ℚ, ∀ c ∈ cv, a ≤ c := by
      cases cv with
      | nil => exact ⟨0, by simp⟩
      | cons c cv =>
        refine ⟨c, fun c' hc' => ?_⟩
        rcases List.mem_cons.1 hc' with h | h
        · exact h.ge
        · exact (List.pairwise_cons.1 hinc).1 c' h
    obtain ⟨s, rfl, hl, hf⟩ := near_linked hu hE hC hV (by simpa using hlen) href hinc ha
      (fun i Q lam hi _ h1 h2 => hopt i Q lam hi h1 h2)
    refine ⟨s.map Prod.fst, hl.weak hnn hW hV ?_, hf⟩
    rw [getLast?_linked, Option.some.injEq] at hlast
    exact hlast

/-! ### chains of intervals -/

theorem WChain.zip {α : Type} {D : ℚ → α → Prop} {a : ℚ} {r : List (α × Option ℚ)} (h : WChain D a r) :
    ∃ (xs : List α) (cs : List ℚ), r = xs.zip (cs.map some ++ [none]) ∧ xs.length = cs.length + 1 ∧
      cs.Pairwise (· ≤ ·) ∧ ∀ c ∈ cs, a ≤ c := by
  induction r generalizing a with
  | nil => exact absurd h (by simp [WChain])
  | cons xb r ih =>
    obtain ⟨x, b⟩ := xb
    cases b with
    | none =>
      obtain ⟨rfl, _⟩ := h
      exact ⟨[x], [], rfl, rfl, by simp, by simp⟩
    | some b =>
      obtain ⟨hab, _, hr⟩ := h
      obtain ⟨xs, cs, rfl, h1, h2, h3⟩ := ih hr
      refine ⟨x :: xs, b :: cs, by simp, by simp [h1], List.pairwise_cons.2 ⟨h3, h2⟩, ?_⟩
      intro c hc
      rcases List.mem_cons.1 hc with h | h
      · rw [h]; exact hab
      · exact hab.trans (h3 c h)

theorem WChain.get {α : Type} {D : ℚ → α → Prop} {a : ℚ} {xs : List α} {cs : List ℚ}
    (hlen : xs.length = cs.length + 1) (h : WChain D a (xs.zip (cs.map some ++ [none]))) :
    ∀ (k : ℕ) (x : α) (lam : ℚ), xs[k]? = some x → a ≤ lam →
      (∀ (i : ℕ) (c : ℚ), cs[i]? = some c → i < k → c ≤ lam) →
      (∀ (i : ℕ) (c : ℚ), cs[i]? = some c → k ≤ i → lam ≤ c) → D lam x := by
  induction xs generalizing cs a with
  | nil => simp at hlen
  | cons x0 xs ih =>
    intro k x lam hk ha h1 h2
    cases cs with
    | nil =>
      have hxs : xs = [] := by
        apply List.eq_nil_of_length_eq_zero
        simpa using hlen
      subst hxs
      cases k with
      | zero =>
        simp only [List.getElem?_cons_zero, Option.some.injEq] at hk
        subst hk
        exact h.2 lam ha
      | succ k => simp at hk
    | cons c cs =>
      cases k with
      | zero =>
        simp only [List.getElem?_cons_zero, Option.some.injEq] at hk
        subst hk
        exact h.2.1 lam ha (h2 0 c (by simp) le_rfl)
      | succ k =>
        have hk' : xs[k]? = some x := by simpa using hk
        exact ih (cs := cs) (by simpa using hlen) h.2.2 k x lam hk' (h1 0 c (by simp) (by omega))
          (fun i c' hi hik => h1 (i + 1) c' (by simpa using hi) (by omega))
          (fun i c' hi hik => h2 (i + 1) c' (by simpa using hi) (by omega))

/-- Properly refining chains. -/
theorem finer_pairwise {Ps : List (Finset (Finset ℕ))} (hP : ∀ P ∈ Ps, IsPartition V P) (h : Ps.IsChain Finer) :
    Ps.Pairwise fun P Q => Refines Q P ∧ Q ≠ P := by
  induction Ps with
  | nil => simp
  | cons P Ps ih =>
    have ht := ih (fun Q hQ => hP Q (List.mem_cons_of_mem _ hQ)) h.tail
    rw [List.pairwise_cons]
    refine ⟨?_, ht⟩
    cases Ps with
    | nil => simp
    | cons Q Ps =>
      obtain ⟨h1, h2⟩ := (List.isChain_cons_cons.1 h).1
      intro R hR
      rcases List.mem_cons.1 hR with rfl | hR
      · exact ⟨h1, h2⟩
      · obtain ⟨h3, h4⟩ := (List.pairwise_cons.1 ht).1 R hR
        have c1 := h1.card_lt (hP Q (by simp)) (hP P (by simp)) h2
        have c2 := h3.card_lt (hP R (by simp [hR])) (hP Q (by simp)) h4
        refine ⟨h3.trans h1, ?_⟩
        rintro rfl
        omega

/-! ### omitting edges -/

theorem crossWeight_filter_le {ε : ℚ} (hε : 0 ≤ ε) (hE : NonnegE E) (P : Partition) :
    crossWeight (E.filter fun a => decide (ε < a.cap)) P ≤ crossWeight E P ∧
      crossWeight E P ≤ crossWeight (E.filter fun a => decide (ε < a.cap)) P + E.length * ε := by
  unfold crossWeight
  induction E with
  | nil => simp
  | cons e E ih =>
    obtain ⟨h1, h2⟩ := ih fun a ha => hE a (List.mem_cons_of_mem _ ha)
    have h0 := hE e List.mem_cons_self
    rw [List.length_cons]
    push_cast
    by_cases hp : ε < e.cap
    · rw [List.filter_cons_of_pos (by simpa using hp), List.map_cons, List.sum_cons, List.map_cons, List.sum_cons]
      constructor <;> linarith
    · rw [List.filter_cons_of_neg (by simpa using hp), List.map_cons, List.sum_cons]
      have hp := not_lt.1 hp
      split <;> constructor <;> linarith

theorem approx_input {ε : ℚ} (hε : 0 ≤ ε) (hE : NonnegE E) {Ps : List Partition} {cv : List ℚ}
    (h : IsApproximateSequence (E.filter fun a => decide (ε < a.cap)) V C Ps cv) :
    IsApproximateSequence E V (C + E.length * ε) Ps cv := by
  refine ⟨h.length, h.first, h.last, h.refine, h.nondecreasing, fun i P lam hi h1 h2 => ?_⟩
  obtain ⟨h3, h4⟩ := h.optimal i P lam hi h1 h2
  refine ⟨h3, fun R hR => ?_⟩
  have h5 := h4 R hR
  have h6 := (crossWeight_filter_le hε hE P).2
  have h7 := (crossWeight_filter_le hε hE R).1
  unfold cost at h5 ⊢
  linarith

theorem input_length {n : ℕ} (hv : ValidInput n E) : E.length ≤ n * n := by
  have h1 : (E.map fun e => (e.src, e.dst)).Nodup := by
    rw [List.Nodup, List.pairwise_map]
    exact hv.simple.imp fun h1 h2 => h1 (Prod.mk.inj h2)
  have h2 : (E.map fun e => (e.src, e.dst)).toFinset ⊆ Finset.range n ×ˢ Finset.range n := by
    intro x hx
    rw [List.mem_toFinset, List.mem_map] at hx
    obtain ⟨e, he, rfl⟩ := hx
    have := hv.lowHigh e he
    rw [Finset.mem_product, Finset.mem_range, Finset.mem_range]
    exact ⟨this.1.trans this.2, this.2⟩
  have h3 := Finset.card_le_card h2
  rw [List.toFinset_card_of_nodup h1, Finset.card_product, Finset.card_range, List.length_map] at h3
  exact h3

end PSP.Theory
