import Verif.Theory.DTNum

/-!
# Construction of the graph
-/

namespace PSP.Theory

open PSP.Spec PSP.Model

theorem makeDgraphArcs_ok {ε : ℚ} {n : ℕ} {elt : List Arc}
    (h : ∀ a ∈ elt, ε < a.cap → a.src < n ∧ a.dst < n) (acc : List Arc) :
    makeDgraphArcs ε n elt acc = .ok (acc ++ elt.filter fun a => decide (ε < a.cap)) := by
  induction elt generalizing acc with
  | nil => simp [makeDgraphArcs]
  | cons a as ih =>
    have ih := ih fun b hb => h b (List.mem_cons_of_mem _ hb)
    unfold makeDgraphArcs
    by_cases hp : ε < a.cap
    · have := h a List.mem_cons_self hp
      rw [if_neg (by simp [tolPositive, hp]), if_neg (by omega), ih]
      simp [hp]
    · rw [if_pos (by simp [tolPositive, hp]), ih]
      simp [hp]

theorem makeDgraph_ok {ε : ℚ} {n : ℕ} {elt : List Arc}
    (h : ∀ a ∈ elt, ε < a.cap → a.src < n ∧ a.dst < n) :
    makeDgraph ε n elt =
      .ok { nodes := List.range n, arcs := elt.filter fun a => decide (ε < a.cap) } := by
  unfold makeDgraph
  rw [makeDgraphArcs_ok h]
  simp

/-- The graph built from a valid input. -/
def inputGraph (ε : ℚ) (n : ℕ) (E : List Arc) : Digraph :=
  { nodes := List.range n, arcs := E.filter fun a => decide (ε < a.cap) }

theorem makeDgraph_valid {ε : ℚ} {n : ℕ} {E : List Arc} (h : ValidInput n E) :
    makeDgraph ε n E = .ok (inputGraph ε n E) := by
  apply makeDgraph_ok
  intro a ha _
  have := h.lowHigh a ha
  omega

theorem inputGraph_good {ε : ℚ} {n : ℕ} {E : List Arc} (h : ValidInput n E) :
    GoodDigraph (inputGraph ε n E) n where
  nodes := rfl
  good := {
    lowHigh := fun e he => (h.lowHigh e (List.mem_filter.1 he).1).1
    within := fun e he => by
      have := h.lowHigh e (List.mem_filter.1 he).1
      constructor <;> rw [Finset.mem_range] <;> omega
    simple := h.simple.filter _
    nonneg := fun e he => h.nonneg e (List.mem_filter.1 he).1 }

theorem crossWeight_filter {ε : ℚ} {E : List Arc} (h : ∀ e ∈ E, ¬ ε < e.cap → e.cap = 0)
    (P : Partition) :
    crossWeight (E.filter fun a => decide (ε < a.cap)) P = crossWeight E P := by
  unfold crossWeight
  induction E with
  | nil => rfl
  | cons e E ih =>
    have ih := ih fun a ha => h a (List.mem_cons_of_mem _ ha)
    by_cases hp : ε < e.cap
    · simp [hp, ih]
    · have := h e List.mem_cons_self hp
      rw [List.filter_cons_of_neg (by simpa using hp), ih]
      simp [this]

/-- The arcs dropped by the constructor have weight 0 if the tolerance is fine. -/
theorem dropped_zero {ε : ℚ} {n : ℕ} {E : List Arc} (hv : ValidInput n E) (hn : 2 ≤ n)
    (hf : FineTolerance ε n E) : ∀ e ∈ E, ¬ ε < e.cap → e.cap = 0 := by
  obtain ⟨u, hu, hg, hε, hlt⟩ := hf
  intro e he hle
  obtain ⟨k, hk⟩ := hg e he
  have h0 := hv.nonneg e he
  have hn' : (2 : ℚ) ≤ n := by exact_mod_cast hn
  have hεu : ε < u := by nlinarith
  rw [hk] at h0 hle ⊢
  have hk0 : 0 ≤ k := by
    have : (0 : ℚ) ≤ k := by
      by_contra hneg
      push Not at hneg
      nlinarith
    exact_mod_cast this
  rcases Nat.eq_zero_or_pos k.toNat with h | h
  · have : k = 0 := by omega
    simp [this]
  · exfalso
    have : (1 : ℚ) ≤ k := by
      have : (1 : ℤ) ≤ k := by omega
      exact_mod_cast this
    nlinarith

theorem cost_input {ε : ℚ} {n : ℕ} {E : List Arc} (hv : ValidInput n E) (hn : 2 ≤ n)
    (hf : FineTolerance ε n E) (lam : ℚ) (P : Partition) :
    cost (inputGraph ε n E).arcs lam P = cost E lam P := by
  unfold cost
  rw [show (inputGraph ε n E).arcs = E.filter fun a => decide (ε < a.cap) from rfl,
    crossWeight_filter (dropped_zero hv hn hf)]

theorem isOptimal_input {ε : ℚ} {n : ℕ} {E : List Arc} (hv : ValidInput n E) (hn : 2 ≤ n)
    (hf : FineTolerance ε n E) (lam : ℚ) (P : Partition) :
    IsOptimal (inputGraph ε n E).arcs (Finset.range n) lam P ↔
      IsOptimal E (Finset.range n) lam P := by
  unfold IsOptimal
  simp only [cost_input hv hn hf]

theorem weak_input {ε : ℚ} {n : ℕ} {E : List Arc} (hv : ValidInput n E) (hn : 2 ≤ n)
    (hf : FineTolerance ε n E) {Ps : List Partition} {cv : List ℚ} :
    IsWeakPrincipalSequence (inputGraph ε n E).arcs (Finset.range n) Ps cv →
      IsWeakPrincipalSequence E (Finset.range n) Ps cv := fun h =>
  ⟨h.length, h.first, h.last, h.refine, h.nondecreasing, fun i P lam h1 h2 h3 =>
    (isOptimal_input hv hn hf lam P).1 (h.optimal i P lam h1 h2 h3)⟩

theorem strict_input {ε : ℚ} {n : ℕ} {E : List Arc} (hv : ValidInput n E) (hn : 2 ≤ n)
    (hf : FineTolerance ε n E) {Ps : List Partition} {cv : List ℚ} :
    IsPrincipalSequence (inputGraph ε n E).arcs (Finset.range n) Ps cv →
      IsPrincipalSequence E (Finset.range n) Ps cv := fun h =>
  ⟨h.length, h.first, h.last, h.refine, h.increasing, fun i P lam h1 h2 h3 =>
    (isOptimal_input hv hn hf lam P).1 (h.optimal i P lam h1 h2 h3),
    fun i P lam h1 h2 h3 R hR => h.unique i P lam h1 h2 h3 R
      ((isOptimal_input hv hn hf lam R).2 hR)⟩

theorem granular_input {ε u : ℚ} {n : ℕ} {E : List Arc} (hg : ∀ e ∈ E, ∃ k : ℤ, e.cap = k * u) :
    Granular u (inputGraph ε n E).arcs := fun e he => hg e (List.mem_filter.1 he).1

theorem ValidInput.nonnegE {n : ℕ} {E : List Arc} (h : ValidInput n E) : NonnegE E := h.nonneg

theorem ValidInput.within {n : ℕ} {E : List Arc} (h : ValidInput n E) :
    Within E (Finset.range n) := fun e he => by
  have := h.lowHigh e he
  constructor <;> rw [Finset.mem_range] <;> omega

/-- `DT::run` gives a weak principal sequence with any correct solver and the principal sequence
with a solver reporting minimal sink sides. -/
theorem dt_input {S : FlowSolver} (hS : S.Correct) {ε : ℚ} {n : ℕ} {E : List Arc}
    (hv : ValidInput n E) (hn : 2 ≤ n) (hf : FineTolerance ε n E) :
    ∃ r, dtRun S ε (inputGraph ε n E) = .ok r ∧
      IsWeakPrincipalSequence E (Finset.range n) r.psp r.cv ∧
      (S.Minimal → IsPrincipalSequence E (Finset.range n) r.psp r.cv) := by
  have hf' := hf
  obtain ⟨u, hu, hg, hε, hlt⟩ := hf'
  have hgood := inputGraph_good (ε := ε) hv
  have h0 := crossWeight_nonneg hgood.good.nonneg (singletons (Finset.range n))
  have hV : (Finset.range n).Nonempty := ⟨0, by simp; omega⟩
  obtain ⟨s, c, hrun, hl⟩ := dtRun_spec hS hgood hn hε (-1) _ (by norm_num) le_rfl
    (lt_of_lt_of_le (by norm_num) h0)
  have hgr := granular_input (ε := ε) (n := n) hg
  have hle : ε * (((Finset.range n).card : ℚ) - 1) ≤ u := by simpa using le_of_lt hlt
  have hlinked := hl.linked hgood.good.nonneg hu hgr hV hle hε
  set t := s ++ [(c, crossWeight (inputGraph ε n E).arcs (singletons (Finset.range n)),
    singletons (Finset.range n))] with ht
  have h1 : (t.map fun x => (x.1, x.2.2)).map Prod.snd = t.map (·.2.2) := by simp
  have h2 : (t.map fun x => (x.1, x.2.2)).map Prod.fst = t.map (·.1) := by simp
  have hlast : lastOf {Finset.range n} (t.map fun x => (x.1, x.2.2)) =
      singletons (Finset.range n) := by
    rw [ht, List.map_append, lastOf_append]; rfl
  refine ⟨_, hrun, ?_, ?_⟩
  · apply weak_input hv hn hf
    have := hlinked.weak hgood.good.nonneg hgood.good.within hV hlast
    rwa [h1, h2] at this
  · intro hM
    apply strict_input hv hn hf
    have := hlinked.strict hgood.good.nonneg hgood.good.within hV hlast (by
      rw [h2]; exact hl.increasing hu hgr hV hle hε hM)
    rwa [h1, h2] at this

end PSP.Theory
