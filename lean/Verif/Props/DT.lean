import Verif.Theory.NoBetween
import Mathlib.Tactic.IntervalCases
import Verif.Theory.Construct
import Verif.Theory.Brute
import Mathlib.Tactic.Positivity

/-!
# Properties of the graph construction, of the Dilworth truncation and of `DT`
(C01, C02, C08 – C10, C12, C13, C16)

The statements use the definitions of `Verif/Spec/PSP.lean` and the functions of the model only.
-/

namespace PSP.Props

open PSP.Spec PSP.Model PSP.Theory

/-! ### a concrete input used in the examples -/

/-- Four nodes, the tolerance of LEMON. -/
def exArcs : List Arc := [⟨0, 1, 5⟩, ⟨1, 2, 1⟩, ⟨2, 3, 4⟩, ⟨0, 3, 2⟩]
def lemonEps : ℚ := 1 / 10000000000

theorem exArcs_valid : ValidInput 4 exArcs := by decide +kernel

theorem exArcs_fine : FineTolerance lemonEps 4 exArcs :=
  ⟨1, by norm_num, by
    intro e he
    simp only [exArcs, List.mem_cons, List.not_mem_nil, or_false] at he
    rcases he with rfl | rfl | rfl | rfl
    · exact ⟨5, by norm_num⟩
    · exact ⟨1, by norm_num⟩
    · exact ⟨4, by norm_num⟩
    · exact ⟨2, by norm_num⟩, by norm_num [lemonEps], by norm_num [lemonEps]⟩

/-- Integer weights are always fine for LEMON's tolerance (up to ten billion nodes). -/
theorem integer_weights_fine {n : ℕ} (hn : n ≤ 10000000000) {E : List Arc}
    (h : ∀ e ∈ E, ∃ k : ℤ, e.cap = k) : FineTolerance lemonEps n E := by
  refine ⟨1, by norm_num, fun e he => ?_, by norm_num [lemonEps], ?_⟩
  · obtain ⟨k, hk⟩ := h e he
    exact ⟨k, by rw [hk, mul_one]⟩
  · have : (n : ℚ) ≤ 10000000000 := by exact_mod_cast hn
    unfold lemonEps
    linarith

/-- Whatever the (rational) weights, every sufficiently small tolerance is fine. -/
theorem eventually_fine (n : ℕ) (E : List Arc) :
    ∃ e0 : ℚ, 0 < e0 ∧ ∀ eps, 0 < eps → eps < e0 → FineTolerance eps n E := by
  have hu : ∃ u : ℚ, 0 < u ∧ ∀ e ∈ E, ∃ k : ℤ, e.cap = k * u := by
    induction E with
    | nil => exact ⟨1, by norm_num, by simp⟩
    | cons a E ih =>
      obtain ⟨u, hu, h⟩ := ih
      have hd : (0 : ℚ) < a.cap.den := by exact_mod_cast a.cap.den_pos
      have hd' : (0 : ℚ) < u.den := by exact_mod_cast u.den_pos
      refine ⟨1 / (a.cap.den * u.den), by positivity, ?_⟩
      intro e he
      rcases List.mem_cons.1 he with rfl | he
      · refine ⟨e.cap.num * u.den, ?_⟩
        have h1 := Rat.num_div_den e.cap
        push_cast
        field_simp
        rw [Rat.mul_den_eq_num]
      · obtain ⟨k, hk⟩ := h e he
        refine ⟨k * u.num * a.cap.den, ?_⟩
        have h1 := Rat.num_div_den u
        rw [hk]
        push_cast
        field_simp
        rw [mul_assoc, Rat.mul_den_eq_num]
  obtain ⟨u, hu, h⟩ := hu
  have hn : (0 : ℚ) ≤ n := Nat.cast_nonneg n
  refine ⟨u / (n + 1), by positivity, fun eps h1 h2 => ⟨u, hu, h, h1, ?_⟩⟩
  have : eps * (n + 1) < u := by rwa [lt_div_iff₀ (by positivity)] at h2
  nlinarith

/-! ### C16: construction -/

/-- `make_dgraph` keeps exactly the arcs above the tolerance, in order, and nodes `0..n-1`, unless a
kept arc has an end point outside the node set, in which case the behaviour is undefined. -/
theorem C16_construct (eps : ℚ) (n : ℕ) (E : List Arc) :
    ((∀ a ∈ E, eps < a.cap → a.src < n ∧ a.dst < n) →
      ∃ g, makeDgraph eps n E = .ok g ∧ g.nodes = List.range n ∧
        g.arcs.Sublist E ∧ ∀ a, a ∈ g.arcs ↔ a ∈ E ∧ eps < a.cap) ∧
    ((∃ a ∈ E, eps < a.cap ∧ ¬ (a.src < n ∧ a.dst < n)) →
      ∃ why, makeDgraph eps n E = .ub why) := by
  constructor
  · intro h
    refine ⟨_, makeDgraph_ok h, rfl, List.filter_sublist, ?_⟩
    intro a
    simp
  · intro h
    have : ∀ acc, ∃ why, makeDgraphArcs eps n E acc = .ub why := by
      obtain ⟨a, ha, hp, hb⟩ := h
      induction E with
      | nil => simp at ha
      | cons b E ih =>
        intro acc
        unfold makeDgraphArcs
        by_cases hpb : eps < b.cap
        · rw [if_neg (by simp [tolPositive, hpb])]
          by_cases hr : n ≤ b.src ∨ n ≤ b.dst
          · rw [if_pos hr]; exact ⟨_, rfl⟩
          · rw [if_neg hr]
            rcases List.mem_cons.1 ha with rfl | ha
            · omega
            · exact ih ha _
        · rw [if_pos (by simp [tolPositive, hpb])]
          rcases List.mem_cons.1 ha with rfl | ha
          · exact absurd hp hpb
          · exact ih ha _
    obtain ⟨why, hw⟩ := this []
    exact ⟨why, by unfold makeDgraph; rw [hw]; rfl⟩

/-- Both cases occur. -/
example : makeDgraph lemonEps 4 (⟨7, 9, 0⟩ :: exArcs) = .ok ⟨List.range 4, exArcs⟩ := by
  decide +kernel
example : makeDgraph lemonEps 4 (exArcs ++ [⟨1, 4, 3⟩]) = .ub "addArc: node id out of range" := by
  decide +kernel

/-! ### C10: value of a partition -/

/-- `get_partition_value` is the weight of the arcs between different blocks, whatever the
orientation of the arcs and even with parallel arcs and loops. -/
theorem C10_partition_value (E : List Arc) (V : Finset ℕ) (P : Partition)
    (hE : ∀ e ∈ E, e.src ∈ V ∧ e.dst ∈ V) (hP : IsPartition V P) :
    getPartitionValue E P = crossWeight E P :=
  partitionValue_eq_crossWeight (fun e he => (hE e he).2) hP

/-- `DilworthTruncation::evaluate` is the cost. -/
theorem C10_evaluate (g : Digraph) (lam : ℚ) (P : Partition)
    (hE : ∀ e ∈ g.arcs, e.src ∈ g.nodes ∧ e.dst ∈ g.nodes) (hP : IsPartition g.nodes.toFinset P) :
    dilworthEvaluate g lam P = cost g.arcs lam P := by
  unfold dilworthEvaluate cost
  rw [C10_partition_value g.arcs g.nodes.toFinset P (fun e he => by
    simpa using hE e he) hP]

/-- Loops, parallel and backward arcs. -/
example : getPartitionValue [⟨0, 0, 7⟩, ⟨1, 0, 2⟩, ⟨0, 1, 3⟩, ⟨0, 1, 4⟩] {{0}, {1}} = 9 := by
  decide +kernel

/-! ### C08, C09: the Dilworth truncation -/

/-- `DilworthTruncation::run` (dt.cpp) returns a cheapest partition and its cost, whichever minimum
cuts the flow solver reports, at every (also negative) parameter. -/
theorem C08_dilworth_min {S : FlowSolver} (hS : S.Correct) {n : ℕ} {E : List Arc}
    (hv : ValidInput n E) (lam : ℚ) :
    ∃ v P, dilworthDT S ⟨List.range n, E⟩ lam = .ok (v, P) ∧
      IsPartition (Finset.range n) P ∧ v = cost E lam P ∧
      ∀ R, IsPartition (Finset.range n) R → v ≤ cost E lam R := by
  have hg : GoodDigraph ⟨List.range n, E⟩ n :=
    ⟨rfl, ⟨fun e he => (hv.lowHigh e he).1, ValidInput.within hv, hv.simple, hv.nonneg⟩⟩
  obtain ⟨P, h1, h2, _⟩ := dilworthDT_correct hS hg lam
  exact ⟨_, P, h1, h2.1, rfl, h2.2⟩

/-- If the flow solver reports inclusion-minimal sink sides the partition is the finest cheapest
one. -/
theorem C09_dilworth_finest {S : FlowSolver} (hS : S.Minimal) {n : ℕ} {E : List Arc}
    (hv : ValidInput n E) (lam : ℚ) :
    ∃ v P, dilworthDT S ⟨List.range n, E⟩ lam = .ok (v, P) ∧ IsOptimal E (Finset.range n) lam P ∧
      ∀ R, IsOptimal E (Finset.range n) lam R → Refines P R := by
  have hg : GoodDigraph ⟨List.range n, E⟩ n :=
    ⟨rfl, ⟨fun e he => (hv.lowHigh e he).1, ValidInput.within hv, hv.simple, hv.nonneg⟩⟩
  obtain ⟨P, h1, h2, h3⟩ := dilworthDT_correct hS.toCorrect hg lam
  exact ⟨_, P, h1, h2, h3 hS⟩

/-- The assumptions on the solver are satisfiable, and the run on the example is not trivial: at
`λ = 4` three blocks are optimal. -/
theorem solver_exists : bruteSolver.Minimal := bruteSolver_minimal

example : dilworthDT bruteSolver ⟨List.range 4, exArcs⟩ 4 = .ok (-5, {{0, 1}, {2}, {3}}) := by
  decide +kernel

/-! ### C01: `DT::run` -/

/-- With any correct flow solver, `dt` returns a nested sequence of optimal partitions from `{V}` to
the singletons with nondecreasing critical values, each partition being optimal (hence, see
`IsWeakPrincipalSequence.unique`, the only optimal one) between its neighbouring critical values. -/
theorem C01_dt_any_cut {S : FlowSolver} (hS : S.Correct) {eps : ℚ} {n : ℕ} {E : List Arc}
    (hv : ValidInput n E) (hn : 2 ≤ n) (hf : FineTolerance eps n E) :
    ∃ r, (makeDgraph eps n E >>= dtRun S eps) = .ok r ∧
      IsWeakPrincipalSequence E (Finset.range n) r.psp r.cv := by
  obtain ⟨r, h1, h2, _⟩ := dt_input hS hv hn hf
  exact ⟨r, by rw [makeDgraph_valid hv, Outcome.ok_bind, h1], h2⟩

/-- With a flow solver reporting minimal sink sides, `dt` returns the principal sequence. -/
theorem C01_dt_exact {S : FlowSolver} (hS : S.Minimal) {eps : ℚ} {n : ℕ} {E : List Arc}
    (hv : ValidInput n E) (hn : 2 ≤ n) (hf : FineTolerance eps n E) :
    ∃ r, (makeDgraph eps n E >>= dtRun S eps) = .ok r ∧
      IsPrincipalSequence E (Finset.range n) r.psp r.cv := by
  obtain ⟨r, h1, _, h2⟩ := dt_input hS.toCorrect hv hn hf
  exact ⟨r, by rw [makeDgraph_valid hv, Outcome.ok_bind, h1], h2 hS⟩

/-- The example has three critical values. -/
example : (makeDgraph lemonEps 4 exArcs >>= dtRun bruteSolver lemonEps) =
    .ok ⟨[{{0, 1, 2, 3}}, {{0, 1}, {2, 3}}, {{0, 1}, {2}, {3}}, {{0}, {1}, {2}, {3}}], [3, 4, 5]⟩ := by
  decide +kernel
theorem exArcs_sequence : IsPrincipalSequence exArcs (Finset.range 4)
    [{{0, 1, 2, 3}}, {{0, 1}, {2, 3}}, {{0, 1}, {2}, {3}}, {{0}, {1}, {2}, {3}}] [3, 4, 5] := by
  obtain ⟨r, h, hp⟩ := C01_dt_exact bruteSolver_minimal exArcs_valid (by norm_num) exArcs_fine
  have : (makeDgraph lemonEps 4 exArcs >>= dtRun bruteSolver lemonEps) =
    .ok ⟨[{{0, 1, 2, 3}}, {{0, 1}, {2, 3}}, {{0, 1}, {2}, {3}}, {{0}, {1}, {2}, {3}}],
      [3, 4, 5]⟩ := by decide +kernel
  rw [this] at h
  cases h
  exact hp

/-- In this graph no optimal partition lies strictly between others. -/
theorem exArcs_noBetween : NoBetween exArcs (Finset.range 4) := by
  refine exArcs_sequence.noBetween exArcs_valid.nonneg fun k A B hA hB => ?_
  have hk : k < 3 := by
    have := (List.getElem?_eq_some_iff.1 hB).1
    simp at this
    omega
  interval_cases k <;> (cases hA; cases hB; decide)

/-- When no optimal partition lies strictly between others, `dt` returns the principal sequence with any
correct flow solver, not only with one that reports minimal cuts. -/
theorem C01_dt_no_between {S : FlowSolver} (hS : S.Correct) {eps : ℚ} {n : ℕ} {E : List Arc}
    (hv : ValidInput n E) (hn : 2 ≤ n) (hf : FineTolerance eps n E) (hnb : NoBetween E (Finset.range n)) :
    ∃ r, (makeDgraph eps n E >>= dtRun S eps) = .ok r ∧ IsPrincipalSequence E (Finset.range n) r.psp r.cv := by
  obtain ⟨r, h1, h2⟩ := C01_dt_any_cut hS hv hn hf
  exact ⟨r, h1, h2.of_noBetween hv.nonneg hnb⟩

example := C01_dt_no_between bruteSolver_minimal.toCorrect exArcs_valid (by norm_num) exArcs_fine exArcs_noBetween

/-! ### C02: `dt` is within the tolerance of optimal, whatever the weights -/

/-- For every tolerance and all weights above it: the result is a nested sequence from `{V}` to the
singletons with sorted critical values, one fewer than partitions, and at *every* parameter some
returned partition costs at most `eps` more than the cheapest one. -/
theorem C02_dt_within_eps {S : FlowSolver} (hS : S.Correct) {eps : ℚ} (heps : 0 < eps) {n : ℕ}
    {E : List Arc} (hv : ValidInput n E) (hn : 2 ≤ n) (hbig : ∀ e ∈ E, eps < e.cap) :
    ∃ r, (makeDgraph eps n E >>= dtRun S eps) = .ok r ∧
      r.psp.length = r.cv.length + 1 ∧ r.psp.head? = some {Finset.range n} ∧
      r.psp.getLast? = some (singletons (Finset.range n)) ∧
      (r.psp.Pairwise fun P Q => Refines Q P ∧ Q ≠ P) ∧ r.cv.Pairwise (· ≤ ·) ∧
      ∀ lam, ∃ P ∈ r.psp, ∀ R, IsPartition (Finset.range n) R →
        cost E lam P ≤ cost E lam R + eps := by
  have hE : (inputGraph eps n E).arcs = E := by
    unfold inputGraph
    rw [List.filter_eq_self.2]
    intro a ha
    simpa using hbig a ha
  have hgood := inputGraph_good (ε := eps) hv
  rw [makeDgraph_valid hv, Outcome.ok_bind]
  have h0 := crossWeight_nonneg hgood.good.nonneg (singletons (Finset.range n))
  rw [hE] at h0
  have main : ∀ a b : ℚ, a ≤ 0 → crossWeight E (singletons (Finset.range n)) ≤ b → a < b →
      ∃ r, dtRun S eps (inputGraph eps n E) = .ok r ∧
      r.psp.length = r.cv.length + 1 ∧ r.psp.head? = some {Finset.range n} ∧
      r.psp.getLast? = some (singletons (Finset.range n)) ∧
      (r.psp.Pairwise fun P Q => Refines Q P ∧ Q ≠ P) ∧ r.cv.Pairwise (· ≤ ·) ∧
      ∀ lam, a ≤ lam → lam ≤ b → ∃ P ∈ r.psp, ∀ R, IsPartition (Finset.range n) R →
        cost E lam P ≤ cost E lam R + eps := by
    intro a b ha hb hab
    obtain ⟨s, c, hrun, hl⟩ := dtRun_spec hS hgood hn heps a b ha (by rw [hE]; exact hb) hab
    rw [hE] at hl
    refine ⟨_, hrun, by simp, rfl, ?_, hl.refine hv.nonneg, hl.nondecreasing, ?_⟩
    · simp [List.getLast?_cons]
    · intro lam h1 h2
      apply hl.cover (le_of_lt heps) h1
      intro b' B' hb'
      rcases hb' with hb' | ⟨hb', _⟩
      · simp at hb'; rw [← hb'.1]; exact h2
      · simp at hb'
  obtain ⟨r, hr, h1, h2, h3, h4, h5, _⟩ := main (-1) _ (by norm_num) le_rfl (by linarith)
  refine ⟨r, hr, h1, h2, h3, h4, h5, fun lam => ?_⟩
  obtain ⟨r', hr', _, _, _, _, _, h6⟩ := main (min (-1) lam)
    (max (crossWeight E (singletons (Finset.range n))) lam)
    ((min_le_left _ _).trans (by norm_num)) (le_max_left _ _)
    (lt_of_le_of_lt (min_le_left _ _) (lt_of_lt_of_le (by linarith) (le_max_left _ _)))
  rw [hr] at hr'
  cases hr'
  exact h6 lam (min_le_right _ _) (le_max_right _ _)

/-- A case where the tolerance really matters: with `eps = 9/10` the example loses a partition
compared with `eps = 1e-10`. -/
example : (makeDgraph (9 / 10) 4 exArcs >>= dtRun bruteSolver (9 / 10)) =
    .ok ⟨[{{0, 1, 2, 3}}, {{0, 1}, {2}, {3}}, {{0}, {1}, {2}, {3}}], [7 / 2, 5]⟩ := by
  decide +kernel

/-! ### C12: number of truncations -/

/-- `DT::split` on `{V}` and the singletons terminates normally after at most `2n-3` truncations. -/
theorem C12_dt_calls {S : FlowSolver} (hS : S.Correct) {eps : ℚ} (heps : 0 < eps) {n : ℕ}
    {E : List Arc} (hv : ValidInput n E) (hn : 2 ≤ n) :
    ∃ g r, makeDgraph eps n E = .ok g ∧
      dtSplit S eps g n {makeDense n} (makeFine n) = .ok r ∧ r.calls ≤ 2 * n - 3 := by
  have hgood := inputGraph_good (ε := eps) hv
  have hV : (Finset.range n).Nonempty := ⟨0, by simp; omega⟩
  have hcard : (singletons (Finset.range n)).card = n := by rw [card_singletons, Finset.card_range]
  have h0 := crossWeight_nonneg hgood.good.nonneg (singletons (Finset.range n))
  obtain ⟨r, s, c, e, _, _, _, hc⟩ := dtSplit_spec hS hgood heps n (-1) _ {Finset.range n}
    (singletons (Finset.range n)) (isOptimal_single hgood.good.nonneg hgood.good.within hV
      (by norm_num)) (isOptimal_singletons hgood.good.nonneg le_rfl) (by linarith)
    (by rw [hcard]; simp; omega) (by rw [hcard]; simp) (fun _ R hR => singletons_refines hR.1)
  refine ⟨_, r, makeDgraph_valid hv, e, ?_⟩
  rw [hcard] at hc
  simp only [Finset.card_singleton] at hc
  omega

/-- The bound is attained: five truncations for four nodes. -/
example : dtSplit bruteSolver lemonEps ⟨List.range 4, exArcs⟩ 4 {makeDense 4} (makeFine 4) =
    .ok ⟨[3, 4, 5], [{{0, 1}, {2}, {3}}, {{0, 1}, {2, 3}}], 5⟩ := by decide +kernel

/-! ### C13: `DT::run(k)` -/

/-- `DT::run(k)` never throws; its result is a partition of the principal sequence (for a solver
with minimal sink sides), different from `{V}`, with at least `k` blocks unless `k > n`, when it is
the singletons; and every partition of the principal sequence with at least `k` blocks (and
different from `{V}`) refines it, i.e. it is the coarsest such partition. -/
theorem C13_dt_num {S : FlowSolver} (hS : S.Minimal) {eps : ℚ} {n : ℕ} {E : List Arc}
    (hv : ValidInput n E) (hn : 2 ≤ n) (hf : FineTolerance eps n E) (k : ℤ)
    {Ps : List Partition} {cv : List ℚ} (hP : IsPrincipalSequence E (Finset.range n) Ps cv) :
    ∃ R, (makeDgraph eps n E >>= fun g => dtRunNum S eps g k) = .ok R ∧
      R ∈ Ps ∧ R ≠ {Finset.range n} ∧
      (k ≤ n → k ≤ R.card) ∧ ((n : ℤ) < k → R = singletons (Finset.range n)) ∧
      ∀ T ∈ Ps, k ≤ T.card → T ≠ {Finset.range n} → Refines T R := by
  have hf' := hf
  obtain ⟨u, hu, hg, hε, hlt⟩ := hf'
  have hgood := inputGraph_good (ε := eps) hv
  obtain ⟨R, hrun, hR⟩ := dtRunNum_spec hS.toCorrect hgood hn hε hu
    (granular_input (ε := eps) (n := n) hg) (le_of_lt hlt) k
  rw [makeDgraph_valid hv, Outcome.ok_bind]
  refine ⟨R, hrun, ?_, ?_, ?_, ?_, ?_⟩
  · obtain ⟨lam, h1, h2⟩ := hR.optimal
    exact finest_mem hv.nonneg hP ((isOptimal_input hv hn hf _ _).1 h1)
      (fun T hT => h2 hS T ((isOptimal_input hv hn hf _ _).2 hT))
  · rintro rfl
    have := hR.nontrivial
    simp at this
  · intro hk
    rcases hR.enough with h | h
    · exact h
    · rw [h, card_singletons, Finset.card_range]; exact hk
  · intro hk
    rcases hR.enough with h | h
    · obtain ⟨lam, h1, _⟩ := hR.optimal
      have := h1.1.card_le
      rw [Finset.card_range] at this
      omega
    · exact h
  · intro T hT hTk hTV
    obtain ⟨i, hi, rfl⟩ := List.mem_iff_getElem.1 hT
    have hlen := hP.length
    obtain ⟨lam, h1, h2⟩ := exists_strictly_between hP.increasing (i := i) (by omega)
    have hgi : Ps[i]? = some (Ps[i]'hi) := List.getElem?_eq_getElem _
    have hopt := hP.optimal i _ lam hgi (fun j c hj hji => le_of_lt (h1 j c hj hji))
      (fun j c hj hji => le_of_lt (h2 j c hj hji))
    apply hR.coarsest _ lam ((isOptimal_input hv hn hf _ _).2 hopt) _ hTk hTV
    rintro ⟨A, B, hA, hB, hne⟩
    have hA' := hP.unique i _ lam hgi h1 h2 A ((isOptimal_input hv hn hf _ _).1 hA)
    have hB' := hP.unique i _ lam hgi h1 h2 B ((isOptimal_input hv hn hf _ _).1 hB)
    exact hne (hA'.trans hB'.symm)

/-- `k = -3, 1, 2, 3, 4, 9` on the example. -/
example : [-3, 1, 2, 3, 4, 9].map (fun k => dtRunNum bruteSolver lemonEps ⟨List.range 4, exArcs⟩ k) =
    [.ok {{0, 1}, {2, 3}}, .ok {{0, 1}, {2, 3}}, .ok {{0, 1}, {2, 3}}, .ok {{0, 1}, {2}, {3}},
     .ok {{0}, {1}, {2}, {3}}, .ok {{0}, {1}, {2}, {3}}] := by
  decide +kernel

end PSP.Props
