import Verif.Theory.HLBrute
import Verif.Props.PDTR

/-!
# Starting points of the method `pdt_r` (C52)

`PMF_R` starts its solvers from flows and elevators of earlier calls. The solvers are assumed to work from the
starting points named in the statements (`AnyStart`, `FitStart`, `IsPreflow`).
-/

namespace PSP.Props

open PSP.Spec PSP.Model PSP.Theory

/-! ### solvers that work from any flow -/

/-- If the solvers work from any flow within the capacities in which no ordinary node sends out more than it
receives, whatever the elevator, then `pdt_r` returns the principal sequence, whichever threads deliver and
whatever the interrupted threads leave behind.

What is missing: the solver of LEMON needs more, see below. -/
theorem C52_warm_partial {W Q : HLSolver} (hW : W.LeastSink AnyStart) (hQ : Q.LeastSource AnyStart) {eps : ℚ}
    {n : ℕ} {E : List Arc} (hv : ValidInput n E) (hn : 2 ≤ n) (hf : PdtTolerance eps n E)
    (sched : ℕ → CSet → CSet → Finish × Bool) :
    ∃ r, (makeDgraph eps n E >>= pdtrRunW W Q eps sched) = .ok r ∧
      IsPrincipalSequence E (Finset.range n) r.psp r.cv := by
  rw [makeDgraph_valid hv, Outcome.ok_bind]
  exact pdtrW_input bruteSolver_minimal bruteSrc_minimal (m := .any) hW hQ hv hn hf fun _ => trivial

/-- The starting points make no difference, for all weights and tolerances: the outcome is the one without them
(`Model/PMFR`). -/
theorem C52_same_partial {W Q : HLSolver} (hW : W.LeastSink AnyStart) (hQ : Q.LeastSource AnyStart)
    {S : FlowSolver} (hS : S.Minimal) {R : SrcSolver} (hR : R.Minimal) {eps : ℚ} (heps : 0 < eps)
    {n : ℕ} {E : List Arc} (hv : ValidInput n E)
    (sched : ℕ → CSet → CSet → Finish × Bool) (finish : ℕ → CSet → CSet → Finish) :
    (makeDgraph eps n E >>= pdtrRunW W Q eps sched) = (makeDgraph eps n E >>= pdtrRun S R eps finish) := by
  rw [makeDgraph_valid hv, Outcome.ok_bind, Outcome.ok_bind]
  exact pdtrRunW_eq (m := .any) hS hR hW hQ (inputGraph_pgood hv heps) (inputGraph_strict eps n E) (fun _ => trivial)
    finish

/-- `PMF_R::run` for node `j` and any starting values `y`. -/
theorem C52_pmf_r_partial {W Q : HLSolver} (hW : W.LeastSink AnyStart) (hQ : Q.LeastSource AnyStart) {n : ℕ}
    {E : List Arc} (hv : ValidInput n E) {eps : ℚ} (heps : 0 < eps) (hcap : ∀ e ∈ E, eps ≤ e.cap) {j : ℕ}
    (hj : j < n) {y : ℕ → ℚ × Option ℚ} {d : ℚ} (hd : 0 < d) (hE : ∀ e ∈ E, ∃ k : ℤ, e.cap = k * d)
    (h10 : ∃ k : ℤ, 1 / 10 = k * d) (hya : ∀ i, ∃ k : ℤ, (y i).1 = k * d)
    (hyb : ∀ i b, (y i).2 = some b → ∃ k : ℤ, b = k * d)
    (hfine : 10 * eps * (j.factorial : ℚ) < d) (hstart : ¬ IsParamMin E y (-1 / 10) j {j})
    (sched : ℕ → CSet → CSet → Finish × Bool) :
    ∃ Ts ls, pmfrRunW W Q eps ⟨List.range n, E⟩ sched j y = .ok (Ts, ls) ∧ Ts.length = ls.length + 1 ∧
      Ts.getLast? = some {j} ∧ Ts.Pairwise (fun A B => B ⊂ A) ∧ ls.Pairwise (· < ·) ∧
      (∀ c ∈ ls, -1 / 10 < c) ∧
      ∀ (k : ℕ) (T : Finset ℕ) (lam : ℚ), Ts[k]? = some T → -1 / 10 ≤ lam →
        (∀ (i : ℕ) (c : ℚ), ls[i]? = some c → i < k → c ≤ lam) →
        (∀ (i : ℕ) (c : ℚ), ls[i]? = some c → k ≤ i → lam ≤ c) → IsParamMin E y lam j T := by
  have hpg : PGood E eps := ⟨fun e he => (hv.lowHigh e he).1, hv.simple, heps, hcap⟩
  have hL : (j.factorial) ≠ 0 := Nat.factorial_ne_zero j
  have hLq : (0 : ℚ) < j.factorial := by exact_mod_cast Nat.factorial_pos j
  rw [pmfrRunW_eq (g := ⟨List.range n, E⟩) bruteSolver_minimal bruteSrc_minimal (m := .any) hW hQ hpg trivial
    (by simpa [Digraph.countNodes] using hj) (strict_of_gran hpg hd hL (by rw [lt_div_iff₀ hLq]; exact hfine) hE)]
  exact C39_pmf_r bruteSolver_minimal bruteSrc_minimal hv heps hcap hj hd hE h10 hya hyb hfine hstart _

/-! ### elevators -/

/-- If the solvers need elevators made for the network they run on, `pdt_r` returns the principal sequence
provided only the left threads deliver. -/
theorem C52_left_partial {W : HLSolver} (hW : W.LeastSink FitStart) (Q : HLSolver) {eps : ℚ}
    {n : ℕ} {E : List Arc} (hv : ValidInput n E) (hn : 2 ≤ n) (hf : PdtTolerance eps n E)
    {sched : ℕ → CSet → CSet → Finish × Bool} (hs : ∀ j Tl Tr, (sched j Tl Tr).1 = .left) :
    ∃ r, (makeDgraph eps n E >>= pdtrRunW W Q eps sched) = .ok r ∧
      IsPrincipalSequence E (Finset.range n) r.psp r.cv := by
  rw [makeDgraph_valid hv, Outcome.ok_bind]
  have := pdtrW_input bruteSolver_minimal bruteSrc_minimal (m := .left) (Q := bruteSource fun _ _ => false)
    hW (bruteSource_leastSource fun _ _ _ => rfl) hv hn hf (sched := sched) hs
  unfold pdtrRunW pdtrRunFromW at this ⊢
  rwa [pmfrRunW_left W Q (bruteSource fun _ _ => false) hs]

/-- The same if only the right threads deliver. -/
theorem C52_right_partial {W Q : HLSolver} (hW : W.LeastSink FitStart) (hQ : Q.LeastSource FitStart) {eps : ℚ}
    {n : ℕ} {E : List Arc} (hv : ValidInput n E) (hn : 2 ≤ n) (hf : PdtTolerance eps n E)
    {sched : ℕ → CSet → CSet → Finish × Bool} (hs : ∀ j Tl Tr, (sched j Tl Tr).1 = .right) :
    ∃ r, (makeDgraph eps n E >>= pdtrRunW W Q eps sched) = .ok r ∧
      IsPrincipalSequence E (Finset.range n) r.psp r.cv := by
  rw [makeDgraph_valid hv, Outcome.ok_bind]
  have := pdtrW_input bruteSolver_minimal bruteSrc_minimal (m := .right) (W := HLcold W)
    (HLcold_leastSink hW) hQ hv hn hf (sched := sched) hs
  unfold pdtrRunW pdtrRunFromW at this ⊢
  rwa [pmfrRunW_right W Q hs]

/-- If the solvers need elevators made for the network they run on, the starting points make no difference provided
only the left threads, or only the right threads, deliver. -/
theorem C52_same_left_partial {W : HLSolver} (hW : W.LeastSink FitStart) (Q : HLSolver)
    {S : FlowSolver} (hS : S.Minimal) {R : SrcSolver} (hR : R.Minimal) {eps : ℚ} (heps : 0 < eps)
    {n : ℕ} {E : List Arc} (hv : ValidInput n E)
    {sched : ℕ → CSet → CSet → Finish × Bool} (hs : ∀ j Tl Tr, (sched j Tl Tr).1 = .left)
    (finish : ℕ → CSet → CSet → Finish) :
    (makeDgraph eps n E >>= pdtrRunW W Q eps sched) = (makeDgraph eps n E >>= pdtrRun S R eps finish) := by
  rw [makeDgraph_valid hv, Outcome.ok_bind, Outcome.ok_bind]
  rw [← pdtrRunW_eq (m := .left) (Q := bruteSource fun _ _ => false) hS hR hW (bruteSource_leastSource fun _ _ _ => rfl)
    (inputGraph_pgood hv heps) (inputGraph_strict eps n E) (sched := sched) hs finish]
  unfold pdtrRunW pdtrRunFromW
  rw [pmfrRunW_left W Q (bruteSource fun _ _ => false) hs]

theorem C52_same_right_partial {W Q : HLSolver} (hW : W.LeastSink FitStart) (hQ : Q.LeastSource FitStart)
    {S : FlowSolver} (hS : S.Minimal) {R : SrcSolver} (hR : R.Minimal) {eps : ℚ} (heps : 0 < eps)
    {n : ℕ} {E : List Arc} (hv : ValidInput n E)
    {sched : ℕ → CSet → CSet → Finish × Bool} (hs : ∀ j Tl Tr, (sched j Tl Tr).1 = .right)
    (finish : ℕ → CSet → CSet → Finish) :
    (makeDgraph eps n E >>= pdtrRunW W Q eps sched) = (makeDgraph eps n E >>= pdtrRun S R eps finish) := by
  rw [makeDgraph_valid hv, Outcome.ok_bind, Outcome.ok_bind]
  rw [← pdtrRunW_eq (m := .right) hS hR (HLcold_leastSink hW) hQ (inputGraph_pgood hv heps)
    (inputGraph_strict eps n E) (sched := sched) hs finish]
  unfold pdtrRunW pdtrRunFromW
  rw [pmfrRunW_right W Q hs]

/-- An elevator of another network. -/
def eleMisfit (N : Net) (s : HLStart) : Bool := match s.ele with
  | none => false
  | some e => e ≠ N.verts

/-- A star with three leaves. -/
def warmStar : List Arc := [⟨0, 3, 1⟩, ⟨1, 3, 2⟩, ⟨2, 3, 10⟩]

/-- In general the elevators do not fit: a call of `slice` that contracts its network hands the elevators
of the network before the contraction to its children (pmf_r.cpp:549-550). With solvers that
work from all fitting starting points, `pdt_r` can fail on a star: here both threads deliver if all four
nodes are left, and otherwise the right one. -/
theorem C52_elevator_violated : ∃ W Q : HLSolver, W.LeastSink FitStart ∧ Q.LeastSource FitStart ∧
    ValidInput 4 warmStar ∧ PdtTolerance lemonEps 4 warmStar ∧
    (makeDgraph lemonEps 4 warmStar >>= pdtrRunW W Q lemonEps
      (fun _ Tl _ => (if Tl.card = 4 then .both else .right, false))) = .nan := by
  have hok : ∀ N t, FitStart N t → eleMisfit N t = false := by
    intro N t h
    unfold eleMisfit
    cases ht : t.ele with
    | none => rfl
    | some e => simpa using h.2 e ht
  refine ⟨bruteSink eleMisfit, bruteSource eleMisfit, bruteSink_leastSink hok, bruteSource_leastSource hok,
    by decide +kernel, ⟨1 / 10, by norm_num, ?_, ⟨1, by norm_num⟩, by norm_num [lemonEps], ?_⟩,
    by decide +kernel⟩
  · intro e he
    simp only [warmStar, List.mem_cons, List.not_mem_nil, or_false] at he
    rcases he with rfl | rfl | rfl
    · exact ⟨10, by norm_num⟩
    · exact ⟨20, by norm_num⟩
    · exact ⟨100, by norm_num⟩
  · norm_num [lemonEps, Nat.superFactorial, Nat.factorial]

/-! ### the flow at the sink -/

/-- The sink sends out more than it receives. -/
def sinkDeficit (N : Net) (s : HLStart) : Bool := excess N.arcs s.flow .snk < 0

def deficitArcs : List Arc := [⟨0, 1, 80⟩, ⟨0, 4, 80⟩, ⟨3, 4, 1⟩]

def deficitY : ℕ → ℚ × Option ℚ := fun i =>
  if i = 0 then (16, none) else if i = 1 then (32, none) else if i = 2 then (36, none) else (15, none)

/-- The starting flow need not be a preflow: the sink of a contracted network may send out more than it
receives, because flow towards the contracted sink is cut off at capacities of an earlier parameter. With
solvers that work from all preflows, `PMF_R::run` then misses a minimum cut: it claims that `{0, 4}` is
minimal from 34 on, but it is not at 35. -/
theorem C52_preflow_violated : ∃ W Q : HLSolver, (W.LeastSink fun N t => IsPreflow N t.flow) ∧
    (Q.LeastSource fun N t => IsPreflow N t.flow) ∧ ValidInput 5 deficitArcs ∧
    pmfrRunW W Q lemonEps ⟨List.range 5, deficitArcs⟩
      (fun _ Tl _ => (if Tl = {0, 1, 2, 4} then .left else .right, false)) 4 deficitY =
      .ok ([{0, 1, 2, 3, 4}, {0, 1, 2, 4}, {0, 4}, {4}], [16, 34, 96]) ∧
    ¬ IsParamMin deficitArcs deficitY 35 4 {0, 4} := by
  have hok : ∀ (N : Net) (t : HLStart), IsPreflow N t.flow → sinkDeficit N t = false := by
    intro N t h
    have := h.excess .snk (by simp)
    simp [sinkDeficit, this]
  refine ⟨bruteSink sinkDeficit, bruteSource sinkDeficit, bruteSink_leastSink hok, bruteSource_leastSource hok,
    by decide +kernel, by decide +kernel, ?_⟩
  rintro ⟨_, h⟩
  have := h {0, 2, 4} (by simp) (by decide)
  revert this
  decide +kernel

/-! ### the assumptions can be met -/

example : (bruteSink fun _ _ => false).LeastSink AnyStart := bruteSink_leastSink fun _ _ _ => rfl

example : (bruteSource fun _ _ => false).LeastSource AnyStart := bruteSource_leastSource fun _ _ _ => rfl

/-- The same graph and the same threads, with solvers that work from any flow. -/
example : pmfrRunW (bruteSink fun _ _ => false) (bruteSource fun _ _ => false) lemonEps
      ⟨List.range 5, deficitArcs⟩ (fun _ Tl _ => (if Tl = {0, 1, 2, 4} then .left else .right, false)) 4 deficitY =
    .ok ([{0, 1, 2, 3, 4}, {0, 1, 2, 4}, {0, 2, 4}, {0, 4}, {4}], [16, 32, 36, 96]) := by decide +kernel

example : (makeDgraph lemonEps 4 warmStar >>= pdtrRunW (bruteSink eleMisfit) (bruteSource eleMisfit) lemonEps
      (fun _ _ _ => (.left, false))) =
    .ok ⟨[{{0, 1, 2, 3}}, {{0}, {1, 2, 3}}, {{0}, {1}, {2, 3}}, {{0}, {1}, {2}, {3}}], [1, 2, 10]⟩ := by
  decide +kernel

example (sched : ℕ → CSet → CSet → Finish × Bool) (finish : ℕ → CSet → CSet → Finish) :=
  C52_same_partial (bruteSink_leastSink (bad := fun _ _ => false) fun _ _ _ => rfl)
    (bruteSource_leastSource (bad := fun _ _ => false) fun _ _ _ => rfl) bruteSolver_minimal bruteSrc_minimal
    (eps := lemonEps) (by norm_num [lemonEps]) exArcs_valid sched finish

end PSP.Props
