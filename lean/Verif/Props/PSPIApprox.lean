import Verif.Theory.HPSPApprox
import Verif.Props.DTApprox
import Verif.Props.HPSP

/-!
# Properties: the error of `psp_i` and `hpsp` (C71)

C05 and C04 need weights on a grid that is coarse compared with the tolerance. For arbitrary weights the contraction
drops no edge (every edge it meets has at least the weight `eps`), but a set can be declared indivisible although dividing
it would save up to `eps`. This bounds the consequences.
-/

namespace PSP.Props

open PSP.Spec PSP.Model PSP.Theory

theorem inputGraph_low {eps : ℚ} {n : ℕ} {E : List Arc} : ∀ e ∈ (inputGraph eps n E).arcs, eps ≤ e.cap := by
  intro e he
  have := (List.mem_filter.1 he).2
  exact (of_decide_eq_true this).le

/-- **C71.** For all weights and every tolerance `eps > 0`, `psp_i` ends normally with a sequence of ever finer partitions
from the coarsest to the finest and nondecreasing critical values; each partition is optimal up to `(n - 1) eps` (and the
weights that are discarded because they do not exceed `eps`) between its neighbouring critical values. -/
theorem C71_pspi_approx {S : FlowSolver} (hS : S.Correct) {ord : Partition → List CSet} (hord : Enumerates ord) {eps : ℚ}
    {n : ℕ} {E : List Arc} (hv : ValidInput n E) (hn : 2 ≤ n) (heps : 0 < eps) :
    ∃ g' r, (makeDgraph eps n E >>= pspiRun S eps ord) = .ok (g', r) ∧
      IsApproximateSequence E (Finset.range n) ((n - 1) * eps + E.length * eps) r.psp r.cv := by
  obtain ⟨g', r, h1, h2⟩ := pspiRun_near hS hord hn (inputGraph_good hv) heps inputGraph_low
  exact ⟨g', r, by rw [makeDgraph_valid hv, Outcome.ok_bind, h1], approx_input heps.le hv.nonneg h2⟩

/-- If every weight exceeds `eps`, nothing is discarded. -/
theorem C71_pspi_approx_large {S : FlowSolver} (hS : S.Correct) {ord : Partition → List CSet} (hord : Enumerates ord)
    {eps : ℚ} {n : ℕ} {E : List Arc} (hv : ValidInput n E) (hn : 2 ≤ n) (heps : 0 < eps) (hE : ∀ e ∈ E, eps < e.cap) :
    ∃ g' r, (makeDgraph eps n E >>= pspiRun S eps ord) = .ok (g', r) ∧
      IsApproximateSequence E (Finset.range n) ((n - 1) * eps) r.psp r.cv := by
  obtain ⟨g', r, h1, h2⟩ := pspiRun_near hS hord hn (inputGraph_good hv) heps inputGraph_low
  refine ⟨g', r, by rw [makeDgraph_valid hv, Outcome.ok_bind, h1], ?_⟩
  have : (inputGraph eps n E).arcs = E := List.filter_eq_self.2 fun e he => by simpa using hE e he
  rwa [this] at h2

/-- The same for `hpsp`, whose flow solver has to report minimal cuts. -/
theorem C71_hpsp_approx {S : FlowSolver} (hS : S.Minimal) {ord : Partition → List CSet} (hord : Enumerates ord) {eps : ℚ}
    {n : ℕ} {E : List Arc} (hv : ValidInput n E) (hn : 2 ≤ n) (heps : 0 < eps) :
    ∃ g' r, (makeDgraph eps n E >>= hpspRun S eps ord) = .ok (g', r) ∧
      IsApproximateSequence E (Finset.range n) ((n - 1) * eps + E.length * eps) r.psp r.cv := by
  obtain ⟨g', r, h1, h2⟩ := hpspRun_near hS hord hn (inputGraph_good hv) heps inputGraph_low
  exact ⟨g', r, by rw [makeDgraph_valid hv, Outcome.ok_bind, h1], approx_input heps.le hv.nonneg h2⟩

theorem C71_hpsp_approx_large {S : FlowSolver} (hS : S.Minimal) {ord : Partition → List CSet} (hord : Enumerates ord)
    {eps : ℚ} {n : ℕ} {E : List Arc} (hv : ValidInput n E) (hn : 2 ≤ n) (heps : 0 < eps) (hE : ∀ e ∈ E, eps < e.cap) :
    ∃ g' r, (makeDgraph eps n E >>= hpspRun S eps ord) = .ok (g', r) ∧
      IsApproximateSequence E (Finset.range n) ((n - 1) * eps) r.psp r.cv := by
  obtain ⟨g', r, h1, h2⟩ := hpspRun_near hS hord hn (inputGraph_good hv) heps inputGraph_low
  refine ⟨g', r, by rw [makeDgraph_valid hv, Outcome.ok_bind, h1], ?_⟩
  have : (inputGraph eps n E).arcs = E := List.filter_eq_self.2 fun e he => by simpa using hE e he
  rwa [this] at h2

/-! ### the error is real -/

/-- A path with weights 3 and 2. -/
def pathArcs : List Arc := [⟨0, 1, 3⟩, ⟨1, 2, 2⟩]

theorem path_run : (makeDgraph 1 3 pathArcs >>= fun g => pspiRun bruteSolver 1 exOrd g >>= fun r => pure r.2) =
    .ok ⟨[{{0, 1, 2}}, {{0}, {1}, {2}}], [5 / 2]⟩ := by decide +kernel

/-- With tolerance 1 and weights 3 and 2, `psp_i` misses the step between the critical values 2 and 3: a bound on the
error cannot be zero. -/
theorem C71_error_real : ∃ (S : FlowSolver) (ord : Partition → List CSet) (n : ℕ) (E : List Arc) (eps : ℚ), S.Minimal ∧
    Enumerates ord ∧ ValidInput n E ∧ 2 ≤ n ∧ 0 < eps ∧ (∀ e ∈ E, eps < e.cap) ∧ ∃ g' r,
      (makeDgraph eps n E >>= pspiRun S eps ord) = .ok (g', r) ∧
      ¬ IsWeakPrincipalSequence E (Finset.range n) r.psp r.cv := by
  have h := path_run
  rw [← Outcome.bind_assoc] at h
  obtain ⟨⟨g', r⟩, hx, hx'⟩ := Outcome.bind_eq_ok h
  refine ⟨bruteSolver, exOrd, 3, pathArcs, 1, bruteSolver_minimal, exOrd_enumerates, by decide +kernel, by norm_num,
    by norm_num, by decide +kernel, g', r, hx, fun hw => ?_⟩
  cases hx'
  have h1 := hw.optimal 0 {{0, 1, 2}} (5 / 2) rfl (fun j c _ hj => absurd hj (by omega)) (fun j c hc _ => by
    match j with
    | 0 => simp at hc; rw [← hc]
    | j + 1 => simp at hc)
  have h2 := h1.2 {{0, 1}, {2}} (by rw [isPartition_iff]; decide +kernel)
  revert h2
  decide +kernel

/-! ### examples -/

example := C71_pspi_approx (S := bruteSolver) bruteSolver_minimal.toCorrect exOrd_enumerates fractionArcs_valid
  (by norm_num) (eps := lemonEps) (by norm_num [lemonEps])

example := C71_hpsp_approx (S := bruteSolver) bruteSolver_minimal exOrd_enumerates fractionArcs_valid
  (by norm_num) (eps := lemonEps) (by norm_num [lemonEps])

example := C71_pspi_approx_large (S := bruteSolver) bruteSolver_minimal.toCorrect exOrd_enumerates fractionArcs_valid
  (by norm_num) (eps := 1 / 11) (by norm_num)
  (by intro e he
      simp only [fractionArcs, List.mem_cons, List.not_mem_nil, or_false] at he
      rcases he with rfl | rfl | rfl | rfl <;> norm_num)

example := C71_hpsp_approx_large (S := bruteSolver) bruteSolver_minimal exOrd_enumerates fractionArcs_valid
  (by norm_num) (eps := 1 / 11) (by norm_num)
  (by intro e he
      simp only [fractionArcs, List.mem_cons, List.not_mem_nil, or_false] at he
      rcases he with rfl | rfl | rfl | rfl <;> norm_num)

end PSP.Props
