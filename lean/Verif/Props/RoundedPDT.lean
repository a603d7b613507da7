import Verif.Model.RoundedPDT
import Verif.Props.PDT
import Verif.Props.RoundedPSPI

/-!
# Properties: `pdt` with rounded arithmetic

`roundDouble` is the arithmetic of `double` for numbers that do not overflow.
-/

namespace PSP.Props

open PSP.Spec PSP.Model PSP.Theory

/-- A correct solver that reports minimal cuts and whose value is rounded. -/
def roundedWarm (p : ℕ) : WarmSolver :=
  ⟨fun N _ => ⟨roundNear p (bruteSolver.flowValue N), bruteSolver.minCut N, N.arcs.map fun _ => 0⟩⟩

theorem roundedWarm_scan (p : ℕ) : roundedWarm p =
    ⟨fun N _ => ⟨roundNear p (scanSolver.flowValue N), scanSolver.minCut N, N.arcs.map fun _ => 0⟩⟩ := by
  rw [scanSolver_eq]
  rfl

/-- Six nodes, seven edges of weight 1. -/
def pdtRoundArcs : List Arc := [⟨0, 3, 1⟩, ⟨0, 2, 1⟩, ⟨0, 5, 1⟩, ⟨0, 4, 1⟩, ⟨1, 2, 1⟩, ⟨3, 4, 1⟩, ⟨2, 4, 1⟩]

theorem pdtRoundArcs_unit : ∀ e ∈ pdtRoundArcs, e.cap = 1 := by decide +kernel

theorem pdtRoundArcs_integer : ∀ e ∈ pdtRoundArcs, ∃ k : ℤ, e.cap = k :=
  fun e he => ⟨1, by rw [pdtRoundArcs_unit e he]; norm_num⟩

theorem pdtRoundArcs_exact : (makeDgraph lemonEps 6 pdtRoundArcs >>= pdtRun bruteWarm lemonEps) =
    .ok ⟨[{{0, 1, 2, 3, 4, 5}}, {{0, 2, 3, 4}, {1}, {5}}, {{0}, {1}, {2}, {3}, {4}, {5}}], [1, 5 / 3]⟩ := by
  have : bruteWarm = ⟨fun N _ => ⟨scanSolver.flowValue N, scanSolver.minCut N, N.arcs.map fun _ => 0⟩⟩ := by
    rw [scanSolver_eq]; rfl
  rw [this]
  decide +kernel

/-- Rounding makes `pdt` return partitions that do not belong to the principal sequence, even for graphs whose edges all
have weight 1: in `double` arithmetic one critical value is computed in two ways, the results differ in the last digit,
and the run reports both, with a partition between them. Without rounding the run is right. -/
theorem C66_pdt_violated : ∃ n E, ValidInput n E ∧ 2 ≤ n ∧ (∀ e ∈ E, e.cap = 1) ∧
    (∃ r, (makeDgraph lemonEps n E >>= pdtRun bruteWarm lemonEps) = .ok r ∧
      IsPrincipalSequence E (Finset.range n) r.psp r.cv) ∧
    ∃ r, (makeDgraph lemonEps n E >>= pdtRunF roundDouble List.reverse List.reverse (roundedWarm 53) lemonEps) =
      .ok r ∧ r.cv = [1, 1 + 1 / 2 ^ 51, roundDouble (5 / 3) - 1 / 2 ^ 52] ∧
      ∀ cv, ¬ IsPrincipalSequence E (Finset.range n) r.psp cv := by
  have hv : ValidInput 6 pdtRoundArcs := by decide +kernel
  have hex := C03_pdt bruteWarm_minimal hv (by norm_num) (integer_weights_pdt (by norm_num) pdtRoundArcs_integer)
  have hrun : (makeDgraph lemonEps 6 pdtRoundArcs >>=
      pdtRunF roundDouble List.reverse List.reverse (roundedWarm 53) lemonEps) =
      .ok ⟨[{{0, 1, 2, 3, 4, 5}}, {{0, 2, 3, 4, 5}, {1}}, {{0, 2, 3, 4}, {1}, {5}}, {{0}, {1}, {2}, {3}, {4}, {5}}],
        [1, 1 + 1 / 2 ^ 51, roundDouble (5 / 3) - 1 / 2 ^ 52]⟩ := by
    rw [roundedWarm_scan]
    decide +kernel
  refine ⟨6, pdtRoundArcs, hv, by norm_num, pdtRoundArcs_unit, hex, _, hrun, rfl, fun cv h => ?_⟩
  obtain ⟨r, h1, h2⟩ := hex
  rw [pdtRoundArcs_exact] at h1
  cases h1
  have := (h.eq hv.nonneg h2).1
  revert this
  decide

end PSP.Props
