import Verif.Props.PDTApprox

/-!
# Properties: the exception of `pdt` (C66)

`PMF::slice` throws "lambda value mismatch" when the parameter it computes lies outside the interval in which it has to
lie (pmf.cpp:209-213). With exact arithmetic this never happens (C67).
-/

namespace PSP.Props

open PSP.Spec PSP.Model PSP.Theory

/-- Five edges whose weights are `double` values between 1.5 and 1.82. -/
def mismatchArcs : List Arc :=
  [⟨4, 5, 6755399441506100 / 2 ^ 52⟩, ⟨3, 5, 7036874418216755 / 2 ^ 52⟩, ⟨2, 5, 8162774325509755 / 2 ^ 52⟩,
    ⟨0, 5, 7318349394927418 / 2 ^ 52⟩, ⟨0, 1, 7318349394477056 / 2 ^ 52⟩]

theorem mismatchArcs_valid : ValidInput 6 mismatchArcs := by decide +kernel

theorem mismatchArcs_rounding : PdtRoundingFine 53 6 mismatchArcs 9 (2 ^ 53)⁻¹ lemonEps where
  total := by decide +kernel
  solver := by positivity
  pos := by norm_num [lemonEps]
  below := by norm_num [lemonEps]
  above := errorFactor_lemon (by norm_num)

/-- The exception can occur in `double` arithmetic, although the tolerance is LEMON's and all rounding errors together stay
below it. Two critical values differ by almost exactly the tolerance. `compute_lambda` takes the lower one for the upper
one, because a rounded difference of cut values does not exceed the tolerance; then the test at pmf.cpp:204 finds that the
two differ by more than the tolerance. With exact arithmetic the run ends normally. -/
theorem C66_exception_violated : ∃ n E W, ValidInput n E ∧ (∀ e ∈ E, roundDouble e.cap = e.cap) ∧
    PdtRoundingFine 53 n E W (2 ^ 53)⁻¹ lemonEps ∧
    (makeDgraph lemonEps n E >>= pdtRunF roundDouble List.reverse List.reverse (roundedWarm 53) lemonEps) =
      .exc "lambda value mismatch" ∧
    ∃ r, (makeDgraph lemonEps n E >>= pdtRun bruteWarm lemonEps) = .ok r := by
  refine ⟨6, mismatchArcs, 9, mismatchArcs_valid, by decide +kernel, mismatchArcs_rounding, ?_, ?_⟩
  · rw [roundedWarm_scan]
    decide +kernel
  · obtain ⟨r, h, _⟩ := C67_pdt_approx bruteWarm_minimal (eps := lemonEps) (by norm_num [lemonEps]) mismatchArcs_valid
      (by norm_num) (errorFactor_lemon (by norm_num))
    exact ⟨r, h⟩

end PSP.Props
