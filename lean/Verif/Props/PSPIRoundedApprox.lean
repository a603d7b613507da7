import Verif.Theory.RoundedPSPIApprox
import Verif.Props.PSPIOrder
import Verif.Props.PSPIApprox

/-!
# Properties: the error of `psp_i` in floating-point arithmetic (C72)

C64 states that `psp_i` in floating-point arithmetic is right for integer weights. For arbitrary weights, contracted edges
carry rounded sums, and decisions of the recursion can be wrong. The critical values need not be in increasing order
(`C72_order_violated`). Nevertheless, after sorting them the result is close to the principal sequence, and sorting changes
them little.
-/

namespace PSP.Props

open PSP.Spec PSP.Model PSP.Theory

/-- The sizes: `n` nodes, weights of total at most `W / 2`, `p` binary digits, solver error `δ`, tolerance `eps`. -/
structure PspiRoundingFine (p n : ℕ) (E : List Arc) (W δ eps : ℚ) : Prop where
  total : 2 * (E.map (·.cap)).sum ≤ W
  one : 1 ≤ W
  solver : 0 ≤ δ
  low : 1 / 2 ^ p ≤ eps
  above : eps ≤ W
  small : n * δ + 20 * n ^ 2 * W / 2 ^ p ≤ 1

theorem PspiRoundingFine.pos {p n : ℕ} {E : List Arc} {W δ eps : ℚ} (hf : PspiRoundingFine p n E W δ eps) : 0 < eps :=
  lt_of_lt_of_le (by positivity) hf.low

/-- The error caused by rounding and by the solver. -/
def pspiError (p n : ℕ) (W δ : ℚ) : ℚ := 15 * n ^ 4 * δ + 350 * n ^ 5 * W / 2 ^ p

theorem PspiRoundingFine.run {p n : ℕ} {E : List Arc} {W δ eps : ℚ} (hf : PspiRoundingFine p n E W δ eps) {fl : ℚ → ℚ}
    (hfl : FloatingPoint p fl) (hex : eps ≤ fl eps) {S : FlowSolver} (hS : S.Approx δ (7 * W) n)
    {ord : Partition → List CSet} (hord : Enumerates ord) {ao : List Arc → List Arc} (hao : ∀ l, (ao l).Perm l)
    (hv : ValidInput n E) (hn : 2 ≤ n) :
    ∃ g' r, (makeDgraph eps n E >>= pspiRunF fl ao S eps ord) = .ok (g', r) ∧
      IsApproximateSequence (inputGraph eps n E).arcs (Finset.range n) ((n - 1) * eps + pspiError p n W δ) r.psp
        (r.cv.insertionSort (· ≤ ·)) ∧
      List.Forall₂ (fun x y => |x - y| ≤ 9 * n ^ 3 * δ + 210 * n ^ 4 * W / 2 ^ p) r.cv
        (r.cv.insertionSort (· ≤ ·)) := by
  have hW := hf.one
  have hδ := hf.solver
  have hg := inputGraph_good (ε := eps) hv
  have hT : totalCap (inputGraph eps n E).arcs ≤ W / 2 := input_totalCap hv (by have := hf.total; linarith)
  obtain ⟨g', r, h1, h2, h3⟩ := pspiRunF_near (u := (2 ^ p)⁻¹) (M := 2 ^ p) (δ := δ) (W := W)
    (e := δ + 20 * n * (2 ^ p)⁻¹ * W) (w := n * n * (2 ^ p)⁻¹ * W) (y := 3 * n * δ + 70 * (n * n * (2 ^ p)⁻¹ * W))
    (τ := (n + 1) * (3 * n * δ + 70 * (n * n * (2 ^ p)⁻¹ * W))) hn hg (inputGraph_low (eps := eps) (n := n) (E := E))
    { small := ⟨FloatingPoint.rounds hfl, hS, hδ, hW, by linarith, by omega, rfl, by
        have := hf.small
        have e : n * (δ + 20 * n * (2 ^ p)⁻¹ * W) = n * δ + 20 * (n : ℚ) ^ 2 * W / 2 ^ p := by field_simp
        rw [e]; exact this⟩
      half := by linarith
      nonneg := hg.good.nonneg
      within := hg.good.within
      card := by simp
      perm := hao
      ord := hord
      pos := hf.pos
      low := by rw [inv_eq_one_div]; exact hf.low
      le := hf.above
      exact := hex
      w_eq := rfl
      y_eq := rfl
      τ_eq := rfl }
  refine ⟨g', r, by rw [makeDgraph_valid hv, Outcome.ok_bind, h1], ?_, ?_⟩
  · have e : ((n : ℚ) - 1) * eps + 5 * n ^ 3 * (3 * n * δ + 70 * (n * n * (2 ^ p)⁻¹ * W)) =
        (n - 1) * eps + pspiError p n W δ := by
      unfold pspiError
      field_simp
      ring
    rwa [e] at h2
  · have e : 3 * (n : ℚ) ^ 2 * (3 * n * δ + 70 * (n * n * (2 ^ p)⁻¹ * W)) =
        9 * n ^ 3 * δ + 210 * n ^ 4 * W / 2 ^ p := by
      field_simp
      ring
    rwa [e] at h3

/-- **C72**, except for the order of the critical values, which can be wrong (`C72_order_violated`): for all weights, `psp_i`
in floating-point arithmetic ends normally with a sequence of ever finer partitions from the coarsest to the finest. With
the critical values in increasing order, each partition is optimal up to `(n - 1) eps`, the weights that are discarded
because they do not exceed `eps`, and a small error between its neighbouring critical values. Every reported critical value
differs little from the one that replaces it when they are sorted. -/
theorem C72_pspi_approx_partial {p n : ℕ} {fl : ℚ → ℚ} (hfl : FloatingPoint p fl) {S : FlowSolver} {E : List Arc}
    {W δ eps : ℚ} (hex : eps ≤ fl eps) (hS : S.Approx δ (7 * W) n) {ord : Partition → List CSet} (hord : Enumerates ord)
    {ao : List Arc → List Arc} (hao : ∀ l, (ao l).Perm l) (hv : ValidInput n E) (hn : 2 ≤ n)
    (hf : PspiRoundingFine p n E W δ eps) :
    ∃ g' r, (makeDgraph eps n E >>= pspiRunF fl ao S eps ord) = .ok (g', r) ∧
      IsApproximateSequence E (Finset.range n) ((n - 1) * eps + pspiError p n W δ + E.length * eps) r.psp
        (r.cv.insertionSort (· ≤ ·)) ∧
      List.Forall₂ (fun x y => |x - y| ≤ 9 * n ^ 3 * δ + 210 * n ^ 4 * W / 2 ^ p) r.cv
        (r.cv.insertionSort (· ≤ ·)) := by
  obtain ⟨g', r, h1, h2, h3⟩ := hf.run hfl hex hS hord hao hv hn
  exact ⟨g', r, h1, approx_input hf.pos.le hv.nonneg h2, h3⟩

/-- If every weight exceeds `eps`, nothing is discarded. -/
theorem C72_pspi_approx_large_partial {p n : ℕ} {fl : ℚ → ℚ} (hfl : FloatingPoint p fl) {S : FlowSolver} {E : List Arc}
    {W δ eps : ℚ} (hex : eps ≤ fl eps) (hS : S.Approx δ (7 * W) n) {ord : Partition → List CSet} (hord : Enumerates ord)
    {ao : List Arc → List Arc} (hao : ∀ l, (ao l).Perm l) (hv : ValidInput n E) (hn : 2 ≤ n)
    (hf : PspiRoundingFine p n E W δ eps) (hE : ∀ e ∈ E, eps < e.cap) :
    ∃ g' r, (makeDgraph eps n E >>= pspiRunF fl ao S eps ord) = .ok (g', r) ∧
      IsApproximateSequence E (Finset.range n) ((n - 1) * eps + pspiError p n W δ) r.psp
        (r.cv.insertionSort (· ≤ ·)) ∧
      List.Forall₂ (fun x y => |x - y| ≤ 9 * n ^ 3 * δ + 210 * n ^ 4 * W / 2 ^ p) r.cv
        (r.cv.insertionSort (· ≤ ·)) := by
  obtain ⟨g', r, h1, h2, h3⟩ := hf.run hfl hex hS hord hao hv hn
  refine ⟨g', r, h1, ?_, h3⟩
  have : (inputGraph eps n E).arcs = E := List.filter_eq_self.2 fun e he => by simpa using hE e he
  rwa [this] at h2

/-- If the weights are multiples of `u`, and `u` is large compared with the error, the partitions are exactly optimal: they
form a weak principal sequence, whose critical values, in increasing order, differ from the reported ones by at most the
errors. If no optimal partition lies strictly between others, it is the principal sequence. -/
theorem C72_pspi_weak_partial {p n : ℕ} {fl : ℚ → ℚ} (hfl : FloatingPoint p fl) {S : FlowSolver} {E : List Arc}
    {W δ eps : ℚ} (hex : eps ≤ fl eps) (hS : S.Approx δ (7 * W) n) {ord : Partition → List CSet} (hord : Enumerates ord)
    {ao : List Arc → List Arc} (hao : ∀ l, (ao l).Perm l) (hv : ValidInput n E) (hn : 2 ≤ n)
    (hf : PspiRoundingFine p n E W δ eps) {u : ℚ} (hu : 0 < u) (hE : ∀ e ∈ E, ∃ k : ℤ, e.cap = k * u)
    (hfu : n * (n - 1) * ((n - 1) * eps + pspiError p n W δ + E.length * eps) < u) :
    ∃ g' r, ∃ cv : List ℚ, (makeDgraph eps n E >>= pspiRunF fl ao S eps ord) = .ok (g', r) ∧
      IsWeakPrincipalSequence E (Finset.range n) r.psp cv ∧
      List.Forall₂ (fun c c' => |c - c'| ≤ (n - 1) * eps + 2 * pspiError p n W δ + E.length * eps) r.cv cv ∧
      (NoBetween E (Finset.range n) → IsPrincipalSequence E (Finset.range n) r.psp cv) := by
  obtain ⟨g', r, h1, h2, h3⟩ := C72_pspi_approx_partial hfl hex hS hord hao hv hn hf
  obtain ⟨cv, h4, h5⟩ := approx_weak hu hE hv.nonneg (ValidInput.within hv) ⟨0, by simp; omega⟩
    (by rw [Finset.card_range]; exact hfu) h2
  refine ⟨g', r, cv, h1, h4, ?_, fun hnb => h4.of_noBetween hv.nonneg hnb⟩
  have hl1 := h3.length_eq
  have hl2 := h5.length_eq
  refine List.forall₂_iff_get.2 ⟨hl1.trans hl2, fun i a b => ?_⟩
  have d1 := (List.forall₂_iff_get.1 h3).2 i a (by omega)
  have d2 := (List.forall₂_iff_get.1 h5).2 i (by omega) b
  have d3 := (abs_sub_le _ _ _).trans (add_le_add d1 d2)
  refine d3.trans ?_
  have hnq : (2 : ℚ) ≤ n := by exact_mod_cast hn
  have hδ := hf.solver
  have hW : 0 ≤ W := by linarith [hf.one]
  have e1 : 9 * (n : ℚ) ^ 3 * δ ≤ 15 * n ^ 4 * δ := by
    apply mul_le_mul_of_nonneg_right _ hδ
    have : (0 : ℚ) ≤ n ^ 3 := by positivity
    nlinarith
  have e2 : 210 * (n : ℚ) ^ 4 * W / 2 ^ p ≤ 350 * n ^ 5 * W / 2 ^ p := by
    apply div_le_div_of_nonneg_right _ (by positivity)
    apply mul_le_mul_of_nonneg_right _ hW
    have : (0 : ℚ) ≤ n ^ 4 := by positivity
    nlinarith
  unfold pspiError
  linarith

/-! ### examples -/

theorem fractionArcs_pspiRounding : PspiRoundingFine 53 4 fractionArcs 3 (2 ^ 53)⁻¹ lemonEps where
  total := by decide +kernel
  one := by norm_num
  solver := by positivity
  low := by norm_num [lemonEps]
  above := by norm_num [lemonEps]
  small := by norm_num

theorem lemonEps_le_round : lemonEps ≤ roundDouble lemonEps := by decide +kernel

/-- Weights that are no `double` values, a solver that is wrong by up to `2 ^ -53`. -/
example := C72_pspi_approx_large_partial roundDouble_spec lemonEps_le_round
  (offSolver_approx (by positivity) _ _) exOrd_enumerates (fun l => List.reverse_perm l) fractionArcs_valid (by norm_num)
  fractionArcs_pspiRounding
  (by intro e he
      simp only [fractionArcs, List.mem_cons, List.not_mem_nil, or_false] at he
      rcases he with rfl | rfl | rfl | rfl <;> norm_num [lemonEps])

example := C72_pspi_weak_partial roundDouble_spec lemonEps_le_round
  (offSolver_approx (by positivity) _ _) exOrd_enumerates (fun l => List.reverse_perm l) fractionArcs_valid (by norm_num)
  fractionArcs_pspiRounding (u := 1 / 210) (by norm_num) fractionArcs_grid
  (by norm_num [fractionArcs, lemonEps, pspiError])

/-- The graph whose critical values are reported in the wrong order. -/
theorem tenthArcs_pspiRounding : PspiRoundingFine 53 6 tenthArcs 4 (2 ^ 53)⁻¹ lemonEps where
  total := by decide +kernel
  one := by norm_num
  solver := by positivity
  low := by norm_num [lemonEps]
  above := by norm_num [lemonEps]
  small := by norm_num

example := C72_pspi_approx_partial roundDouble_spec lemonEps_le_round
  (offSolver_approx (by positivity) _ _) exOrd_enumerates lemonOrder_perm (by decide +kernel) (by norm_num)
  tenthArcs_pspiRounding

end PSP.Props
