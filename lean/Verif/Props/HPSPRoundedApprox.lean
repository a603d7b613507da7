import Verif.Theory.HPSPRounded
import Verif.Props.PSPIRoundedApprox

/-!
# Properties: `hpsp` in floating-point arithmetic, for all weights (C73)

C65 states for integer weights that the critical values of `hpsp` in floating-point arithmetic are right, though its
partitions can be wrong. For arbitrary weights the critical values are right up to a small error. The partitions are wrong
already for a tree with four edges.
-/

namespace PSP.Props

open PSP.Spec PSP.Model PSP.Theory

/-- The error caused by rounding and by the solver. -/
def hpspError (p n : ℕ) (W δ : ℚ) : ℚ := 21 * n ^ 4 * δ + 490 * n ^ 5 * W / 2 ^ p

/-- What `psp_i` and `hpsp` return, from the same graph. -/
theorem PspiRoundingFine.runH {p n : ℕ} {E : List Arc} {W δ eps : ℚ} (hf : PspiRoundingFine p n E W δ eps) {fl : ℚ → ℚ}
    (hfl : FloatingPoint p fl) (hex : eps ≤ fl eps) {S : FlowSolver} (hS : S.Approx δ (7 * W) n)
    {ord : Partition → List CSet} (hord : Enumerates ord) {ao : List Arc → List Arc} (hao : ∀ l, (ao l).Perm l)
    (hv : ValidInput n E) (hn : 2 ≤ n) :
    ∃ g' ri rh, (makeDgraph eps n E >>= pspiRunF fl ao S eps ord) = .ok (g', ri) ∧
      (makeDgraph eps n E >>= hpspRunF fl ao S eps ord) = .ok (g', rh) ∧
      rh.psp.length = rh.cv.length + 1 ∧ rh.psp.getLast? = some (makeFine n) ∧ rh.cv.Pairwise (· < ·) ∧
      (∀ c ∈ rh.cv, c ∈ ri.cv) ∧
      (∀ c ∈ ri.cv, c ∉ rh.cv → (∀ d ∈ ri.cv, c ≤ d) ∧
        ∃ d ∈ rh.cv, d ≤ c + (6 * n ^ 3 * δ + 140 * n ^ 4 * W / 2 ^ p)) ∧
      ((n * (n + 1) ^ 2 + 1) * (3 * n * δ + 70 * n ^ 2 * W / 2 ^ p) ≤ eps → ∀ c ∈ ri.cv, c ∈ rh.cv) ∧
      ∃ Ps, IsApproximateSequence (inputGraph eps n E).arcs (Finset.range n) ((n - 1) * eps + hpspError p n W δ) Ps
        rh.cv := by
  have hW := hf.one
  have hδ := hf.solver
  have hg := inputGraph_good (ε := eps) hv
  have hT : totalCap (inputGraph eps n E).arcs ≤ W / 2 := input_totalCap hv (by have := hf.total; linarith)
  obtain ⟨g', ri, rh, h1, h2, h3, h4, h5, h6, h7, h8, Ps, h9⟩ := hpspRunF_near (u := (2 ^ p)⁻¹) (M := 2 ^ p) (δ := δ) (W := W)
    (e := δ + 20 * n * (2 ^ p)⁻¹ * W) (w := n * n * (2 ^ p)⁻¹ * W) (y := 3 * n * δ + 70 * (n * n * (2 ^ p)⁻¹ * W))
    (τ := (n + 1) * (3 * n * δ + 70 * (n * n * (2 ^ p)⁻¹ * W))) hn hg (inputGraph_low (eps := eps) (n := n) (E := E))
    { small := ⟨FloatingPoint.rounds hfl, hS, hδ, hW, by linarith, by omega, rfl, by
        have := hf.small
        have e : n * (δ + 20 * n * (2 ^ p)⁻¹ * W) = n * δ + 20 * (n : ℚ) ^ 2 * W / 2 ^ p := by field_simp
        rw [e]; exact this⟩
      half := by linarith
      nonneg := hg.good.nonneg
      within := hg.good.within
      card := by simp
      perm := hao
      ord := hord
      pos := hf.pos
      low := by rw [inv_eq_one_div]; exact hf.low
      le := hf.above
      exact := hex
      w_eq := rfl
      y_eq := rfl
      τ_eq := rfl }
  refine ⟨g', ri, rh, by rw [makeDgraph_valid hv, Outcome.ok_bind, h1], by rw [makeDgraph_valid hv, Outcome.ok_bind, h2],
    h3, h4, h5, h6, fun c hc hc' => ?_, fun h => h8 ?_, Ps, ?_⟩
  · obtain ⟨h, d, hd, hd'⟩ := h7 c hc hc'
    refine ⟨h, d, hd, hd'.trans (le_of_eq ?_)⟩
    field_simp
    ring
  · refine le_trans (le_of_eq ?_) h
    field_simp
  · have e : ((n : ℚ) - 1) * eps + 7 * n ^ 3 * (3 * n * δ + 70 * (n * n * (2 ^ p)⁻¹ * W)) =
        (n - 1) * eps + hpspError p n W δ := by
      unfold hpspError
      field_simp
      ring
    rwa [e] at h9

/-- **C73**, except for the partitions, which can be wrong (`C73_partitions_violated`): for all weights, `hpsp` in
floating-point arithmetic ends normally. Its critical values are in strictly increasing order, there is one partition more
than critical values, the last one is the finest, and there are partitions with which the critical values form a sequence
whose members are optimal up to `(n - 1) eps`, the weights that are discarded because they do not exceed `eps`, and a small
error between their neighbouring critical values. -/
theorem C73_hpsp_values_partial {p n : ℕ} {fl : ℚ → ℚ} (hfl : FloatingPoint p fl) {S : FlowSolver} {E : List Arc}
    {W δ eps : ℚ} (hex : eps ≤ fl eps) (hS : S.Approx δ (7 * W) n) {ord : Partition → List CSet} (hord : Enumerates ord)
    {ao : List Arc → List Arc} (hao : ∀ l, (ao l).Perm l) (hv : ValidInput n E) (hn : 2 ≤ n)
    (hf : PspiRoundingFine p n E W δ eps) :
    ∃ g' r, (makeDgraph eps n E >>= hpspRunF fl ao S eps ord) = .ok (g', r) ∧
      r.cv.Pairwise (· < ·) ∧ r.psp.length = r.cv.length + 1 ∧ r.psp.getLast? = some (singletons (Finset.range n)) ∧
      ∃ Ps, IsApproximateSequence E (Finset.range n) ((n - 1) * eps + hpspError p n W δ + E.length * eps) Ps r.cv := by
  obtain ⟨g', ri, rh, -, h2, h3, h4, h5, -, -, -, Ps, h9⟩ := hf.runH hfl hex hS hord hao hv hn
  exact ⟨g', rh, h2, h5, h3, by rw [h4, makeFine_eq], Ps, approx_input hf.pos.le hv.nonneg h9⟩

/-- If every weight exceeds `eps`, nothing is discarded. -/
theorem C73_hpsp_values_large_partial {p n : ℕ} {fl : ℚ → ℚ} (hfl : FloatingPoint p fl) {S : FlowSolver} {E : List Arc}
    {W δ eps : ℚ} (hex : eps ≤ fl eps) (hS : S.Approx δ (7 * W) n) {ord : Partition → List CSet} (hord : Enumerates ord)
    {ao : List Arc → List Arc} (hao : ∀ l, (ao l).Perm l) (hv : ValidInput n E) (hn : 2 ≤ n)
    (hf : PspiRoundingFine p n E W δ eps) (hE : ∀ e ∈ E, eps < e.cap) :
    ∃ g' r, (makeDgraph eps n E >>= hpspRunF fl ao S eps ord) = .ok (g', r) ∧
      r.cv.Pairwise (· < ·) ∧ r.psp.length = r.cv.length + 1 ∧ r.psp.getLast? = some (singletons (Finset.range n)) ∧
      ∃ Ps, IsApproximateSequence E (Finset.range n) ((n - 1) * eps + hpspError p n W δ) Ps r.cv := by
  obtain ⟨g', ri, rh, -, h2, h3, h4, h5, -, -, -, Ps, h9⟩ := hf.runH hfl hex hS hord hao hv hn
  refine ⟨g', rh, h2, h5, h3, by rw [h4, makeFine_eq], Ps, ?_⟩
  have : (inputGraph eps n E).arcs = E := List.filter_eq_self.2 fun e he => by simpa using hE e he
  rwa [this] at h9

/-- If the weights are multiples of `u`, and `u` is large compared with the error, then every critical value that `hpsp`
reports is close to a critical parameter of the graph, and every critical parameter is close to a value it reports. -/
theorem C73_hpsp_critical {p n : ℕ} {fl : ℚ → ℚ} (hfl : FloatingPoint p fl) {S : FlowSolver} {E : List Arc}
    {W δ eps : ℚ} (hex : eps ≤ fl eps) (hS : S.Approx δ (7 * W) n) {ord : Partition → List CSet} (hord : Enumerates ord)
    {ao : List Arc → List Arc} (hao : ∀ l, (ao l).Perm l) (hv : ValidInput n E) (hn : 2 ≤ n)
    (hf : PspiRoundingFine p n E W δ eps) {u : ℚ} (hu : 0 < u) (hE : ∀ e ∈ E, ∃ k : ℤ, e.cap = k * u)
    (hfu : n * (n - 1) * ((n - 1) * eps + hpspError p n W δ + E.length * eps) < u) :
    ∃ g' r, (makeDgraph eps n E >>= hpspRunF fl ao S eps ord) = .ok (g', r) ∧
      (∀ c ∈ r.cv, ∃ lam, IsCritical E (Finset.range n) lam ∧
        |c - lam| ≤ (n - 1) * eps + hpspError p n W δ + E.length * eps) ∧
      ∀ lam, IsCritical E (Finset.range n) lam → ∃ c ∈ r.cv,
        |c - lam| ≤ (n - 1) * eps + hpspError p n W δ + E.length * eps := by
  obtain ⟨g', r, h1, -, -, -, Ps, h2⟩ := C73_hpsp_values_partial hfl hex hS hord hao hv hn hf
  obtain ⟨cv, h4, h5⟩ := approx_weak hu hE hv.nonneg (ValidInput.within hv) ⟨0, by simp; omega⟩
    (by rw [Finset.card_range]; exact hfu) h2
  have hl := h5.length_eq
  refine ⟨g', r, h1, fun c hc => ?_, fun lam hlam => ?_⟩
  · obtain ⟨i, hi, rfl⟩ := List.mem_iff_getElem.1 hc
    have := (List.forall₂_iff_get.1 h5).2 i hi (by omega)
    exact ⟨cv[i], (h4.mem_iff hv.nonneg _).1 (List.getElem_mem _), this⟩
  · obtain ⟨i, hi, rfl⟩ := List.mem_iff_getElem.1 ((h4.mem_iff hv.nonneg lam).2 hlam)
    have := (List.forall₂_iff_get.1 h5).2 i (by omega) hi
    exact ⟨r.cv[i], List.getElem_mem _, this⟩

/-- `hpsp` reports only critical values that `psp_i` reports for the same graph, and all of them if the error of the
arithmetic is smaller than `eps`. Otherwise it can miss only the least one of `psp_i`, and then reports one that is close. -/
theorem C73_hpsp_pspi {p n : ℕ} {fl : ℚ → ℚ} (hfl : FloatingPoint p fl) {S : FlowSolver} {E : List Arc}
    {W δ eps : ℚ} (hex : eps ≤ fl eps) (hS : S.Approx δ (7 * W) n) {ord : Partition → List CSet} (hord : Enumerates ord)
    {ao : List Arc → List Arc} (hao : ∀ l, (ao l).Perm l) (hv : ValidInput n E) (hn : 2 ≤ n)
    (hf : PspiRoundingFine p n E W δ eps) :
    ∃ g' ri rh, (makeDgraph eps n E >>= pspiRunF fl ao S eps ord) = .ok (g', ri) ∧
      (makeDgraph eps n E >>= hpspRunF fl ao S eps ord) = .ok (g', rh) ∧ (∀ c ∈ rh.cv, c ∈ ri.cv) ∧
      (∀ c ∈ ri.cv, c ∉ rh.cv → (∀ d ∈ ri.cv, c ≤ d) ∧
        ∃ d ∈ rh.cv, d ≤ c + (6 * n ^ 3 * δ + 140 * n ^ 4 * W / 2 ^ p)) ∧
      ((n * (n + 1) ^ 2 + 1) * (3 * n * δ + 70 * n ^ 2 * W / 2 ^ p) ≤ eps → ∀ c ∈ ri.cv, c ∈ rh.cv) := by
  obtain ⟨g', ri, rh, h1, h2, -, -, -, h6, h7, h8, -⟩ := hf.runH hfl hex hS hord hao hv hn
  exact ⟨g', ri, rh, h1, h2, h6, h7, h8⟩

/-! ### the partitions can be wrong -/

/-- A tree with the weights `0.1`, `0.2` and `0.3`. -/
def treeArcs : List Arc := [⟨0, 1, tenth 2⟩, ⟨1, 3, tenth 2⟩, ⟨1, 4, tenth 3⟩, ⟨2, 3, tenth 1⟩]

theorem treeArcs_pspiRounding : PspiRoundingFine 53 5 treeArcs 2 (2 ^ 53)⁻¹ lemonEps where
  total := by decide +kernel
  one := by norm_num
  solver := by positivity
  low := by norm_num [lemonEps]
  above := by norm_num [lemonEps]
  small := by norm_num

theorem treeArcs_run : (makeDgraph lemonEps 5 treeArcs >>= fun g =>
      hpspRunF roundDouble lemonOrder (roundedSolver 53) lemonEps exOrd g >>= fun r => pure r.2) =
    .ok ⟨[{{1, 3}, {0, 1, 2, 4}}, {{2}, {1, 3}, {0, 1, 4}}, {{0}, {2}, {3}, {1, 4}}, {{0}, {1}, {2}, {3}, {4}}],
      [tenth 1, tenth 2, tenth 3]⟩ := by
  rw [roundedSolver_scan]
  decide +kernel

/-- **C73** fails for the partitions: in `double` arithmetic, with a flow solver that reports minimal cuts and rounds only
the value, `hpsp` returns overlapping blocks for a tree with four edges and the weights `0.1`, `0.2` and `0.3`. -/
theorem C73_partitions_violated : ∃ n E, ValidInput n E ∧ 2 ≤ n ∧ PspiRoundingFine 53 n E 2 (2 ^ 53)⁻¹ lemonEps ∧
    ∃ g' r, (makeDgraph lemonEps n E >>= hpspRunF roundDouble lemonOrder (roundedSolver 53) lemonEps exOrd) =
      .ok (g', r) ∧ ∃ P ∈ r.psp, ¬ IsPartition (Finset.range n) P := by
  have h := treeArcs_run
  rw [← Outcome.bind_assoc] at h
  obtain ⟨⟨g', r⟩, hx, hx'⟩ := Outcome.bind_eq_ok h
  cases hx'
  refine ⟨5, treeArcs, by decide +kernel, by norm_num, treeArcs_pspiRounding, g', _, hx, {{1, 3}, {0, 1, 2, 4}}, by simp, ?_⟩
  intro h
  have := h.eq_of_mem (B := {1, 3}) (C := {0, 1, 2, 4}) (v := 1) (by simp) (by simp) (by simp) (by simp)
  revert this
  decide

/-! ### examples -/

/-- Weights that are no `double` values, a solver that is wrong by up to `2 ^ -53`. -/
example := C73_hpsp_values_large_partial roundDouble_spec lemonEps_le_round
  (offSolver_approx (by positivity) _ _) exOrd_enumerates (fun l => List.reverse_perm l) fractionArcs_valid (by norm_num)
  fractionArcs_pspiRounding
  (by intro e he
      simp only [fractionArcs, List.mem_cons, List.not_mem_nil, or_false] at he
      rcases he with rfl | rfl | rfl | rfl <;> norm_num [lemonEps])

example := C73_hpsp_critical roundDouble_spec lemonEps_le_round
  (offSolver_approx (by positivity) _ _) exOrd_enumerates (fun l => List.reverse_perm l) fractionArcs_valid (by norm_num)
  fractionArcs_pspiRounding (u := 1 / 210) (by norm_num) fractionArcs_grid
  (by norm_num [fractionArcs, lemonEps, hpspError])

/-- The tree for which the partitions are wrong: the critical values are right, and are those of `psp_i`. -/
example := C73_hpsp_values_partial roundDouble_spec lemonEps_le_round
  (offSolver_approx (by positivity) _ _) exOrd_enumerates lemonOrder_perm (by decide +kernel) (by norm_num)
  treeArcs_pspiRounding

example := C73_hpsp_pspi roundDouble_spec lemonEps_le_round
  (offSolver_approx (by positivity) _ _) exOrd_enumerates lemonOrder_perm (by decide +kernel) (by norm_num)
  treeArcs_pspiRounding

/-- The error of the arithmetic is smaller than `eps`. -/
example : ((5 : ℚ) * (5 + 1) ^ 2 + 1) * (3 * 5 * (2 ^ 53)⁻¹ + 70 * 5 ^ 2 * 2 / 2 ^ 53) ≤ lemonEps := by norm_num [lemonEps]

end PSP.Props
