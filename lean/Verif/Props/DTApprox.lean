import Verif.Theory.DTApprox
import Verif.Props.PDTApprox

/-!
# Properties: the error of `dt` (C70)

C63 states that `dt` in floating-point arithmetic is right for integer weights. For arbitrary weights, sums of weights are
rounded, decisions of the recursion can be wrong, and the sorted list of critical values need not belong to the sorted
list of partitions. Nevertheless, the result is close to the principal sequence.
-/

namespace PSP.Props

open PSP.Spec PSP.Model PSP.Theory

/-- The tolerance `eps` exceeds the rounding errors: `n` nodes, weights of total at most `W`, `p` binary digits, solver
error `δ`. -/
structure DtRoundingFine (p n : ℕ) (E : List Arc) (W δ eps : ℚ) : Prop where
  total : (E.map (·.cap)).sum ≤ W
  one : 1 ≤ W
  solver : 0 ≤ δ
  pos : 0 < eps
  below : 9 * n ^ 2 * δ + 220 * n ^ 3 * W / 2 ^ p ≤ eps
  above : eps ≤ 1

theorem input_totalCap {n : ℕ} {E : List Arc} (hv : ValidInput n E) {eps W : ℚ} (h : (E.map (·.cap)).sum ≤ W) :
    totalCap (inputGraph eps n E).arcs ≤ W :=
  (filter_total hv.nonneg eps).trans h

theorem DtRoundingFine.setup {p n : ℕ} {E : List Arc} {W δ eps : ℚ} (hf : DtRoundingFine p n E W δ eps) {fl : ℚ → ℚ}
    (hfl : FloatingPoint p fl) {S : FlowSolver} (hS : S.Approx δ (7 * W) n) {ord : Partition → List CSet}
    (hord : Enumerates ord) {ao : List Arc → List Arc} (hao : ∀ l, (ao l).Perm l) (hv : ValidInput n E) (hn : 2 ≤ n) :
    DSetup S fl ao ord (inputGraph eps n E) n (2 ^ p)⁻¹ (2 ^ p) δ W (δ + 20 * n * (2 ^ p)⁻¹ * W) eps := by
  have hnq : (2 : ℚ) ≤ n := by exact_mod_cast hn
  have hW := hf.one
  have hδ := hf.solver
  have hu : (0 : ℚ) < (2 ^ p)⁻¹ := by positivity
  have hb : 9 * (n * n * δ) + 220 * (n * n * n * (2 ^ p)⁻¹ * W) ≤ eps := by
    have := hf.below
    have e : 220 * (n * n * n * (2 ^ p)⁻¹ * W) = 220 * (n : ℚ) ^ 3 * W / 2 ^ p := by field_simp
    rw [e]; linarith
  have ha := hf.above
  have h1 : 0 ≤ n * n * (2 ^ p)⁻¹ * W := by positivity
  have h2 : 2 * (n * n * (2 ^ p)⁻¹ * W) ≤ n * n * n * (2 ^ p)⁻¹ * W := by
    have := mul_le_mul_of_nonneg_right hnq h1
    linarith
  have h3 : 0 ≤ n * δ := by positivity
  have h4 : 2 * (n * δ) ≤ n * n * δ := by
    have := mul_le_mul_of_nonneg_right hnq h3
    linarith
  exact
    { small := ⟨FloatingPoint.rounds hfl, hS, hδ, hW, input_totalCap hv hf.total, by omega, rfl, by
        have e : n * (δ + 20 * n * (2 ^ p)⁻¹ * W) = n * δ + 20 * (n * n * (2 ^ p)⁻¹ * W) := by ring
        rw [e]; linarith⟩
      good := inputGraph_good hv
      len := (List.length_filter_le _ _).trans (input_length hv)
      two := hn
      ord := hord
      perm := hao
      pos := hf.pos
      le := ha.trans hW
      fine := by linarith
      below := hb }

/-- **C70.** For all weights, `dt` in floating-point arithmetic ends normally with a sequence of ever finer partitions
from the coarsest to the finest, each optimal up to `2 eps` (and the weights that are discarded because they do not exceed
`eps`) between its neighbouring critical values as reported. -/
theorem C70_dt_approx {p n : ℕ} {fl : ℚ → ℚ} (hfl : FloatingPoint p fl) {S : FlowSolver} {E : List Arc}
    {W δ eps : ℚ} (hS : S.Approx δ (7 * W) n) {ord : Partition → List CSet} (hord : Enumerates ord)
    {ao : List Arc → List Arc} (hao : ∀ l, (ao l).Perm l) (hv : ValidInput n E) (hn : 2 ≤ n)
    (hf : DtRoundingFine p n E W δ eps) :
    ∃ r, (makeDgraph eps n E >>= dtRunF fl ao ord S eps) = .ok r ∧
      IsApproximateSequence E (Finset.range n) (2 * eps + E.length * eps) r.psp r.cv := by
  obtain ⟨r, h1, h2⟩ := dtRunF_near (hf.setup hfl hS hord hao hv hn)
  exact ⟨r, by rw [makeDgraph_valid hv, Outcome.ok_bind, h1], approx_input hf.pos.le hv.nonneg h2⟩

/-- If every weight exceeds `eps`, the error does not depend on the size of the graph. -/
theorem C70_dt_approx_large {p n : ℕ} {fl : ℚ → ℚ} (hfl : FloatingPoint p fl) {S : FlowSolver} {E : List Arc}
    {W δ eps : ℚ} (hS : S.Approx δ (7 * W) n) {ord : Partition → List CSet} (hord : Enumerates ord)
    {ao : List Arc → List Arc} (hao : ∀ l, (ao l).Perm l) (hv : ValidInput n E) (hn : 2 ≤ n)
    (hf : DtRoundingFine p n E W δ eps) (hE : ∀ e ∈ E, eps < e.cap) :
    ∃ r, (makeDgraph eps n E >>= dtRunF fl ao ord S eps) = .ok r ∧
      IsApproximateSequence E (Finset.range n) (2 * eps) r.psp r.cv := by
  obtain ⟨r, h1, h2⟩ := dtRunF_near (hf.setup hfl hS hord hao hv hn)
  refine ⟨r, by rw [makeDgraph_valid hv, Outcome.ok_bind, h1], ?_⟩
  have : (inputGraph eps n E).arcs = E := List.filter_eq_self.2 fun e he => by simpa using hE e he
  rwa [this] at h2

/-- If the weights are multiples of `u`, and `u` is large compared with the tolerance, the partitions are exactly optimal:
they form a weak principal sequence, whose critical values differ from the reported ones by at most the error. If no optimal
partition lies strictly between others, it is the principal sequence. -/
theorem C70_dt_weak {p n : ℕ} {fl : ℚ → ℚ} (hfl : FloatingPoint p fl) {S : FlowSolver} {E : List Arc}
    {W δ eps : ℚ} (hS : S.Approx δ (7 * W) n) {ord : Partition → List CSet} (hord : Enumerates ord)
    {ao : List Arc → List Arc} (hao : ∀ l, (ao l).Perm l) (hv : ValidInput n E) (hn : 2 ≤ n)
    (hf : DtRoundingFine p n E W δ eps) {u : ℚ} (hu : 0 < u) (hE : ∀ e ∈ E, ∃ k : ℤ, e.cap = k * u)
    (hfu : n * (n - 1) * (2 * eps + E.length * eps) < u) :
    ∃ r, ∃ cv : List ℚ, (makeDgraph eps n E >>= dtRunF fl ao ord S eps) = .ok r ∧
      IsWeakPrincipalSequence E (Finset.range n) r.psp cv ∧
      List.Forall₂ (fun c c' => |c - c'| ≤ 2 * eps + E.length * eps) r.cv cv ∧
      (NoBetween E (Finset.range n) → IsPrincipalSequence E (Finset.range n) r.psp cv) := by
  obtain ⟨r, h1, h2⟩ := C70_dt_approx hfl hS hord hao hv hn hf
  obtain ⟨cv, h3, h4⟩ := approx_weak hu hE hv.nonneg (ValidInput.within hv) ⟨0, by simp; omega⟩
    (by rw [Finset.card_range]; exact hfu) h2
  exact ⟨r, cv, h1, h3, h4, fun hnb => h3.of_noBetween hv.nonneg hnb⟩

/-! ### exact arithmetic -/

theorem rounds_id : Rounds id 0 1 where
  nonneg := le_rfl
  one_le := le_rfl
  rel' x _ := by simp
  int k _ := rfl
  mono := monotone_id

/-- With exact arithmetic, for all weights and every tolerance `eps > 0`: the error that the tolerance causes. -/
theorem C70_dt_exact {n : ℕ} {S : FlowSolver} {E : List Arc} {eps : ℚ} (hS : S.Correct) (hv : ValidInput n E)
    (hn : 2 ≤ n) (heps : 0 < eps) :
    ∃ r, (makeDgraph eps n E >>= dtRun S eps) = .ok r ∧
      IsApproximateSequence E (Finset.range n) (2 * eps + E.length * eps) r.psp r.cv := by
  have hT : 0 ≤ (E.map (·.cap)).sum := List.sum_nonneg (by
    intro x hx
    obtain ⟨a, ha, rfl⟩ := List.mem_map.1 hx
    exact hv.nonneg a ha)
  have hs : DSetup S id id (fun P => P.toList) (inputGraph eps n E) n 0 1 0 ((E.map (·.cap)).sum + 1 + eps) 0 eps :=
    { small := ⟨rounds_id, correct_approx hS _ n, le_rfl, by linarith, input_totalCap hv (by linarith), by omega,
        by simp, by simp⟩
      good := inputGraph_good hv
      len := (List.length_filter_le _ _).trans (input_length hv)
      two := hn
      ord := fun P => ⟨P.nodup_toList, P.toList_toFinset⟩
      perm := fun l => List.Perm.refl _
      pos := heps
      le := by linarith
      fine := by simp
      below := by simpa using heps.le }
  obtain ⟨r, h1, h2⟩ := dtRunF_near hs
  rw [C63_exact (ao := id) (ord := fun P => P.toList) S eps hs.ord hs.perm] at h1
  exact ⟨r, by rw [makeDgraph_valid hv, Outcome.ok_bind, h1], approx_input heps.le hv.nonneg h2⟩

/-! ### examples -/

theorem fractionArcs_valid : ValidInput 4 fractionArcs := by decide +kernel

theorem fractionArcs_dtRounding : DtRoundingFine 53 4 fractionArcs 2 (2 ^ 53)⁻¹ lemonEps where
  total := by decide +kernel
  one := by norm_num
  solver := by positivity
  pos := by norm_num [lemonEps]
  below := by norm_num [lemonEps]
  above := by norm_num [lemonEps]

theorem fractionArcs_grid : ∀ e ∈ fractionArcs, ∃ k : ℤ, e.cap = k * (1 / 210) := by
  intro e he
  simp only [fractionArcs, List.mem_cons, List.not_mem_nil, or_false] at he
  rcases he with rfl | rfl | rfl | rfl
  · exact ⟨70, by norm_num⟩
  · exact ⟨60, by norm_num⟩
  · exact ⟨21, by norm_num⟩
  · exact ⟨70, by norm_num⟩

/-- Weights that are no `double` values, a solver that is wrong by up to `2 ^ -53`. -/
example := C70_dt_weak roundDouble_spec (offSolver_approx (by positivity) _ _) exOrd_enumerates
  (fun l => List.reverse_perm l) fractionArcs_valid (by norm_num) fractionArcs_dtRounding (u := 1 / 210) (by norm_num)
  fractionArcs_grid (by norm_num [fractionArcs, lemonEps])

example := C70_dt_approx_large roundDouble_spec (offSolver_approx (by positivity) _ _)
  exOrd_enumerates (fun l => List.reverse_perm l) fractionArcs_valid (by norm_num) fractionArcs_dtRounding
  (by intro e he
      simp only [fractionArcs, List.mem_cons, List.not_mem_nil, or_false] at he
      rcases he with rfl | rfl | rfl | rfl <;> norm_num [lemonEps])

example := C70_dt_exact (S := bruteSolver) bruteSolver_minimal.toCorrect fractionArcs_valid (by norm_num) (eps := 3)
  (by norm_num)

end PSP.Props
