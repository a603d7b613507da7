import Verif.Theory.RoundedPDTFinal
import Verif.Theory.PDTRApprox
import Verif.Theory.PDTRExtra
import Verif.Props.PMFRWarm
import Verif.Props.RoundedPDT

/-!
# Properties: the error of `pdt` (C66, C67)

`pdt` compares parameters with a tolerance. How far can its result be from the principal sequence?
-/

namespace PSP.Props

open PSP.Spec PSP.Model PSP.Theory

/-! ### the model with exact arithmetic is the model of `PDT` -/

section Exact

variable {ao : List Arc → List Arc} {no : List NArc → List NArc}

/-- Without rounding, the model of this section is the model of C03. -/
theorem C66_exact (hao : ∀ l, (ao l).Perm l) (hno : ∀ l, (no l).Perm l) (W : WarmSolver) (ε : ℚ) (g : Digraph) :
    pdtRunF id ao no W ε g = pdtRun W ε g := by
  unfold pdtRunF pdtRun pdtRunFrom pdtRunWith
  rw [pmfRunF_id hao hno]
  split
  · rfl
  · simp only [pdtLoopF_id hao, Outcome.bind_assoc]
    congr 1
    funext st
    split
    · rfl
    · rfl

end Exact

/-! ### C67: exact arithmetic -/

theorem cut_le_total {E : List Arc} (h : NonnegE E) (S : Finset ℕ) : getCutValue E S ≤ (E.map (·.cap)).sum := by
  unfold getCutValue
  apply List.sum_le_sum
  intro e he
  have := h e he
  split <;> linarith

theorem cap_le_total {E : List Arc} (h : NonnegE E) {e : Arc} (he : e ∈ E) : e.cap ≤ (E.map (·.cap)).sum :=
  List.single_le_sum (by
    intro x hx
    obtain ⟨a, ha, rfl⟩ := List.mem_map.1 hx
    exact h a ha) _ (List.mem_map_of_mem he)

theorem input_pgood {n : ℕ} {E : List Arc} (hv : ValidInput n E) {eps : ℚ} (heps : 0 < eps) :
    PGood (inputGraph eps n E).arcs eps := by
  have hgd := inputGraph_good (ε := eps) hv
  exact ⟨hgd.good.lowHigh, hgd.good.simple, heps, fun e he => by
    have := (List.mem_filter.1 he).2
    simp only [decide_eq_true_eq] at this
    exact this.le⟩

/-- `n (n + 2) ^ 2`, which measures how errors add up. -/
def errorFactor (n : ℕ) : ℚ := n * (n + 2) * (n + 2)

theorem approx_factor {n : ℕ} {E : List Arc} (hv : ValidInput n E) {eps : ℚ} (heps : 0 < eps)
    {Ps : List (Finset (Finset ℕ))} {cv : List ℚ}
    (h : IsApproximateSequence (inputGraph eps n E).arcs (Finset.range n) (12 * (n * (n + 2) * (n + 2) * eps)) Ps cv) :
    IsApproximateSequence E (Finset.range n) (13 * errorFactor n * eps) Ps cv := by
  have h1 := approx_input heps.le hv.nonneg h
  have h2 : (E.length : ℚ) ≤ n * n := by exact_mod_cast input_length hv
  have h3 : (n * n : ℚ) ≤ errorFactor n := by
    unfold errorFactor
    have : (0 : ℚ) ≤ n := by positivity
    nlinarith [mul_nonneg this this, mul_nonneg (mul_nonneg this this) this]
  have h4 : (E.length : ℚ) * eps ≤ errorFactor n * eps := mul_le_mul_of_nonneg_right (h2.trans h3) heps.le
  refine ⟨h1.length, h1.first, h1.last, h1.refine, h1.nondecreasing, fun i P lam hi a b => ?_⟩
  obtain ⟨h5, h6⟩ := h1.optimal i P lam hi a b
  refine ⟨h5, fun R hR => (h6 R hR).trans ?_⟩
  unfold errorFactor at h4 ⊢
  linarith

/-- With exact arithmetic, the conditions under which errors are estimated. -/
theorem exact_setup {W : WarmSolver} (hW : W.Minimal) {eps : ℚ} (heps : 0 < eps) {n : ℕ} {E : List Arc}
    (hv : ValidInput n E) (hf : 240 * errorFactor n * eps ≤ 1) :
    PSetup id id id W 0 eps 0 (((inputGraph eps n E).arcs.map (·.cap)).sum + 1) (inputGraph eps n E).arcs n := by
  have hpg := input_pgood hv heps
  set g := inputGraph eps n E with hg
  have hnn := hpg.nonneg
  have htot : 0 ≤ (g.arcs.map (·.cap)).sum := List.sum_nonneg (by
    intro x hx
    obtain ⟨a, ha, rfl⟩ := List.mem_map.1 hx
    exact hnn a ha)
  exact
    { good := hpg
      err := ⟨le_rfl, by linarith, rfl, fun c x _ _ _ => by simp, monotone_id⟩
      solver := WarmSolver.Minimal.least' hW
      perm := fun l => List.Perm.refl _
      H1 := by linarith
      v0 := le_rfl
      cut := fun S => by linarith [cut_le_total hnn S]
      cap := fun e he => by linarith [cap_le_total hnn he]
      permA := fun l => List.Perm.refl _
      len := (List.length_filter_le _ _).trans (input_length hv)
      small := by simpa using heps.le
      fine := by unfold errorFactor at hf; linarith }

/-- For all weights, if only the number of nodes is small compared with the tolerance (up to 345 nodes for LEMON's
tolerance): `pdt` returns a sequence of ever finer partitions from the coarsest to the finest, and between its critical
values each partition is optimal up to an error of `13 n (n + 2) ^ 2 eps`. In particular it does not throw. -/
theorem C67_pdt_approx {W : WarmSolver} (hW : W.Minimal) {eps : ℚ} (heps : 0 < eps) {n : ℕ} {E : List Arc}
    (hv : ValidInput n E) (hn : 1 ≤ n) (hf : 240 * errorFactor n * eps ≤ 1) :
    ∃ r, (makeDgraph eps n E >>= pdtRun W eps) = .ok r ∧
      IsApproximateSequence E (Finset.range n) (13 * errorFactor n * eps) r.psp r.cv := by
  have hgd := inputGraph_good (ε := eps) hv
  have hs := exact_setup hW heps hv hf
  rw [makeDgraph_valid hv, Outcome.ok_bind]
  rcases pdtRunF_spec hgd hn hs with ⟨r, h1, h2⟩ | ⟨h1, _⟩
  · rw [C66_exact (ao := id) (no := id) (fun l => List.Perm.refl _) (fun l => List.Perm.refl _)] at h1
    exact ⟨r, h1, approx_factor hv heps h2⟩
  · exact absurd rfl h1

/-- If moreover all weights are multiples of `u` and the error is small compared with it, the partitions are exactly
optimal: they are those of a weak principal sequence whose critical values differ from the reported ones by at most the
error. -/
theorem C67_pdt_weak {W : WarmSolver} (hW : W.Minimal) {eps : ℚ} (heps : 0 < eps) {n : ℕ} {E : List Arc}
    (hv : ValidInput n E) (hn : 1 ≤ n) (hf : 240 * errorFactor n * eps ≤ 1) {u : ℚ} (hu : 0 < u)
    (hE : ∀ e ∈ E, ∃ k : ℤ, e.cap = k * u) (hfu : n * (n - 1) * (13 * errorFactor n * eps) < u) :
    ∃ r, ∃ cv : List ℚ, (makeDgraph eps n E >>= pdtRun W eps) = .ok r ∧
      IsWeakPrincipalSequence E (Finset.range n) r.psp cv ∧
      List.Forall₂ (fun c c' => |c - c'| ≤ 13 * errorFactor n * eps) r.cv cv := by
  obtain ⟨r, h1, h2⟩ := C67_pdt_approx hW heps hv hn hf
  obtain ⟨cv, h3, h4⟩ := approx_weak hu hE hv.nonneg (fun e he => by
    have := hv.lowHigh e he
    constructor <;> rw [Finset.mem_range] <;> omega) ⟨0, Finset.mem_range.2 hn⟩
    (by rw [Finset.card_range]; exact hfu) h2
  exact ⟨r, cv, h1, h3, h4⟩

/-- If moreover no optimal partition lies strictly between others, it is the principal sequence. -/
theorem C67_pdt_no_between {W : WarmSolver} (hW : W.Minimal) {eps : ℚ} (heps : 0 < eps) {n : ℕ} {E : List Arc}
    (hv : ValidInput n E) (hn : 1 ≤ n) (hf : 240 * errorFactor n * eps ≤ 1) {u : ℚ} (hu : 0 < u)
    (hE : ∀ e ∈ E, ∃ k : ℤ, e.cap = k * u) (hfu : n * (n - 1) * (13 * errorFactor n * eps) < u)
    (hnb : NoBetween E (Finset.range n)) :
    ∃ r, ∃ cv : List ℚ, (makeDgraph eps n E >>= pdtRun W eps) = .ok r ∧
      IsPrincipalSequence E (Finset.range n) r.psp cv ∧
      List.Forall₂ (fun c c' => |c - c'| ≤ 13 * errorFactor n * eps) r.cv cv := by
  obtain ⟨r, cv, h1, h2, h3⟩ := C67_pdt_weak hW heps hv hn hf hu hE hfu
  exact ⟨r, cv, h1, h2.of_noBetween hv.nonneg hnb, h3⟩

/-- With LEMON's tolerance the bounds hold for up to 345 nodes. -/
theorem errorFactor_lemon {n : ℕ} (hn : n ≤ 345) : 240 * errorFactor n * lemonEps ≤ 1 := by
  have h : (n : ℚ) ≤ 345 := by exact_mod_cast hn
  have h0 : (0 : ℚ) ≤ n := by positivity
  have h1 : errorFactor n ≤ 345 * 347 * 347 := by
    unfold errorFactor
    have : (n : ℚ) * (n + 2) ≤ 345 * 347 := mul_le_mul h (by linarith) (by linarith) (by norm_num)
    exact mul_le_mul this (by linarith) (by linarith) (by norm_num)
  unfold lemonEps
  linarith

/-- With LEMON's tolerance and integer weights the partitions are exactly optimal for up to 59 nodes. -/
theorem errorFactor_lemon_integer {n : ℕ} (hn : n ≤ 59) : n * (n - 1) * (13 * errorFactor n * lemonEps) < 1 := by
  have h : (n : ℚ) ≤ 59 := by exact_mod_cast hn
  have h0 : (0 : ℚ) ≤ n := by positivity
  have h1 : 0 ≤ errorFactor n := by unfold errorFactor; positivity
  have h2 : errorFactor n ≤ 59 * 61 * 61 := by
    unfold errorFactor
    have : (n : ℚ) * (n + 2) ≤ 59 * 61 := mul_le_mul h (by linarith) (by linarith) (by norm_num)
    exact mul_le_mul this (by linarith) (by linarith) (by norm_num)
  have h3 : (n : ℚ) * (n - 1) ≤ 59 * 58 := by nlinarith
  have h4 : (0 : ℚ) ≤ 13 * errorFactor n * lemonEps := by unfold lemonEps; positivity
  have h5 := mul_le_mul_of_nonneg_right h3 h4
  unfold lemonEps at h5 ⊢
  linarith

/-- Integer weights, LEMON's tolerance, at most 59 nodes. -/
theorem C67_pdt_integer {W : WarmSolver} (hW : W.Minimal) {n : ℕ} {E : List Arc} (hv : ValidInput n E) (hn : 1 ≤ n)
    (hn' : n ≤ 59) (hE : ∀ e ∈ E, ∃ k : ℤ, e.cap = k) :
    ∃ r, ∃ cv : List ℚ, (makeDgraph lemonEps n E >>= pdtRun W lemonEps) = .ok r ∧
      IsWeakPrincipalSequence E (Finset.range n) r.psp cv ∧
      List.Forall₂ (fun c c' => |c - c'| ≤ 13 * errorFactor n * lemonEps) r.cv cv :=
  C67_pdt_weak hW (by norm_num [lemonEps]) hv hn (errorFactor_lemon (by omega)) one_pos
    (fun e he => by obtain ⟨k, hk⟩ := hE e he; exact ⟨k, by rw [hk, mul_one]⟩) (errorFactor_lemon_integer hn')

/-- The same bound holds for `pdt_r`, whichever threads deliver. -/
theorem C67_pdt_r_approx {S : FlowSolver} {R : SrcSolver} (hS : S.Minimal) (hR : R.Minimal)
    (finish : ℕ → CSet → CSet → Finish) {eps : ℚ} (heps : 0 < eps) {n : ℕ} {E : List Arc} (hv : ValidInput n E)
    (hn : 1 ≤ n) (hf : 240 * errorFactor n * eps ≤ 1) :
    ∃ r, (makeDgraph eps n E >>= pdtrRun S R eps finish) = .ok r ∧
      IsApproximateSequence E (Finset.range n) (13 * errorFactor n * eps) r.psp r.cv := by
  rw [makeDgraph_valid hv, Outcome.ok_bind]
  obtain ⟨r, h1, h2⟩ := pdtrRun_near (finish := finish) hS hR bruteWarm_minimal (inputGraph_good (ε := eps) hv) hn
    (exact_setup bruteWarm_minimal heps hv hf)
  exact ⟨r, h1, approx_factor hv heps h2⟩

/-- If moreover all weights are multiples of `u` and the error is small compared with it, the partitions of `pdt_r` are
exactly optimal. -/
theorem C67_pdt_r_weak {S : FlowSolver} {R : SrcSolver} (hS : S.Minimal) (hR : R.Minimal)
    (finish : ℕ → CSet → CSet → Finish) {eps : ℚ} (heps : 0 < eps) {n : ℕ} {E : List Arc} (hv : ValidInput n E)
    (hn : 1 ≤ n) (hf : 240 * errorFactor n * eps ≤ 1) {u : ℚ} (hu : 0 < u)
    (hE : ∀ e ∈ E, ∃ k : ℤ, e.cap = k * u) (hfu : n * (n - 1) * (13 * errorFactor n * eps) < u) :
    ∃ r, ∃ cv : List ℚ, (makeDgraph eps n E >>= pdtrRun S R eps finish) = .ok r ∧
      IsWeakPrincipalSequence E (Finset.range n) r.psp cv ∧
      List.Forall₂ (fun c c' => |c - c'| ≤ 13 * errorFactor n * eps) r.cv cv := by
  obtain ⟨r, h1, h2⟩ := C67_pdt_r_approx hS hR finish heps hv hn hf
  obtain ⟨cv, h3, h4⟩ := approx_weak hu hE hv.nonneg (fun e he => by
    have := hv.lowHigh e he
    constructor <;> rw [Finset.mem_range] <;> omega) ⟨0, Finset.mem_range.2 hn⟩
    (by rw [Finset.card_range]; exact hfu) h2
  exact ⟨r, cv, h1, h3, h4⟩

/-- `pdt_r` with integer weights, LEMON's tolerance, at most 59 nodes. -/
theorem C67_pdt_r_integer {S : FlowSolver} {R : SrcSolver} (hS : S.Minimal) (hR : R.Minimal)
    (finish : ℕ → CSet → CSet → Finish) {n : ℕ} {E : List Arc} (hv : ValidInput n E) (hn : 1 ≤ n)
    (hn' : n ≤ 59) (hE : ∀ e ∈ E, ∃ k : ℤ, e.cap = k) :
    ∃ r, ∃ cv : List ℚ, (makeDgraph lemonEps n E >>= pdtrRun S R lemonEps finish) = .ok r ∧
      IsWeakPrincipalSequence E (Finset.range n) r.psp cv ∧
      List.Forall₂ (fun c c' => |c - c'| ≤ 13 * errorFactor n * lemonEps) r.cv cv :=
  C67_pdt_r_weak hS hR finish (by norm_num [lemonEps]) hv hn (errorFactor_lemon (by omega)) one_pos
    (fun e he => by obtain ⟨k, hk⟩ := hE e he; exact ⟨k, by rw [hk, mul_one]⟩) (errorFactor_lemon_integer hn')

/-- The same bound for `pdt_r` with the starting points of its flow computations, for solvers that work from any flow
(compare C52). -/
theorem C67_pdt_r_warm {W Q : HLSolver} (hW : W.LeastSink AnyStart) (hQ : Q.LeastSource AnyStart)
    (sched : ℕ → CSet → CSet → Finish × Bool) {eps : ℚ} (heps : 0 < eps) {n : ℕ} {E : List Arc} (hv : ValidInput n E)
    (hn : 1 ≤ n) (hf : 240 * errorFactor n * eps ≤ 1) :
    ∃ r, (makeDgraph eps n E >>= pdtrRunW W Q eps sched) = .ok r ∧
      IsApproximateSequence E (Finset.range n) (13 * errorFactor n * eps) r.psp r.cv := by
  rw [C52_same_partial hW hQ bruteSolver_minimal bruteSrc_minimal heps hv sched fun _ _ _ => .left]
  exact C67_pdt_r_approx bruteSolver_minimal bruteSrc_minimal _ heps hv hn hf

theorem bruteWarm_scan : bruteWarm =
    ⟨fun N _ => ⟨scanSolver.flowValue N, scanSolver.minCut N, N.arcs.map fun _ => 0⟩⟩ := by
  rw [scanSolver_eq]; rfl

/-- The theorems apply to the example graph ... -/
example := C67_pdt_approx bruteWarm_minimal (eps := lemonEps) (by norm_num [lemonEps]) exArcs_valid (by norm_num)
  (errorFactor_lemon (by norm_num))
example := C67_pdt_integer bruteWarm_minimal exArcs_valid (by norm_num) (by norm_num) exArcs_rounding.integer
example := C67_pdt_no_between bruteWarm_minimal (eps := lemonEps) (by norm_num [lemonEps]) exArcs_valid (by norm_num)
  (errorFactor_lemon (by norm_num)) one_pos (u := 1)
  (fun e he => by obtain ⟨k, hk⟩ := exArcs_rounding.integer e he; exact ⟨k, by rw [hk, mul_one]⟩)
  (errorFactor_lemon_integer (by norm_num)) exArcs_noBetween

example (finish : ℕ → CSet → CSet → Finish) := C67_pdt_r_approx bruteSolver_minimal bruteSrc_minimal finish
  (eps := lemonEps) (by norm_num [lemonEps]) exArcs_valid (by norm_num) (errorFactor_lemon (by norm_num))
example (finish : ℕ → CSet → CSet → Finish) := C67_pdt_r_integer bruteSolver_minimal bruteSrc_minimal finish
  exArcs_valid (by norm_num) (by norm_num) exArcs_rounding.integer

/-- A path whose two weights differ by half of LEMON's tolerance. -/
def closeArcs : List Arc := [⟨0, 2, 1 + 1 / 20000000000⟩, ⟨1, 2, 1⟩]

/-- ... and to a graph for which the result is not exact: `pdt` merges two critical values that differ by less than the
tolerance. -/
theorem C67_error_occurs : ValidInput 3 closeArcs ∧
    (∃ r, (makeDgraph lemonEps 3 closeArcs >>= pdtRun bruteWarm lemonEps) = .ok r ∧
      IsApproximateSequence closeArcs (Finset.range 3) (13 * errorFactor 3 * lemonEps) r.psp r.cv ∧
      ∀ cv, ¬ IsWeakPrincipalSequence closeArcs (Finset.range 3) r.psp cv) := by
  have hv : ValidInput 3 closeArcs := by decide +kernel
  obtain ⟨r, h1, h2⟩ := C67_pdt_approx bruteWarm_minimal (eps := lemonEps) (by norm_num [lemonEps]) hv (by norm_num)
    (errorFactor_lemon (by norm_num))
  have hrun : (makeDgraph lemonEps 3 closeArcs >>= pdtRun bruteWarm lemonEps) =
      .ok ⟨[{{0, 1, 2}}, {{0}, {1}, {2}}], [1 + 1 / 40000000000]⟩ := by
    rw [bruteWarm_scan]
    decide +kernel
  refine ⟨hv, r, h1, h2, ?_⟩
  rw [hrun] at h1
  cases h1
  intro cv h
  have hlen := h.length
  obtain ⟨c, rfl⟩ : ∃ c, cv = [c] := List.length_eq_one_iff.1 (by simpa using hlen.symm)
  have hc : ∀ (j : ℕ) (c' : ℚ), [c][j]? = some c' → c' = c := fun j c' hj => by
    simpa using List.mem_of_getElem? hj
  have a := h.optimal 0 _ c rfl (fun j c' hj _ => (hc j c' hj).le) (fun j c' hj _ => (hc j c' hj).ge)
  have b := h.optimal 1 _ c rfl (fun j c' hj _ => (hc j c' hj).le) (fun j c' hj _ => (hc j c' hj).ge)
  have hP : IsPartition (Finset.range 3) {{0, 2}, {1}} := by
    rw [isPartition_iff]
    decide +kernel
  have a' := a.2 _ hP
  have b' := b.2 _ hP
  have e1 : crossWeight closeArcs {{0, 1, 2}} = 0 := by decide +kernel
  have e2 : crossWeight closeArcs {{0}, {1}, {2}} = 2 + 1 / 20000000000 := by decide +kernel
  have e3 : crossWeight closeArcs {{0, 2}, {1}} = 1 := by decide +kernel
  have k1 : (({{0, 1, 2}} : Finset (Finset ℕ))).card = 1 := by decide
  have k2 : (({{0}, {1}, {2}} : Finset (Finset ℕ))).card = 3 := by decide
  have k3 : (({{0, 2}, {1}} : Finset (Finset ℕ))).card = 2 := by decide
  unfold cost at a' b'
  rw [e1, e3, k1, k3] at a'
  rw [e2, e3, k2, k3] at b'
  push_cast at a' b'
  linarith

/-! ### C66: rounded arithmetic -/

/-- The size of numbers for which rounding errors in `pdt` stay below the tolerance: the weights have a sum of at
most `W`, the solver reports the value of the cut with relative error at most `v`. -/
structure PdtRoundingFine (p n : ℕ) (E : List Arc) (W v eps : ℚ) : Prop where
  total : (E.map (·.cap)).sum ≤ W
  solver : 0 ≤ v
  pos : 0 < eps
  below : 10 * (v * n * (W + 1)) + 120 * (n * n * n * ((2 ^ p)⁻¹ * (W + 1))) ≤ eps
  above : 240 * errorFactor n * eps ≤ 1

theorem filter_total {E : List Arc} (h : NonnegE E) (eps : ℚ) :
    ((E.filter fun a => decide (eps < a.cap)).map (·.cap)).sum ≤ (E.map (·.cap)).sum := by
  induction E with
  | nil => simp
  | cons a E ih =>
    have ih := ih fun e he => h e (List.mem_cons_of_mem _ he)
    have h0 := h a List.mem_cons_self
    by_cases hp : eps < a.cap
    · simp [hp]; exact ih
    · rw [List.filter_cons_of_neg (by simpa using hp), List.map_cons, List.sum_cons]
      linarith

theorem PdtRoundingFine.setup {p n : ℕ} {E : List Arc} {W v eps : ℚ} (hf : PdtRoundingFine p n E W v eps) {fl : ℚ → ℚ}
    (hfl : FloatingPoint p fl) {S : WarmSolver} (hS : WarmLeast S v) {ao : List Arc → List Arc}
    (hao : ∀ l, (ao l).Perm l) {no : List NArc → List NArc} (hno : ∀ l, (no l).Perm l) (hv : ValidInput n E) (hn : 1 ≤ n) :
    PSetup fl ao no S v eps ((2 ^ p)⁻¹ * (W + 1)) (W + 1) (inputGraph eps n E).arcs n := by
  have hpg := input_pgood hv hf.pos
  have hnn := hpg.nonneg
  have htot := (filter_total hv.nonneg eps).trans hf.total
  have h0 : 0 ≤ ((E.filter fun a => decide (eps < a.cap)).map (·.cap)).sum := List.sum_nonneg (by
    intro x hx
    obtain ⟨a, ha, rfl⟩ := List.mem_map.1 hx
    exact hnn a ha)
  have hW : 0 ≤ W := h0.trans htot
  have hr := FloatingPoint.rounds hfl
  exact
    { good := hpg
      err := by
        have hp : (0 : ℚ) < 2 ^ p := by positivity
        have hn1 : (1 : ℚ) ≤ n := by exact_mod_cast hn
        have h1 := hf.below
        have h2 := hf.above
        have h3 : 0 ≤ v * n * (W + 1) := mul_nonneg (mul_nonneg hf.solver (by linarith)) (by linarith)
        have h4 : (1 : ℚ) ≤ n * n * n := by nlinarith
        have h5 : 0 ≤ (2 ^ p)⁻¹ * (W + 1) := by positivity
        have h6 : (2 ^ p)⁻¹ * (W + 1) ≤ n * n * n * ((2 ^ p)⁻¹ * (W + 1)) := le_mul_of_one_le_left h5 h4
        have h7 : 9 ≤ errorFactor n := by unfold errorFactor; nlinarith
        have h8 : 240 * 9 * eps ≤ 240 * errorFactor n * eps :=
          mul_le_mul_of_nonneg_right (by linarith) hf.pos.le
        have h9 : (2 ^ p)⁻¹ * (W + 1) ≤ 1 := by linarith
        have h10 : (2 ^ p : ℚ)⁻¹ * 1 ≤ (2 ^ p)⁻¹ * (W + 1) := mul_le_mul_of_nonneg_left (by linarith) (by positivity)
        exact hr.rerr (by linarith) (by linarith) (by rwa [inv_mul_le_iff₀ hp, mul_one] at h9)
      solver := hS
      perm := hno
      H1 := by linarith
      v0 := hf.solver
      cut := fun X => by linarith [(cut_le_total hnn X).trans htot]
      cap := fun e he => by linarith [(cap_le_total hnn he).trans htot]
      permA := hao
      len := (List.length_filter_le _ _).trans (input_length hv)
      small := hf.below
      fine := by have := hf.above; unfold errorFactor at this; linarith }

/-- For all weights, `pdt` in floating-point arithmetic either throws the exception "lambda value mismatch" or
returns a sequence of ever finer partitions from the coarsest to the finest that are optimal up to an error of
`13 n (n + 2) ^ 2 eps` between the reported critical values. Missing for the full claim: that the sequence is the
principal sequence, and that no exception occurs; both are false (`C66_pdt_violated`, `C66_exception_violated`). -/
theorem C66_pdt_approx_partial {p n : ℕ} {fl : ℚ → ℚ} (hfl : FloatingPoint p fl) {S : WarmSolver} {E : List Arc}
    {W v eps : ℚ} (hS : WarmLeast S v) {ao : List Arc → List Arc} (hao : ∀ l, (ao l).Perm l)
    {no : List NArc → List NArc} (hno : ∀ l, (no l).Perm l) (hv : ValidInput n E) (hn : 1 ≤ n)
    (hf : PdtRoundingFine p n E W v eps) :
    (makeDgraph eps n E >>= pdtRunF fl ao no S eps) = .exc "lambda value mismatch" ∨
    ∃ r, (makeDgraph eps n E >>= pdtRunF fl ao no S eps) = .ok r ∧
      IsApproximateSequence E (Finset.range n) (13 * errorFactor n * eps) r.psp r.cv := by
  rw [makeDgraph_valid hv, Outcome.ok_bind]
  rcases pdtRunF_spec (inputGraph_good hv) hn (hf.setup hfl hS hao hno hv hn) with ⟨r, h1, h2⟩ | ⟨_, h1⟩
  · exact Or.inr ⟨r, h1, approx_factor hv hf.pos h2⟩
  · exact Or.inl h1

/-- If moreover all weights are multiples of `u` and `13 n^2 (n - 1) (n + 2)^2 eps < u` (for LEMON's tolerance and integer
weights: at most 59 nodes), the partitions are exactly
optimal: those of a weak principal sequence, whose critical values differ from the reported ones by at most the error. If
no optimal partition lies strictly between others, it is the principal sequence. -/
theorem C66_pdt_weak_partial {p n : ℕ} {fl : ℚ → ℚ} (hfl : FloatingPoint p fl) {S : WarmSolver} {E : List Arc}
    {W v eps : ℚ} (hS : WarmLeast S v) {ao : List Arc → List Arc} (hao : ∀ l, (ao l).Perm l)
    {no : List NArc → List NArc} (hno : ∀ l, (no l).Perm l) (hv : ValidInput n E) (hn : 1 ≤ n)
    (hf : PdtRoundingFine p n E W v eps) {u : ℚ} (hu : 0 < u) (hE : ∀ e ∈ E, ∃ k : ℤ, e.cap = k * u)
    (hfu : n * (n - 1) * (13 * errorFactor n * eps) < u) :
    (makeDgraph eps n E >>= pdtRunF fl ao no S eps) = .exc "lambda value mismatch" ∨
    ∃ r, ∃ cv : List ℚ, (makeDgraph eps n E >>= pdtRunF fl ao no S eps) = .ok r ∧
      IsWeakPrincipalSequence E (Finset.range n) r.psp cv ∧
      List.Forall₂ (fun c c' => |c - c'| ≤ 13 * errorFactor n * eps) r.cv cv ∧
      (NoBetween E (Finset.range n) → IsPrincipalSequence E (Finset.range n) r.psp cv) := by
  rcases C66_pdt_approx_partial hfl hS hao hno hv hn hf with h | ⟨r, h1, h2⟩
  · exact Or.inl h
  · obtain ⟨cv, h3, h4⟩ := approx_weak hu hE hv.nonneg (fun e he => by
        have := hv.lowHigh e he
        constructor <;> rw [Finset.mem_range] <;> omega) ⟨0, Finset.mem_range.2 hn⟩
      (by rw [Finset.card_range]; exact hfu) h2
    exact Or.inr ⟨r, cv, h1, h3, h4, fun hnb => h3.of_noBetween hv.nonneg hnb⟩

/-- A solver that meets the hypothesis. -/
theorem roundedWarm_least {p : ℕ} (hp : 1 ≤ p) : WarmLeast (roundedWarm p) (2 ^ p)⁻¹ where
  le_cut N init hN hi := (WarmSolver.Minimal.least' bruteWarm_minimal).le_cut N init hN hi
  least N init hN hi := (WarmSolver.Minimal.least' bruteWarm_minimal).least N init hN hi
  value N init hN hi := by
    have h1 := bruteWarm_minimal.value_eq N init hN hi
    have h2 : 0 ≤ N.cutCap (bruteWarm.sinkSide N init) := by
      unfold Net.cutCap
      exact List.sum_nonneg (by
        intro x hx
        obtain ⟨a, ha, rfl⟩ := List.mem_map.1 hx
        split
        · exact hN a ha
        · exact le_rfl)
    have h3 := (RoundsToNearest.roundsRel (roundNear_spec (p := p) hp)).rel (N.cutCap (bruteWarm.sinkSide N init))
    rw [abs_of_nonneg h2] at h3
    have h4 : ((roundedWarm p).run N init).value = roundNear p (N.cutCap (bruteWarm.sinkSide N init)) := by
      rw [← h1]; rfl
    rw [h4]
    exact h3
  flow N init hN hi := bruteWarm_minimal.flow N init hN hi

theorem exArcs_pdtRounding : PdtRoundingFine 53 4 exArcs 12 (2 ^ 53)⁻¹ lemonEps where
  total := exArcs_rounding.total
  solver := by positivity
  pos := by norm_num [lemonEps]
  below := by norm_num [lemonEps]
  above := errorFactor_lemon (by norm_num)

theorem pdtRoundArcs_pdtRounding : PdtRoundingFine 53 6 pdtRoundArcs 7 (2 ^ 53)⁻¹ lemonEps where
  total := by decide +kernel
  solver := by positivity
  pos := by norm_num [lemonEps]
  below := by norm_num [lemonEps]
  above := errorFactor_lemon (by norm_num)

example := C66_pdt_weak_partial roundDouble_spec (roundedWarm_least (by norm_num))
  (fun l => List.reverse_perm l) (fun l => List.reverse_perm l) exArcs_valid (by norm_num) exArcs_pdtRounding
  one_pos (fun e he => by obtain ⟨k, hk⟩ := exArcs_rounding.integer e he; exact ⟨k, by rw [hk, mul_one]⟩)
  (errorFactor_lemon_integer (by norm_num))

/-- The graph of `C66_pdt_violated`: there the run ends normally, and the additional partition is optimal. -/
example := C66_pdt_approx_partial roundDouble_spec (roundedWarm_least (by norm_num))
  (fun l => List.reverse_perm l) (fun l => List.reverse_perm l) (by decide +kernel) (by norm_num)
  pdtRoundArcs_pdtRounding

/-- Weights that are not integers, and not representable: a third and two sevenths. -/
def fractionArcs : List Arc := [⟨0, 1, 1 / 3⟩, ⟨0, 2, 2 / 7⟩, ⟨1, 2, 1 / 10⟩, ⟨2, 3, 1 / 3⟩]

theorem fractionArcs_pdtRounding : PdtRoundingFine 53 4 fractionArcs 2 (2 ^ 53)⁻¹ lemonEps where
  total := by decide +kernel
  solver := by positivity
  pos := by norm_num [lemonEps]
  below := by norm_num [lemonEps]
  above := errorFactor_lemon (by norm_num)

example := C66_pdt_weak_partial roundDouble_spec (roundedWarm_least (by norm_num))
  (fun l => List.reverse_perm l) (fun l => List.reverse_perm l) (n := 4) (E := fractionArcs) (by decide +kernel)
  (by norm_num) fractionArcs_pdtRounding (u := 1 / 210) (by norm_num)
  (fun e he => by
    simp only [fractionArcs, List.mem_cons, List.not_mem_nil, or_false] at he
    rcases he with rfl | rfl | rfl | rfl
    · exact ⟨70, by norm_num⟩
    · exact ⟨60, by norm_num⟩
    · exact ⟨21, by norm_num⟩
    · exact ⟨70, by norm_num⟩)
  (by norm_num [errorFactor, lemonEps])

end PSP.Props
