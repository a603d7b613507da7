import Verif.Theory.PDTExtra
import Verif.Props.PSPI

/-!
# Properties of the method `pdt` and of the parametric flow (C03, C22, C23, C24, C26)
-/

namespace PSP.Props

open PSP.Spec PSP.Model PSP.Theory

/-! ### C22: `compute_lambda` -/

/-- `compute_lambda` on a nonempty list: it returns an exact solution of `∑ min(a_i - λ, b_i) = target`,
or a turning point where the equation holds up to the tolerance, or it throws, and then the equation has
no solution, not even up to the tolerance. -/
theorem C22_compute_lambda {eps : ℚ} (heps : 0 ≤ eps) {ps : List (ℚ × Option ℚ)} (hne : ps ≠ [])
    (target : ℚ) :
    (∃ lam, computeLambda eps ps target = .ok lam ∧
      (pwlSum ps lam = target ∨
        ((∃ p ∈ ps, ∃ b, p.2 = some b ∧ lam = p.1 - b) ∧ |pwlSum ps lam - target| ≤ eps))) ∨
    (computeLambda eps ps target = .exc "no solution" ∧ ∀ lam, pwlSum ps lam < target - eps) := by
  simp only [pwlSum_eq]
  exact computeLambda_spec heps hne target

/-- If the equation has a solution, `compute_lambda` returns one (up to the tolerance). -/
theorem C22_solvable {eps : ℚ} (heps : 0 ≤ eps) {ps : List (ℚ × Option ℚ)} (hne : ps ≠ [])
    {target lam : ℚ} (hsol : pwlSum ps lam = target) :
    ∃ lam', computeLambda eps ps target = .ok lam' ∧ |pwlSum ps lam' - target| ≤ eps := by
  rcases C22_compute_lambda heps hne target with ⟨l, h1, h2⟩ | ⟨_, h⟩
  · refine ⟨l, h1, ?_⟩
    rcases h2 with h2 | h2
    · rw [h2]; simpa using heps
    · exact h2.2
  · exfalso
    have := h lam
    linarith

/-- On the empty list it divides by zero. -/
theorem C22_empty (eps target : ℚ) : computeLambda eps [] target = .nan := by
  simp [computeLambda, turningPoints, divO]

example : computeLambda (1 / 10) [(2, some 1), (3, none), (5, some (-1))] 0 = .ok 2 := by
  decide +kernel
example : computeLambda (1 / 10) [(2, some 1)] 3 = .exc "no solution" := by decide +kernel

/-! ### C24: warm starts -/

/-- `modify_flow` turns a preflow of the network for `l` into a preflow of the network for any `m ≥ l`, so
`Preflow::init(newFlowMap)` succeeds. -/
theorem C24_warm_start {n : ℕ} {E : List Arc} (hv : ValidInput n E) {eps : ℚ} (heps : 0 < eps)
    (hcap : ∀ e ∈ E, eps ≤ e.cap) (j : ℕ) (y : ℕ → YPair) {l m : ℚ} (hlm : l ≤ m) {f : List ℚ}
    (hf : IsPreflow (pmfNet eps E j y l) f) :
    IsPreflow (pmfNet eps E j y m) (modifyFlow E j y m (pmfArcs eps E j) f) :=
  modifyFlow_preflow ⟨fun e he => (hv.lowHigh e he).1, hv.simple, heps, hcap⟩ hlm hf

/-- In every execution of `PDT::run` (also on an object that was run before) all calls of
`Preflow::init` get a preflow: replacing the solver by one that behaves arbitrarily when it is started
from anything else makes no difference. -/
theorem C24_only_preflows {n : ℕ} {E : List Arc} (hv : ValidInput n E) {eps : ℚ} (heps : 0 < eps)
    {W W' : WarmSolver} (hW : W.Correct)
    (hagree : ∀ N init, N.Nonneg → (∀ f, init = some f → IsPreflow N f) → W.run N init = W'.run N init)
    (y : ℕ → YPair) :
    pdtRunFrom W eps (inputGraph eps n E) y = pdtRunFrom W' eps (inputGraph eps n E) y := by
  have hgd := inputGraph_good (ε := eps) hv
  exact pdtRunFrom_agree hW hagree ⟨hgd.good.lowHigh, hgd.good.simple, heps, fun e he => by
      have := (List.mem_filter.1 he).2
      simp only [decide_eq_true_eq] at this
      exact this.le⟩ y

/-- A solver meeting the hypothesis of `C24_only_preflows` that differs from `bruteWarm`: started from a
flow that has not one value per arc it reports nonsense. -/
def brokenWarm : WarmSolver :=
  ⟨fun N init => if (init.getD (N.arcs.map fun _ => 0)).length = N.arcs.length then bruteWarm.run N init
    else ⟨-1, fun _ => true, []⟩⟩

example : ∀ N init, N.Nonneg → (∀ f, init = some f → IsPreflow N f) →
    bruteWarm.run N init = brokenWarm.run N init := by
  intro N init _ h
  unfold brokenWarm
  cases init with
  | none => simp
  | some f => simp [(h f rfl).length]

/-! ### C23: all minimum cuts -/

/-- `PMF::run` for node `j`, for all parameters `y` on a grid of width `d` with `10 eps j! < d`: unless
`{j}` alone is optimal at the start value `-1/10`, it returns a strictly decreasing chain of sets ending
with `{j}` and strictly increasing values, one less, such that each set is a best set between its
neighbouring values. -/
theorem C23_pmf {W : WarmSolver} (hW : W.Minimal) {n : ℕ} {E : List Arc} (hv : ValidInput n E)
    {eps : ℚ} (heps : 0 < eps) (hcap : ∀ e ∈ E, eps ≤ e.cap) {j : ℕ} (hj : j < n)
    {y : ℕ → ℚ × Option ℚ} {d : ℚ} (hd : 0 < d) (hE : ∀ e ∈ E, ∃ k : ℤ, e.cap = k * d)
    (h10 : ∃ k : ℤ, 1 / 10 = k * d) (hya : ∀ i < j, ∃ k : ℤ, (y i).1 = k * d)
    (hyb : ∀ i < j, ∀ b, (y i).2 = some b → ∃ k : ℤ, b = k * d)
    (hfine : 10 * eps * (j.factorial : ℚ) < d) (hstart : ¬ IsParamMin E y (-1 / 10) j {j}) :
    ∃ Ts ls, pmfRun W eps ⟨List.range n, E⟩ j y = .ok (Ts, ls) ∧ Ts.length = ls.length + 1 ∧
      Ts.getLast? = some {j} ∧ Ts.Pairwise (fun A B => B ⊂ A) ∧ ls.Pairwise (· < ·) ∧
      (∀ c ∈ ls, -1 / 10 < c) ∧
      ∀ (k : ℕ) (T : Finset ℕ) (lam : ℚ), Ts[k]? = some T → -1 / 10 ≤ lam →
        (∀ (i : ℕ) (c : ℚ), ls[i]? = some c → i < k → c ≤ lam) →
        (∀ (i : ℕ) (c : ℚ), ls[i]? = some c → k ≤ i → lam ≤ c) → IsParamMin E y lam j T := by
  have hpg : PGood E eps := ⟨fun e he => (hv.lowHigh e he).1, hv.simple, heps, hcap⟩
  have hL : (j.factorial) ≠ 0 := Nat.factorial_ne_zero j
  have hLq : (0 : ℚ) < j.factorial := by exact_mod_cast Nat.factorial_pos j
  obtain ⟨X0, t, hrun, hs⟩ := pmfRun_spec (W := W) (g := ⟨List.range n, E⟩) (y := y) (ε := eps) hW hpg
    (fun i hi => List.mem_range.2 (by omega)) (by simpa [Digraph.countNodes] using hj) hd hL
    (fun c hc hcj => Nat.dvd_factorial hc hcj) (by rw [lt_div_iff₀ hLq]; exact hfine) hE
    (fun i hi => ⟨hya i hi, hyb i hi⟩) ((gran_lam0 h10).div hL) (exists_better hstart)
  exact ⟨_, _, hrun, run_conclusion hpg hs⟩

/-- In the remaining case it divides zero by zero. -/
theorem C23_pmf_nan {W : WarmSolver} (hW : W.Minimal) {n : ℕ} {E : List Arc} (hv : ValidInput n E)
    {eps : ℚ} (heps : 0 < eps) (hcap : ∀ e ∈ E, eps ≤ e.cap) {j : ℕ} (hj : j < n)
    {y : ℕ → ℚ × Option ℚ} (hstart : IsParamMin E y (-1 / 10) j {j}) :
    pmfRun W eps ⟨List.range n, E⟩ j y = .nan := by
  rw [show ({j} : Finset ℕ) = insert j ∅ from rfl, isParamMin_iff (by simp)] at hstart
  exact pmfRun_nan (g := ⟨List.range n, E⟩) hW
    ⟨fun e he => (hv.lowHigh e he).1, hv.simple, heps, hcap⟩
    (fun i hi => List.mem_range.2 (by omega)) hstart

example : pmfRun bruteWarm lemonEps ⟨List.range 3, [⟨0, 1, 1⟩, ⟨0, 2, 3⟩, ⟨1, 2, 1⟩]⟩ 2
    (fun i => if i = 0 then (0, some (-1)) else (1, none)) =
    .ok ([{0, 1, 2}, {0, 2}, {2}], [2, 3]) := by decide +kernel

/-! ### C03: the principal sequence -/

/-- With a flow solver that reports minimal sink sides, `pdt` returns the principal sequence. -/
theorem C03_pdt {W : WarmSolver} (hW : W.Minimal) {eps : ℚ} {n : ℕ} {E : List Arc}
    (hv : ValidInput n E) (hn : 2 ≤ n) (hf : PdtTolerance eps n E) :
    ∃ r, (makeDgraph eps n E >>= pdtRun W eps) = .ok r ∧
      IsPrincipalSequence E (Finset.range n) r.psp r.cv := by
  rw [makeDgraph_valid hv, Outcome.ok_bind]
  exact pdt_input hW hv hn hf

/-- Every graph is handled correctly if the tolerance is small enough. -/
theorem C03_pdt_eventually {W : WarmSolver} (hW : W.Minimal) {n : ℕ} {E : List Arc}
    (hv : ValidInput n E) (hn : 2 ≤ n) : ∃ e0 : ℚ, 0 < e0 ∧ ∀ eps, 0 < eps → eps < e0 →
      ∃ r, (makeDgraph eps n E >>= pdtRun W eps) = .ok r ∧
        IsPrincipalSequence E (Finset.range n) r.psp r.cv := by
  obtain ⟨e0, h0, h⟩ := pdtTolerance_eventually n E
  exact ⟨e0, h0, fun eps h1 h2 => C03_pdt hW hv hn (h eps h1 h2)⟩

/-- Graphs with integer weights and at most seven nodes are handled correctly with LEMON's tolerance. -/
theorem integer_weights_pdt {n : ℕ} (hn : n ≤ 7) {E : List Arc} (h : ∀ e ∈ E, ∃ k : ℤ, e.cap = k) :
    PdtTolerance lemonEps n E := by
  refine ⟨1 / 10, by norm_num, fun e he => ?_, ⟨1, by norm_num⟩, by norm_num [lemonEps], ?_⟩
  · obtain ⟨k, hk⟩ := h e he
    exact ⟨k * 10, by rw [hk]; push_cast; ring⟩
  · have hmono : ∀ a b : ℕ, a ≤ b → Nat.superFactorial a ≤ Nat.superFactorial b := by
      intro a b hab
      induction hab with
      | refl => exact le_rfl
      | step _ ih =>
        rw [Nat.superFactorial_succ]
        exact ih.trans (Nat.le_mul_of_pos_left _ (Nat.factorial_pos _))
    have h1 : Nat.superFactorial (n - 1) ≤ 24883200 := (hmono (n - 1) 6 (by omega)).trans (by decide)
    have h2 : ((Nat.superFactorial (n - 1) : ℕ) : ℚ) ≤ 24883200 := by exact_mod_cast h1
    unfold lemonEps
    linarith

example : (makeDgraph lemonEps 4 exArcs >>= pdtRun bruteWarm lemonEps) =
    .ok ⟨[{{0, 1, 2, 3}}, {{0, 1}, {2, 3}}, {{0, 1}, {2}, {3}}, {{0}, {1}, {2}, {3}}], [3, 4, 5]⟩ := by
  decide +kernel

example : (makeDgraph lemonEps 4 tieArcs >>= pdtRun bruteWarm lemonEps) =
    .ok ⟨[{{0, 1, 2, 3}}, {{0, 1}, {2, 3}}, {{0}, {1}, {2}, {3}}], [0, 1]⟩ := by
  decide +kernel

/-! ### `pdt` needs extremal cuts -/

def pdtTieArcs : List Arc := [⟨0, 1, 1⟩, ⟨1, 3, 1⟩]

/-- The parameters of `pdt` before the last iteration on `pdtTieArcs`. -/
def pdtTieY (i : ℕ) : YPair := if i = 0 then (0, some (-1)) else if i = 1 then (1, some 1) else (0, none)

/-- A network of the last iteration, where `{1}` and `{0, 1}` are minimum cuts. -/
def pdtTieNet : Net := pmfNet lemonEps pdtTieArcs 3 pdtTieY (1 / 2)

/-- A correct flow solver that does not report minimal sink sides can make `pdt` throw. -/
theorem C03_needs_minimal_cuts : ∃ W : WarmSolver, W.Correct ∧ ∃ n E eps, ValidInput n E ∧ 2 ≤ n ∧
    PdtTolerance eps n E ∧ (makeDgraph eps n E >>= pdtRun W eps) = .exc "lambda value mismatch" := by
  refine ⟨tieWarm pdtTieNet {0, 1}, tieWarm_correct (by decide +kernel) (by decide +kernel), 4,
    pdtTieArcs, lemonEps, by decide +kernel, by norm_num, integer_weights_pdt (by norm_num) ?_,
    by decide +kernel⟩
  intro e he
  simp only [pdtTieArcs, List.mem_cons, List.not_mem_nil, or_false] at he
  rcases he with rfl | rfl
  · exact ⟨1, by norm_num⟩
  · exact ⟨1, by norm_num⟩

/-! ### C26: a second run -/

/-- A second run on the same `PDT` object divides zero by zero, on every graph: the code for "multiple
run" resets the partitions but not the parameters of the nodes. -/
theorem C26_rerun_violated {W : WarmSolver} (hW : W.Minimal) {eps : ℚ} {n : ℕ} {E : List Arc}
    (hv : ValidInput n E) (hn : 2 ≤ n) (hf : PdtTolerance eps n E) :
    ∃ r y, (makeDgraph eps n E >>= fun g => pdtRunFrom W eps g fun _ => (0, none)) = .ok (r, y) ∧
      (makeDgraph eps n E >>= fun g => pdtRunFrom W eps g y) = .nan := by
  rw [makeDgraph_valid hv]
  exact pdt_rerun hW hv hn hf

end PSP.Props
