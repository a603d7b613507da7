import Verif.Theory.PMFREq
import Verif.Theory.PDTRExtra
import Verif.Props.PDT
import Verif.Props.Race

/-!
# Properties of the method `pdt_r` (C38, C39, C40, C68)
-/

namespace PSP.Props

open PSP.Spec PSP.Model PSP.Theory

/-! ### C39: all minimum cuts -/

/-- `PMF_R::run` for node `j` returns the same kind of result as `PMF::run` (`C23_pmf`), whichever of its
threads deliver in which call of `slice`. -/
theorem C39_pmf_r {S : FlowSolver} (hS : S.Minimal) {R : SrcSolver} (hR : R.Minimal) {n : ℕ} {E : List Arc}
    (hv : ValidInput n E) {eps : ℚ} (heps : 0 < eps) (hcap : ∀ e ∈ E, eps ≤ e.cap) {j : ℕ} (hj : j < n)
    {y : ℕ → ℚ × Option ℚ} {d : ℚ} (hd : 0 < d) (hE : ∀ e ∈ E, ∃ k : ℤ, e.cap = k * d)
    (h10 : ∃ k : ℤ, 1 / 10 = k * d) (hya : ∀ i, ∃ k : ℤ, (y i).1 = k * d)
    (hyb : ∀ i b, (y i).2 = some b → ∃ k : ℤ, b = k * d)
    (hfine : 10 * eps * (j.factorial : ℚ) < d) (hstart : ¬ IsParamMin E y (-1 / 10) j {j})
    (finish : ℕ → CSet → CSet → Finish) :
    ∃ Ts ls, pmfrRun S R eps ⟨List.range n, E⟩ finish j y = .ok (Ts, ls) ∧ Ts.length = ls.length + 1 ∧
      Ts.getLast? = some {j} ∧ Ts.Pairwise (fun A B => B ⊂ A) ∧ ls.Pairwise (· < ·) ∧
      (∀ c ∈ ls, -1 / 10 < c) ∧
      ∀ (k : ℕ) (T : Finset ℕ) (lam : ℚ), Ts[k]? = some T → -1 / 10 ≤ lam →
        (∀ (i : ℕ) (c : ℚ), ls[i]? = some c → i < k → c ≤ lam) →
        (∀ (i : ℕ) (c : ℚ), ls[i]? = some c → k ≤ i → lam ≤ c) → IsParamMin E y lam j T := by
  have hpg : PGood E eps := ⟨fun e he => (hv.lowHigh e he).1, hv.simple, heps, hcap⟩
  have hL : (j.factorial) ≠ 0 := Nat.factorial_ne_zero j
  have hLq : (0 : ℚ) < j.factorial := by exact_mod_cast Nat.factorial_pos j
  obtain ⟨X0, t, hrun, hs⟩ := pmfrRun_spec (g := ⟨List.range n, E⟩) (y := y) (ε := eps) hS hR hpg
    (finish := finish)
    (fun i hi => List.mem_range.2 (by omega)) (by simpa [Digraph.countNodes] using hj) hd hL
    (fun c hc hcj => Nat.dvd_factorial hc hcj) (by rw [lt_div_iff₀ hLq]; exact hfine) hE
    (fun i => ⟨hya i, hyb i⟩) ((gran_lam0 h10).div hL) (exists_better hstart)
  exact ⟨_, _, hrun, run_conclusion hpg hs⟩

/-- In the remaining case it divides zero by zero. -/
theorem C39_pmf_r_nan {S : FlowSolver} (hS : S.Minimal) (R : SrcSolver) {n : ℕ} {E : List Arc}
    (hv : ValidInput n E) {eps : ℚ} (heps : 0 < eps) (hcap : ∀ e ∈ E, eps ≤ e.cap) {j : ℕ} (hj : j < n)
    {y : ℕ → ℚ × Option ℚ} (hstart : IsParamMin E y (-1 / 10) j {j}) (finish : ℕ → CSet → CSet → Finish) :
    pmfrRun S R eps ⟨List.range n, E⟩ finish j y = .nan := by
  rw [show ({j} : Finset ℕ) = insert j ∅ from rfl, isParamMin_iff (by simp)] at hstart
  exact pmfrRun_nan (g := ⟨List.range n, E⟩) R hS
    ⟨fun e he => (hv.lowHigh e he).1, hv.simple, heps, hcap⟩ finish
    (fun i hi => List.mem_range.2 (by omega)) hstart

example : ∀ f ∈ [Finish.left, .right, .both],
    pmfrRun bruteSolver bruteSrc lemonEps ⟨List.range 3, [⟨0, 1, 1⟩, ⟨0, 2, 3⟩, ⟨1, 2, 1⟩]⟩ (fun _ _ _ => f) 2
      (fun i => if i = 0 then (0, some (-1)) else (1, none)) =
    .ok ([{0, 1, 2}, {0, 2}, {2}], [2, 3]) := by decide +kernel

/-! ### C38: the principal sequence -/

/-- With flow solvers that report extremal sides, `pdt_r` returns the principal sequence, whichever
threads deliver. -/
theorem C38_pdt_r {S : FlowSolver} (hS : S.Minimal) {R : SrcSolver} (hR : R.Minimal) {eps : ℚ} {n : ℕ}
    {E : List Arc} (hv : ValidInput n E) (hn : 2 ≤ n) (hf : PdtTolerance eps n E)
    (finish : ℕ → CSet → CSet → Finish) :
    ∃ r, (makeDgraph eps n E >>= pdtrRun S R eps finish) = .ok r ∧
      IsPrincipalSequence E (Finset.range n) r.psp r.cv := by
  rw [makeDgraph_valid hv, Outcome.ok_bind]
  exact pdtr_input hS hR hv hn hf finish

/-- A complete execution of the threads in one call of `slice`, in which no worker failed. -/
def CompleteExecution (s : Race.State) : Prop :=
  (∃ small big k, Race.Reach small big k s) ∧ s.main = .fin ∧ ∀ t, (s.w t).pc ≠ .failed

/-- The same in terms of the threads: let `sched j Tl Tr` be the final state of any complete execution of
the threads in the call of `slice` for `Tl`, `Tr` in round `j`.  The threads deliver, and what they
deliver makes `pdt_r` return the principal sequence. -/
theorem C38_schedules {S : FlowSolver} (hS : S.Minimal) {R : SrcSolver} (hR : R.Minimal) {eps : ℚ} {n : ℕ}
    {E : List Arc} (hv : ValidInput n E) (hn : 2 ≤ n) (hf : PdtTolerance eps n E)
    (sched : ℕ → CSet → CSet → Race.State) (hs : ∀ j Tl Tr, CompleteExecution (sched j Tl Tr)) :
    ∃ finish : ℕ → CSet → CSet → Finish, (∀ j Tl Tr, Race.outcome (sched j Tl Tr) = some (finish j Tl Tr)) ∧
    ∃ r, (makeDgraph eps n E >>= pdtrRun S R eps finish) = .ok r ∧
      IsPrincipalSequence E (Finset.range n) r.psp r.cv := by
  have : ∀ j Tl Tr, ∃ f, Race.outcome (sched j Tl Tr) = some f := by
    intro j Tl Tr
    obtain ⟨⟨_, _, _, h1⟩, h2, h3⟩ := hs j Tl Tr
    obtain ⟨f, h, _⟩ := C25_hand_over h1 h2 h3
    exact ⟨f, h⟩
  choose finish hfin using this
  exact ⟨finish, hfin, C38_pdt_r hS hR hv hn hf finish⟩

/-- Two schedules of `pdt_r`, and `pdt` and `pdt_r`, agree. -/
theorem C38_deterministic {S : FlowSolver} (hS : S.Minimal) {R : SrcSolver} (hR : R.Minimal) {W : WarmSolver}
    (hW : W.Minimal) {eps : ℚ} {n : ℕ}
    {E : List Arc} (hv : ValidInput n E) (hn : 2 ≤ n) (hf : PdtTolerance eps n E)
    (finish finish' : ℕ → CSet → CSet → Finish) :
    (makeDgraph eps n E >>= pdtrRun S R eps finish) = (makeDgraph eps n E >>= pdtrRun S R eps finish') ∧
    (makeDgraph eps n E >>= pdtrRun S R eps finish) = (makeDgraph eps n E >>= pdtRun W eps) := by
  obtain ⟨r, h1, h2⟩ := C38_pdt_r hS hR hv hn hf finish
  obtain ⟨r', h1', h2'⟩ := C38_pdt_r hS hR hv hn hf finish'
  obtain ⟨r'', h1'', h2''⟩ := C03_pdt hW hv hn hf
  have e : ∀ a b : PSPOut, IsPrincipalSequence E (Finset.range n) a.psp a.cv →
      IsPrincipalSequence E (Finset.range n) b.psp b.cv → a = b := by
    intro a b ha hb
    obtain ⟨h3, h4⟩ := IsPrincipalSequence.eq hv.nonneg ha hb
    cases a; cases b
    simp only at h3 h4
    rw [h3, h4]
  rw [h1, h1', h1'', e _ _ h2 h2', e _ _ h2' h2'']
  exact ⟨rfl, rfl⟩

example : ∀ f ∈ [Finish.left, .right, .both],
    (makeDgraph lemonEps 4 exArcs >>= pdtrRun bruteSolver bruteSrc lemonEps fun _ _ _ => f) =
    .ok ⟨[{{0, 1, 2, 3}}, {{0, 1}, {2, 3}}, {{0, 1}, {2}, {3}}, {{0}, {1}, {2}, {3}}], [3, 4, 5]⟩ := by
  decide +kernel

/-! ### C68: the schedule never matters -/

/-- For all weights and tolerances, even if the result is not the principal sequence or an exception is thrown: the
outcome of `pdt_r` does not depend on the threads that deliver, nor on the solvers. -/
theorem C68_pdt_r {S S' : FlowSolver} (hS : S.Minimal) (hS' : S'.Minimal) {R R' : SrcSolver} (hR : R.Minimal)
    (hR' : R'.Minimal) {eps : ℚ} (heps : 0 < eps) {n : ℕ} {E : List Arc} (hv : ValidInput n E)
    (finish finish' : ℕ → CSet → CSet → Finish) :
    (makeDgraph eps n E >>= pdtrRun S R eps finish) = (makeDgraph eps n E >>= pdtrRun S' R' eps finish') := by
  rw [makeDgraph_valid hv, Outcome.ok_bind, Outcome.ok_bind]
  unfold pdtrRun pdtrRunFrom
  rw [pdtRunWith_same fun j hj y => pmfrRun_same hS hR hS' hR' (inputGraph_pgood hv heps) hj finish finish']

/-- The same in terms of the threads: any two families of complete executions lead to the same outcome. -/
theorem C68_schedules {S S' : FlowSolver} (hS : S.Minimal) (hS' : S'.Minimal) {R R' : SrcSolver} (hR : R.Minimal)
    (hR' : R'.Minimal) {eps : ℚ} (heps : 0 < eps) {n : ℕ} {E : List Arc} (hv : ValidInput n E)
    {sched sched' : ℕ → CSet → CSet → Race.State} (hs : ∀ j Tl Tr, CompleteExecution (sched j Tl Tr))
    (hs' : ∀ j Tl Tr, CompleteExecution (sched' j Tl Tr)) :
    ∃ finish finish' : ℕ → CSet → CSet → Finish,
      (∀ j Tl Tr, Race.outcome (sched j Tl Tr) = some (finish j Tl Tr)) ∧
      (∀ j Tl Tr, Race.outcome (sched' j Tl Tr) = some (finish' j Tl Tr)) ∧
      (makeDgraph eps n E >>= pdtrRun S R eps finish) = (makeDgraph eps n E >>= pdtrRun S' R' eps finish') := by
  have : ∀ {sched : ℕ → CSet → CSet → Race.State}, (∀ j Tl Tr, CompleteExecution (sched j Tl Tr)) →
      ∀ j Tl Tr, ∃ f, Race.outcome (sched j Tl Tr) = some f := by
    intro sched hs j Tl Tr
    obtain ⟨⟨_, _, _, h1⟩, h2, h3⟩ := hs j Tl Tr
    obtain ⟨f, h, _⟩ := C25_hand_over h1 h2 h3
    exact ⟨f, h⟩
  choose finish hfin using this hs
  choose finish' hfin' using this hs'
  exact ⟨finish, finish', hfin, hfin', C68_pdt_r hS hS' hR hR' heps hv finish finish'⟩

example (finish finish' : ℕ → CSet → CSet → Finish) := C68_pdt_r bruteSolver_minimal bruteSolver_minimal bruteSrc_minimal
  bruteSrc_minimal (eps := lemonEps) (by norm_num [lemonEps]) exArcs_valid finish finish'

/-! ### C40: a second run -/

/-- A second run on the same `PDT_R` object divides zero by zero, on every graph. -/
theorem C40_rerun_violated {S : FlowSolver} (hS : S.Minimal) {R : SrcSolver} (hR : R.Minimal) {eps : ℚ}
    {n : ℕ} {E : List Arc} (hv : ValidInput n E) (hn : 2 ≤ n) (hf : PdtTolerance eps n E)
    (finish : ℕ → CSet → CSet → Finish) :
    ∃ r y, (makeDgraph eps n E >>= fun g => pdtrRunFrom S R eps finish g fun _ => (0, none)) = .ok (r, y) ∧
      (makeDgraph eps n E >>= fun g => pdtrRunFrom S R eps finish g y) = .nan := by
  rw [makeDgraph_valid hv]
  exact pdtr_rerun hS hR hv hn hf finish

end PSP.Props
