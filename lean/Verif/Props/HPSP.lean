import Verif.Theory.HPSPRun
import Verif.Theory.NoBetween
import Verif.Props.PSPI

/-!
# Properties of the method `hpsp` (C04)
-/

namespace PSP.Props

open PSP.Spec PSP.Model PSP.Theory

theorem hpsp_input {S : FlowSolver} (hS : S.Correct) {ord : Partition → List CSet}
    (hord : Enumerates ord) {eps : ℚ} {n : ℕ} {E : List Arc}
    (hv : ValidInput n E) (hn : 2 ≤ n) (hf : FineTolerance eps n E) :
    ∃ g' r Ps, hpspRun S eps ord (inputGraph eps n E) = .ok (g', r) ∧
      (S.Minimal ∨ NoBetween E (Finset.range n) → r.psp = Ps) ∧ r.psp.length = r.cv.length + 1 ∧
      IsPrincipalSequence E (Finset.range n) Ps r.cv := by
  have hf' := hf
  obtain ⟨u, hu, hg, hε, hlt⟩ := hf'
  have hgood := inputGraph_good (ε := eps) hv
  have hV : (Finset.range n).Nonempty := ⟨0, by simp; omega⟩
  obtain ⟨g', t, psp, hrun, hpsp, hlen, hl, hlast, hinc⟩ := hpspRun_spec hS hord hn hgood hε
    (granular_input (ε := eps) (n := n) hg) hlt
  exact ⟨g', _, _, hrun, fun h => hpsp (h.imp_right (noBetween_input hv hn hf)), by simpa using hlen,
    strict_input hv hn hf (hl.strict hgood.good.nonneg hgood.good.within hV hlast hinc)⟩

/-- With a flow solver that reports minimal sink sides, and in whatever order the blocks of a partition
are visited, `hpsp` returns the principal sequence. -/
theorem C04_hpsp {S : FlowSolver} (hS : S.Minimal) {ord : Partition → List CSet}
    (hord : Enumerates ord) {eps : ℚ} {n : ℕ} {E : List Arc}
    (hv : ValidInput n E) (hn : 2 ≤ n) (hf : FineTolerance eps n E) :
    ∃ g' r, (makeDgraph eps n E >>= hpspRun S eps ord) = .ok (g', r) ∧
      IsPrincipalSequence E (Finset.range n) r.psp r.cv := by
  obtain ⟨g', r, Ps, h1, h2, _, h3⟩ := hpsp_input hS.toCorrect hord hv hn hf
  refine ⟨g', r, by rw [makeDgraph_valid hv, Outcome.ok_bind, h1], ?_⟩
  rw [h2 (Or.inl hS)]; exact h3

/-- Minimal cuts are not needed when no optimal partition lies strictly between others: then `hpsp` returns
the principal sequence with any correct flow solver. -/
theorem C04_hpsp_no_between {S : FlowSolver} (hS : S.Correct) {ord : Partition → List CSet}
    (hord : Enumerates ord) {eps : ℚ} {n : ℕ} {E : List Arc} (hv : ValidInput n E) (hn : 2 ≤ n)
    (hf : FineTolerance eps n E) (hnb : NoBetween E (Finset.range n)) :
    ∃ g' r, (makeDgraph eps n E >>= hpspRun S eps ord) = .ok (g', r) ∧
      IsPrincipalSequence E (Finset.range n) r.psp r.cv := by
  obtain ⟨g', r, Ps, h1, h2, _, h3⟩ := hpsp_input hS hord hv hn hf
  refine ⟨g', r, by rw [makeDgraph_valid hv, Outcome.ok_bind, h1], ?_⟩
  rw [h2 (Or.inr hnb)]; exact h3

example := C04_hpsp_no_between bruteSolver_minimal.toCorrect exOrd_enumerates exArcs_valid (by norm_num)
  exArcs_fine exArcs_noBetween

/-- With *any* correct flow solver `hpsp` terminates normally and its critical values are exactly the
critical parameters in strictly increasing order; there is one partition more than critical values. The
partitions themselves can be wrong then, see `C04_needs_minimal_cuts`. -/
theorem C04_hpsp_values_any_cut {S : FlowSolver} (hS : S.Correct) {ord : Partition → List CSet}
    (hord : Enumerates ord) {eps : ℚ} {n : ℕ} {E : List Arc}
    (hv : ValidInput n E) (hn : 2 ≤ n) (hf : FineTolerance eps n E) :
    ∃ g' r, (makeDgraph eps n E >>= hpspRun S eps ord) = .ok (g', r) ∧
      r.psp.length = r.cv.length + 1 ∧ r.cv.Pairwise (· < ·) ∧
      ∀ lam, lam ∈ r.cv ↔ IsCritical E (Finset.range n) lam := by
  obtain ⟨g', r, Ps, h1, _, h2, h3⟩ := hpsp_input hS hord hv hn hf
  exact ⟨g', r, by rw [makeDgraph_valid hv, Outcome.ok_bind, h1], h2, h3.increasing,
    fun lam => h3.weak.mem_iff hv.nonneg lam⟩

example : (makeDgraph lemonEps 4 exArcs >>= fun g => hpspRun bruteSolver lemonEps exOrd g >>=
      fun r => pure r.2) =
    .ok ⟨[{{0, 1, 2, 3}}, {{0, 1}, {2, 3}}, {{0, 1}, {2}, {3}}, {{0}, {1}, {2}, {3}}], [3, 4, 5]⟩ := by
  decide +kernel

/-- Unlike the default method, `hpsp` joins branches that split at the same value. -/
example : (makeDgraph lemonEps 4 tieArcs >>= fun g => hpspRun bruteSolver lemonEps exOrd g >>=
      fun r => pure r.2) =
    .ok ⟨[{{0, 1, 2, 3}}, {{0, 1}, {2, 3}}, {{0}, {1}, {2}, {3}}], [0, 1]⟩ := by
  decide +kernel

/-! ### `hpsp` needs extremal cuts -/

def hpspTieArcs : List Arc := [⟨0, 1, 2⟩, ⟨2, 3, 1⟩, ⟨3, 4, 1⟩]

/-- The network of the last step of the truncation at `λ = 1`, where `{3}` is a minimum cut that is
neither the smallest nor the largest. -/
def hpspTieNet : Net := dilworthNet hpspTieArcs (sinkCost hpspTieArcs (List.range 4) 4) (List.range 4)
  [-1, 0, -1, 0]

theorem hpspTie_run : ∃ g', (makeDgraph lemonEps 5 hpspTieArcs >>=
    hpspRun (tieSolver hpspTieNet {3}) lemonEps exOrd) =
      .ok (g', ⟨[{{0, 1, 2, 3}, {3, 4}}, {{0, 1}, {2, 3}, {3, 4}}, {{0, 1}, {2}, {3}, {4}},
        {{0}, {1}, {2}, {3}, {4}}], [0, 1, 2]⟩) := by
  have hrun : (makeDgraph lemonEps 5 hpspTieArcs >>= fun g =>
      hpspRun (tieSolver hpspTieNet {3}) lemonEps exOrd g >>= fun r => pure r.2) =
      .ok ⟨[{{0, 1, 2, 3}, {3, 4}}, {{0, 1}, {2, 3}, {3, 4}}, {{0, 1}, {2}, {3}, {4}},
        {{0}, {1}, {2}, {3}, {4}}], [0, 1, 2]⟩ := by
    decide +kernel
  rw [← Outcome.bind_assoc] at hrun
  obtain ⟨⟨g', r⟩, hx, hx'⟩ := Outcome.bind_eq_ok hrun
  cases hx'
  exact ⟨g', hx⟩

theorem hpspTieSolver_correct : (tieSolver hpspTieNet {3}).Correct :=
  tieSolver_correct (by decide +kernel) (by decide +kernel)

theorem hpspTieArcs_fine : FineTolerance lemonEps 5 hpspTieArcs := by
  refine integer_weights_fine (by norm_num) fun e he => ?_
  simp only [hpspTieArcs, List.mem_cons, List.not_mem_nil, or_false] at he
  rcases he with rfl | rfl | rfl
  · exact ⟨2, by norm_num⟩
  · exact ⟨1, by norm_num⟩
  · exact ⟨1, by norm_num⟩

/-- A correct flow solver that does not report minimal sink sides can make `hpsp` return something that
is not even a partition: node 3 lies in two different blocks. -/
theorem C04_needs_minimal_cuts : ∃ S : FlowSolver, S.Correct ∧ ∃ ord, Enumerates ord ∧
    ∃ n E eps, ValidInput n E ∧ 2 ≤ n ∧ FineTolerance eps n E ∧
    ∃ g' r, (makeDgraph eps n E >>= hpspRun S eps ord) = .ok (g', r) ∧
      ∃ P ∈ r.psp, ¬ IsPartition (Finset.range n) P := by
  obtain ⟨g', hx⟩ := hpspTie_run
  refine ⟨tieSolver hpspTieNet {3}, hpspTieSolver_correct, exOrd, exOrd_enumerates, 5, hpspTieArcs, lemonEps,
    by decide +kernel, by norm_num, hpspTieArcs_fine, g', _, hx, {{0, 1}, {2, 3}, {3, 4}}, by simp, ?_⟩
  intro h
  have := h.eq_of_mem (B := {2, 3}) (C := {3, 4}) (v := 3) (by simp) (by simp) (by simp) (by simp)
  revert this
  decide

/-- In the graph of this counterexample an optimal partition does lie strictly between others. -/
example : ¬ NoBetween hpspTieArcs (Finset.range 5) := by
  intro h
  obtain ⟨g', hx⟩ := hpspTie_run
  obtain ⟨g'', r, h1, h2⟩ := C04_hpsp_no_between hpspTieSolver_correct exOrd_enumerates (by decide +kernel)
    (by norm_num) hpspTieArcs_fine h
  rw [hx] at h1
  cases h1
  have := h2.first
  revert this
  decide

end PSP.Props
