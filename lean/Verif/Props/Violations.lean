import Verif.Props.DT
import Verif.Theory.Transform

/-!
# What the orientation, multiplicity and loops of arcs do to `dt` (C17 – C19)
-/

namespace PSP.Props

open PSP.Spec PSP.Model PSP.Theory

/-! ### C17 -/

/-- The undirected graph is the same, only one arc is reversed, yet `dt` returns something else: the
library does *not* treat its input as undirected. -/
theorem C17_orientation_violated :
    ∃ (n : ℕ) (E E' : List Arc) (r r' : PSPOut), ValidInput n E ∧ FineTolerance lemonEps n E ∧
      E'.map (fun e => (({e.src, e.dst} : Finset ℕ), e.cap)) =
        E.map (fun e => (({e.src, e.dst} : Finset ℕ), e.cap)) ∧
      (makeDgraph lemonEps n E >>= dtRun bruteSolver lemonEps) = .ok r ∧
      (makeDgraph lemonEps n E' >>= dtRun bruteSolver lemonEps) = .ok r' ∧
      r.cv ≠ r'.cv ∧ r.psp ≠ r'.psp := by
  refine ⟨3, [⟨0, 1, 5⟩, ⟨1, 2, 1⟩], [⟨1, 0, 5⟩, ⟨1, 2, 1⟩],
    ⟨[{{0, 1, 2}}, {{0, 1}, {2}}, {{0}, {1}, {2}}], [1, 5]⟩,
    ⟨[{{0, 1, 2}}, {{0}, {1}, {2}}], [3]⟩, by decide +kernel, ?_, by decide +kernel,
    by decide +kernel, by decide +kernel, by decide +kernel, by decide +kernel⟩
  apply integer_weights_fine (by norm_num)
  intro e he
  simp only [List.mem_cons, List.not_mem_nil, or_false] at he
  rcases he with rfl | rfl
  · exact ⟨5, by norm_num⟩
  · exact ⟨1, by norm_num⟩

/-- Already the truncation is wrong for a reversed arc: it reports a value below the true minimum. -/
theorem C17_truncation_violated :
    ∃ v P, dilworthDT bruteSolver ⟨List.range 2, [⟨1, 0, 5⟩]⟩ 4 = .ok (v, P) ∧
      v < cost [⟨1, 0, 5⟩] 4 P := by
  refine ⟨-8, {{0}, {1}}, by decide +kernel, by decide +kernel⟩

/-! ### C18 -/

/-- Splitting an edge into two parallel arcs of the same total weight changes the result. -/
theorem C18_parallel_violated :
    ∃ r r', (makeDgraph lemonEps 3 [⟨0, 1, 5⟩, ⟨1, 2, 1⟩] >>= dtRun bruteSolver lemonEps) = .ok r ∧
      (makeDgraph lemonEps 3 [⟨0, 1, 2⟩, ⟨0, 1, 3⟩, ⟨1, 2, 1⟩] >>= dtRun bruteSolver lemonEps) =
        .ok r' ∧
      (∀ P, crossWeight [⟨0, 1, 2⟩, ⟨0, 1, 3⟩, ⟨1, 2, 1⟩] P =
        crossWeight [⟨0, 1, 5⟩, ⟨1, 2, 1⟩] P) ∧
      r.cv ≠ r'.cv ∧ r.psp ≠ r'.psp := by
  refine ⟨⟨[{{0, 1, 2}}, {{0, 1}, {2}}, {{0}, {1}, {2}}], [1, 5]⟩,
    ⟨[{{0, 1, 2}}, {{0}, {1}, {2}}], [3]⟩, by decide +kernel, by decide +kernel, ?_,
    by decide +kernel, by decide +kernel⟩
  intro P
  unfold crossWeight
  simp only [List.map_cons, List.map_nil, List.sum_cons, List.sum_nil]
  split <;> split <;> norm_num

/-! ### C19 -/

theorem runLoopDT_loop (S : FlowSolver) (g : Digraph) (lam : ℚ) {v : ℕ}
    (hl : ∃ a ∈ g.arcs, a.src = v ∧ a.dst = v) (k : ℕ) :
    ∀ (xl : List ℚ) (P : Partition), xl.length ≤ v → v < xl.length + k →
      ∃ why, runLoopDT S g lam k xl P = .ub why := by
  induction k with
  | zero => intro xl P h1 h2; omega
  | succ k ih =>
    intro xl P h1 h2
    unfold runLoopDT
    have hcases : (∃ why, minimizeDT S g lam xl = .ub why) ∨
        (xl.length < v ∧ ∃ r, minimizeDT S g lam xl = .ok r) := by
      unfold minimizeDT
      dsimp only
      split
      · exact Or.inl ⟨_, rfl⟩
      · split
        · exact Or.inl ⟨_, rfl⟩
        · rename_i hno
          right
          refine ⟨?_, ⟨_, rfl⟩⟩
          by_contra hlt
          have : v = xl.length := by omega
          exact hno (this ▸ hl)
    rcases hcases with ⟨why, h⟩ | ⟨hlt, r, h⟩
    · exact ⟨why, by rw [h]; rfl⟩
    · rw [h]
      simp only [Outcome.ok_bind]
      exact ih _ _ (by simp; omega) (by simp; omega)

/-- `run("dt")` on any graph with a self loop above the tolerance writes outside a vector (undefined
behaviour), whatever the rest of the graph and the flow solver. -/
theorem C19_self_loop_violated (S : FlowSolver) (eps : ℚ) (n : ℕ) (hn : 2 ≤ n) (E : List Arc)
    (hr : ∀ a ∈ E, a.src < n ∧ a.dst < n) (hl : ∃ a ∈ E, a.src = a.dst ∧ eps < a.cap) :
    ∃ why, (makeDgraph eps n E >>= dtRun S eps) = .ub why := by
  obtain ⟨a, ha, hloop, hcap⟩ := hl
  rw [makeDgraph_ok (fun b hb _ => hr b hb), Outcome.ok_bind]
  set g : Digraph := { nodes := List.range n, arcs := E.filter fun a => decide (eps < a.cap) } with hg
  have hcount : g.countNodes = n := by simp [hg, Digraph.countNodes]
  have hloop' : ∃ b ∈ g.arcs, b.src = a.dst ∧ b.dst = a.dst :=
    ⟨a, List.mem_filter.2 ⟨ha, by simpa using hcap⟩, hloop, rfl⟩
  have hd : ∀ lam, ∃ why, dilworthDT S g lam = .ub why := by
    intro lam
    unfold dilworthDT
    rw [hcount]
    obtain ⟨why, h⟩ := runLoopDT_loop S g lam hloop' n [] ∅ (Nat.zero_le _)
      (by simpa using (hr a ha).2)
    exact ⟨why, by rw [h]; rfl⟩
  obtain ⟨m, rfl⟩ : ∃ m, n = m + 1 := ⟨n - 1, by omega⟩
  have hcard : (makeFine (m + 1)).card = m + 1 := by
    rw [makeFine_eq, card_singletons, Finset.card_range]
  obtain ⟨why, h⟩ := hd (gammaApos g {makeDense (m + 1)} (makeFine (m + 1)))
  refine ⟨why, ?_⟩
  unfold dtRun
  simp only [hcount]
  unfold dtSplit
  rw [if_neg (by rw [hcard]; simp; omega), h]
  rfl

/-- A concrete graph with a self loop. -/
example : ∃ why, (makeDgraph lemonEps 3 [⟨0, 1, 5⟩, ⟨1, 1, 2⟩] >>= dtRun bruteSolver lemonEps) =
    .ub why :=
  C19_self_loop_violated bruteSolver lemonEps 3 (by norm_num) _ (by decide +kernel)
    ⟨⟨1, 1, 2⟩, by simp, rfl, by norm_num [lemonEps]⟩

end PSP.Props
