import Verif.Props.RoundedPSPI

/-!
# Properties: `psp_i` in floating-point arithmetic can report decreasing critical values (C72)
-/

namespace PSP.Props

open PSP.Spec PSP.Model PSP.Theory

/-- The order in which `ArcIt` of LEMON's `ListDigraph` visits the arcs: node by node, from the node that was added last
to the first one; the arcs that leave a node from the one that was added last to the first one. -/
def lemonOrder (arcs : List Arc) : List Arc := arcs.reverse.insertionSort fun a b => b.src ≤ a.src

theorem lemonOrder_perm (l : List Arc) : (lemonOrder l).Perm l :=
  (List.perm_insertionSort _ _).trans l.reverse_perm

/-- The `double` value of a multiple of `0.1`. -/
def tenth (k : ℕ) : ℚ := roundDouble (k / 10)

/-- A graph with weights `0.1` and `0.3`. -/
def tenthArcs : List Arc := [⟨0, 1, tenth 1⟩, ⟨0, 3, tenth 1⟩, ⟨0, 4, tenth 3⟩, ⟨1, 3, tenth 1⟩, ⟨1, 4, tenth 3⟩,
  ⟨2, 3, tenth 1⟩, ⟨2, 5, tenth 1⟩, ⟨3, 5, tenth 3⟩, ⟨4, 5, tenth 1⟩]

theorem tenth_run : (makeDgraph lemonEps 6 tenthArcs >>= fun g =>
      pspiRunF roundDouble lemonOrder (roundedSolver 53) lemonEps exOrd g >>= fun r => pure r.2) =
    .ok ⟨[{{0, 1, 2, 3, 4, 5}}, {{2}, {0, 1, 3, 4, 5}}, {{2}, {0, 1, 4}, {3, 5}}, {{2}, {3}, {5}, {0, 1, 4}},
      {{0}, {1}, {2}, {3}, {4}, {5}}],
      [tenth 2, roundDouble (tenth 3 + 1 / 2 ^ 54), tenth 3, roundDouble (35 / 100)]⟩ := by
  rw [roundedSolver_scan]
  decide +kernel

theorem tenth_decreasing : tenth 3 < roundDouble (tenth 3 + 1 / 2 ^ 54) := by decide +kernel

/-- **C72** fails as stated: in `double` arithmetic, for a graph with the weights `0.1` and `0.3`, with a flow solver that
reports minimal cuts and rounds only the value, `psp_i` reports the critical values `0.2, 0.30000000000000004, 0.3, 0.35`,
which are not in increasing order. -/
theorem C72_order_violated : ∃ n E, ValidInput n E ∧ 2 ≤ n ∧ (∀ e ∈ E, e.cap = tenth 1 ∨ e.cap = tenth 3) ∧
    ∃ g' r, (makeDgraph lemonEps n E >>= pspiRunF roundDouble lemonOrder (roundedSolver 53) lemonEps exOrd) =
      .ok (g', r) ∧ ¬ r.cv.Pairwise (· ≤ ·) := by
  have h := tenth_run
  rw [← Outcome.bind_assoc] at h
  obtain ⟨⟨g', r⟩, hx, hx'⟩ := Outcome.bind_eq_ok h
  cases hx'
  refine ⟨6, tenthArcs, by decide +kernel, by norm_num, by decide +kernel, g', _, hx, fun hp => ?_⟩
  have h1 := hp.rel_get_of_lt (a := ⟨1, by simp⟩) (b := ⟨2, by simp⟩) (by simp)
  exact absurd tenth_decreasing (not_lt.2 h1)

end PSP.Props
