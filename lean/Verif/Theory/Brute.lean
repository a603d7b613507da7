import Verif.Model.Flow
import Mathlib.Tactic.Linarith
import Mathlib.Algebra.Order.BigOperators.Group.List

/-!
# The brute-force solver meets the assumptions made on the external flow solver
-/

namespace PSP.Theory

open PSP.Model

theorem list_sum_le_of {α : Type} (L : List α) (f g : α → ℚ) (h : ∀ a ∈ L, f a ≤ g a) :
    (L.map f).sum ≤ (L.map g).sum := by
  induction L with
  | nil => simp
  | cons a L ih =>
    simp only [List.map_cons, List.sum_cons]
    exact add_le_add (h a List.mem_cons_self) (ih fun b hb => h b (List.mem_cons_of_mem _ hb))

/-- Cut capacities are submodular. -/
theorem cutCap_submodular {N : Net} (hN : N.Nonneg) (X Y : Finset ℕ) :
    N.cutCap (X ∩ Y) + N.cutCap (X ∪ Y) ≤ N.cutCap X + N.cutCap Y := by
  unfold Net.cutCap
  rw [← List.sum_map_add, ← List.sum_map_add]
  apply list_sum_le_of
  intro e he
  have h0 := hN e he
  have key : ∀ w : NV, (w.onSink (X ∩ Y) = (w.onSink X && w.onSink Y)) ∧
      (w.onSink (X ∪ Y) = (w.onSink X || w.onSink Y)) := by
    intro w; cases w <;> simp [NV.onSink, Bool.decide_and, Bool.decide_or]
  rw [(key e.a).1, (key e.b).1, (key e.a).2, (key e.b).2]
  cases e.a.onSink X <;> cases e.a.onSink Y <;> cases e.b.onSink X <;> cases e.b.onSink Y <;>
    simp [h0]

theorem brute_le (N : Net) {X : Finset ℕ} (hX : X ⊆ N.verts) : bruteValue N ≤ N.cutCap X := by
  unfold bruteValue
  apply Finset.min'_le
  exact Finset.mem_image_of_mem _ (Finset.mem_powerset.2 hX)

theorem brute_attained (N : Net) : ∃ X ⊆ N.verts, N.cutCap X = bruteValue N := by
  have h := Finset.min'_mem (N.verts.powerset.image N.cutCap)
    (Finset.Nonempty.image ⟨∅, by simp⟩ _)
  rw [Finset.mem_image] at h
  obtain ⟨X, hX, h⟩ := h
  exact ⟨X, Finset.mem_powerset.1 hX, h⟩

/-- The sink side of the brute-force solver is the intersection of all minimum cuts. -/
theorem brute_sinkSide (N : Net) (v : ℕ) : v ∈ bruteSolver.sinkSide N ↔
    v ∈ N.verts ∧ ∀ X ⊆ N.verts, N.cutCap X = bruteValue N → v ∈ X := by
  unfold FlowSolver.sinkSide bruteSolver
  simp only [Finset.mem_filter, decide_eq_false_iff_not, Finset.mem_powerset]
  push Not
  rfl

theorem exists_min_cut_avoiding {N : Net} (hN : N.Nonneg) (W : Finset ℕ) :
    (∀ v ∈ W, ∃ X ⊆ N.verts, N.cutCap X = bruteValue N ∧ v ∉ X) →
    ∃ X ⊆ N.verts, N.cutCap X = bruteValue N ∧ Disjoint W X := by
  induction W using Finset.induction_on with
  | empty =>
    intro _
    obtain ⟨X, hX, h⟩ := brute_attained N
    exact ⟨X, hX, h, by simp⟩
  | insert a W ha ih =>
    intro h
    obtain ⟨X, hX, hXv, hXd⟩ := ih fun v hv => h v (Finset.mem_insert_of_mem hv)
    obtain ⟨Y, hY, hYv, hYa⟩ := h a (Finset.mem_insert_self _ _)
    have hs := cutCap_submodular hN X Y
    have h1 := brute_le N (X := X ∩ Y) (Finset.inter_subset_left.trans hX)
    have h2 := brute_le N (X := X ∪ Y) (Finset.union_subset hX hY)
    refine ⟨X ∩ Y, Finset.inter_subset_left.trans hX, by linarith, ?_⟩
    rw [Finset.disjoint_left] at hXd ⊢
    intro v hv hv'
    rw [Finset.mem_inter] at hv'
    rcases Finset.mem_insert.1 hv with rfl | hv
    · exact hYa hv'.2
    · exact hXd hv hv'.1

/-- The assumptions on the flow solver are satisfiable. -/
theorem bruteSolver_minimal : bruteSolver.Minimal where
  value_eq N hN := by
    obtain ⟨X, hX, hXv, hXd⟩ := exists_min_cut_avoiding hN (N.verts \ bruteSolver.sinkSide N) (by
      intro v hv
      rw [Finset.mem_sdiff, brute_sinkSide] at hv
      push Not at hv
      exact hv.2 hv.1)
    have : bruteSolver.sinkSide N = X := by
      apply Finset.Subset.antisymm
      · intro v hv
        exact ((brute_sinkSide N v).1 hv).2 X hX hXv
      · intro v hv
        by_contra hvn
        exact Finset.disjoint_left.1 hXd (Finset.mem_sdiff.2 ⟨hX hv, hvn⟩) hv
    rw [this, hXv]
    rfl
  le_cut N _ X hX := brute_le N hX
  minimal N _ X hX hv := by
    intro v hv'
    exact ((brute_sinkSide N v).1 hv').2 X hX hv

/-- The brute-force solver, except that on the network `N0` it reports the sink side `X0`. Used to
exhibit correct solvers that break ties differently. -/
def tieSolver (N0 : Net) (X0 : Finset ℕ) : FlowSolver where
  flowValue := bruteValue
  minCut N v := if N.verts = N0.verts ∧ N.arcs = N0.arcs then decide (v ∉ X0)
    else bruteSolver.minCut N v

theorem tieSolver_correct {N0 : Net} {X0 : Finset ℕ} (hX : X0 ⊆ N0.verts)
    (h : N0.cutCap X0 = bruteValue N0) : (tieSolver N0 X0).Correct where
  value_eq N hN := by
    by_cases hc : N.verts = N0.verts ∧ N.arcs = N0.arcs
    · have hN0 : N = N0 := by cases N; cases N0; simp only at hc; rw [hc.1, hc.2]
      subst hN0
      have : (tieSolver N X0).sinkSide N = X0 := by
        ext v
        unfold FlowSolver.sinkSide tieSolver
        simp only [and_self, if_true, Finset.mem_filter, decide_eq_false_iff_not, not_not]
        exact ⟨fun h => h.2, fun h => ⟨hX h, h⟩⟩
      rw [this, h]; rfl
    · have : (tieSolver N0 X0).sinkSide N = bruteSolver.sinkSide N := by
        unfold FlowSolver.sinkSide tieSolver
        simp only [hc, if_false]
      rw [this]
      exact bruteSolver_minimal.value_eq N hN
  le_cut N _ X hX := brute_le N hX

end PSP.Theory
