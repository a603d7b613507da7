import Mathlib.Algebra.BigOperators.Ring.Finset
import Mathlib.Algebra.Order.BigOperators.Group.List
import Mathlib.Tactic.Linarith
import Mathlib.Tactic.Ring
import Verif.Model.PMFRWarm

/-!
# Flows and cuts
-/

namespace PSP.Theory

open PSP.Spec PSP.Model

/-- What arrives at `x` minus what leaves it, over a list of arcs with their flow. -/
def exc (Z : List (NArc × ℚ)) (x : NV) : ℚ :=
  (Z.map fun e => (if e.1.b = x then e.2 else 0) - (if e.1.a = x then e.2 else 0)).sum

theorem excess_eq (arcs : List NArc) (f : List ℚ) (x : NV) : excess arcs f x = exc (arcs.zip f) x := rfl

theorem onSink_sum (X : Finset ℕ) (x : NV) (q : ℚ) :
    (if x = .snk then q else 0) + ∑ i ∈ X, (if x = .v i then q else 0) = if x.onSink X then q else 0 := by
  cases x with
  | src => simp [NV.onSink]
  | snk => simp [NV.onSink]
  | v k => simp [NV.onSink]

/-- Net flow into a set of nodes together with the sink. -/
theorem exc_set (Z : List (NArc × ℚ)) (X : Finset ℕ) :
    exc Z .snk + ∑ i ∈ X, exc Z (.v i) =
      (Z.map fun e => (if e.1.b.onSink X then e.2 else 0) - (if e.1.a.onSink X then e.2 else 0)).sum := by
  induction Z with
  | nil => simp [exc]
  | cons e Z ih =>
    have h : ∀ x, exc (e :: Z) x = ((if e.1.b = x then e.2 else 0) - (if e.1.a = x then e.2 else 0)) +
        exc Z x := fun x => by simp [exc]
    rw [List.map_cons, List.sum_cons, ← ih, h, Finset.sum_congr rfl fun i _ => h (.v i),
      Finset.sum_add_distrib, Finset.sum_sub_distrib, ← onSink_sum X e.1.b, ← onSink_sum X e.1.a]
    ring

/-- The capacity of a cut, over a list of arcs with their flow. -/
theorem cutCap_zip {N : Net} {f : List ℚ} (hf : f.length = N.arcs.length) (X : Finset ℕ) :
    N.cutCap X = ((N.arcs.zip f).map fun e =>
      if e.1.a.onSink X = false ∧ e.1.b.onSink X = true then e.1.cap else 0).sum := by
  unfold Net.cutCap
  conv_lhs => rw [← List.map_fst_zip (l₁ := N.arcs) (l₂ := f) (by omega)]
  rw [List.map_map]
  rfl

/-- Capacity minus net flow of a cut, arc by arc. -/
theorem cut_sub_flow {N : Net} {f : List ℚ} (hf : IsFlow N f) (X : Finset ℕ) :
    N.cutCap X - excess N.arcs f .snk = ((N.arcs.zip f).map fun e =>
      (if e.1.a.onSink X = false ∧ e.1.b.onSink X = true then e.1.cap - e.2 else 0) +
      (if e.1.a.onSink X = true ∧ e.1.b.onSink X = false then e.2 else 0)).sum := by
  have h1 := exc_set (N.arcs.zip f) X
  have h2 : ∑ i ∈ X, exc (N.arcs.zip f) (.v i) = 0 := Finset.sum_eq_zero fun i _ => hf.conserve i
  rw [h2, add_zero] at h1
  rw [cutCap_zip hf.length, excess_eq, h1, sub_eq_iff_eq_add, ← List.sum_map_add]
  congr 1
  apply List.map_congr_left
  intro e _
  cases e.1.a.onSink X <;> cases e.1.b.onSink X <;> simp

theorem cut_term_nonneg {N : Net} {f : List ℚ} (hf : IsFlow N f) (X : Finset ℕ) :
    ∀ e ∈ N.arcs.zip f, 0 ≤
      (if e.1.a.onSink X = false ∧ e.1.b.onSink X = true then e.1.cap - e.2 else 0) +
      (if e.1.a.onSink X = true ∧ e.1.b.onSink X = false then e.2 else 0) := by
  intro e he
  have := hf.bounds e he
  split <;> split <;> linarith

/-- No flow exceeds the capacity of a cut. -/
theorem IsFlow.le_cut {N : Net} {f : List ℚ} (hf : IsFlow N f) (X : Finset ℕ) :
    excess N.arcs f .snk ≤ N.cutCap X := by
  rw [← sub_nonneg, cut_sub_flow hf]
  apply List.sum_nonneg
  intro z hz
  obtain ⟨e, he, rfl⟩ := List.mem_map.1 hz
  exact cut_term_nonneg hf X e he

/-- A flow of the value of a cut does not use the arcs leading back. -/
theorem IsFlow.slack {N : Net} {f : List ℚ} (hf : IsFlow N f) {X : Finset ℕ}
    (h : N.cutCap X = excess N.arcs f .snk) :
    ∀ e ∈ N.arcs.zip f, e.1.a.onSink X = true → e.1.b.onSink X = false → e.2 = 0 := by
  intro e he h1 h2
  have h0 := cut_sub_flow hf X
  rw [h, sub_self] at h0
  have h3 := List.all_zero_of_le_zero_le_of_sum_eq_zero (l := (N.arcs.zip f).map fun e =>
      (if e.1.a.onSink X = false ∧ e.1.b.onSink X = true then e.1.cap - e.2 else 0) +
      (if e.1.a.onSink X = true ∧ e.1.b.onSink X = false then e.2 else 0)) (by
    intro z hz
    obtain ⟨e, he, rfl⟩ := List.mem_map.1 hz
    exact cut_term_nonneg hf X e he) h0.symm (List.mem_map.2 ⟨e, he, rfl⟩)
  simpa [h1, h2] using h3

end PSP.Theory
