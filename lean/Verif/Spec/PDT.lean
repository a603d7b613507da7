import Mathlib.Data.Nat.Factorial.SuperFactorial
import Mathlib.Algebra.BigOperators.Group.Finset.Basic
import Verif.Spec.PSP

/-!
# Specification for the parametric method: piecewise linear functions and the tolerance
-/

namespace PSP.Spec

/-- The function `lam ↦ min (a - lam) b` of a pair `(a, b)`; `b = none` stands for infinity. -/
def pwl (p : ℚ × Option ℚ) (lam : ℚ) : ℚ :=
  match p.2 with
  | none => p.1 - lam
  | some b => min (p.1 - lam) b

/-- The sum of these functions over a list of pairs. -/
def pwlSum (ps : List (ℚ × Option ℚ)) (lam : ℚ) : ℚ := (ps.map fun p => pwl p lam).sum

/-- Weight of the edges into the node set `S` from outside. -/
def inWeight (E : List Arc) (S : Finset ℕ) : ℚ :=
  (E.map fun e => if e.dst ∈ S ∧ e.src ∉ S then e.cap else 0).sum

/-- The function minimised by the parametric flow of node `j`: for `T = X ∪ {j}`,
`f(T) - ∑_{i ∈ X} min(a_i - lam, b_i)`. -/
def paramObj (E : List Arc) (y : ℕ → ℚ × Option ℚ) (lam : ℚ) (j : ℕ) (T : Finset ℕ) : ℚ :=
  inWeight E T - ∑ i ∈ T.erase j, pwl (y i) lam

/-- `T` is a best set containing `j` among the sets of nodes `0..j`. -/
def IsParamMin (E : List Arc) (y : ℕ → ℚ × Option ℚ) (lam : ℚ) (j : ℕ) (T : Finset ℕ) : Prop :=
  (j ∈ T ∧ T ⊆ Finset.range (j + 1)) ∧
    ∀ R, j ∈ R → R ⊆ Finset.range (j + 1) → paramObj E y lam j T ≤ paramObj E y lam j R

/-- The tolerance is positive and small enough for the parametric method: weights and the start value
`1/10` of the parameter are integer multiples of some `u > 0`, and `10 eps ∏_{i<n} i! < u`. For integer
weights and the tolerance `1e-10` of LEMON this holds for `n ≤ 7`; see `pdtTolerance_eventually` for
arbitrary graphs. -/
def PdtTolerance (eps : ℚ) (n : ℕ) (E : List Arc) : Prop :=
  ∃ u : ℚ, 0 < u ∧ (∀ e ∈ E, ∃ k : ℤ, e.cap = k * u) ∧ (∃ k : ℤ, 1 / 10 = k * u) ∧ 0 < eps ∧
    10 * eps * (Nat.superFactorial (n - 1) : ℚ) < u

end PSP.Spec
