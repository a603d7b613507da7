import Verif.Spec.PSP

/-!
# Specification: principal sequences up to an error

Nothing in this file mentions the model of the code.
-/

namespace PSP.Spec

/-- `P` is a partition of `V` whose cost at parameter `lam` is within `C` of the least possible cost. -/
def IsNearOptimal (E : List Arc) (V : Finset ℕ) (C lam : ℚ) (P : Finset (Finset ℕ)) : Prop :=
  IsPartition V P ∧ ∀ R, IsPartition V R → cost E lam P ≤ cost E lam R + C

/-- Like `IsWeakPrincipalSequence`, but every partition need only be within `C` of the optimum between its two
critical values. -/
structure IsApproximateSequence (E : List Arc) (V : Finset ℕ) (C : ℚ)
    (Ps : List (Finset (Finset ℕ))) (cv : List ℚ) : Prop where
  length : Ps.length = cv.length + 1
  first : Ps.head? = some {V}
  last : Ps.getLast? = some (singletons V)
  refine : Ps.Pairwise fun P Q => Refines Q P ∧ Q ≠ P
  nondecreasing : cv.Pairwise (· ≤ ·)
  optimal : ∀ (i : ℕ) (P : Finset (Finset ℕ)) (lam : ℚ), Ps[i]? = some P →
    (∀ j c, cv[j]? = some c → j < i → c ≤ lam) →
    (∀ j c, cv[j]? = some c → i ≤ j → lam ≤ c) →
    IsNearOptimal E V C lam P

end PSP.Spec
