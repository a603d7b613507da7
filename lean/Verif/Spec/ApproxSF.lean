import Verif.Spec.SF

/-!
# Specification: principal sequences of set functions up to an error

Nothing in this file mentions the model of the code.
-/

namespace PSP.Spec

/-- `P` is a partition of `V` whose cost under the set function `h` at parameter `lam` is within `C` of the least
possible cost. -/
def IsNearOptimalSF (h : Finset ℕ → ℚ) (V : Finset ℕ) (C lam : ℚ) (P : Finset (Finset ℕ)) : Prop :=
  IsPartition V P ∧ ∀ R, IsPartition V R → costSF h lam P ≤ costSF h lam R + C

/-- Like `IsPrincipalSequenceSF`, but every partition need only be within `C` of the optimum between its two critical
values, and the critical values need only be nondecreasing (same shape as `IsApproximateSequence`). -/
structure IsApproximateSequenceSF (h : Finset ℕ → ℚ) (V : Finset ℕ) (C : ℚ)
    (Ps : List (Finset (Finset ℕ))) (cv : List ℚ) : Prop where
  length : Ps.length = cv.length + 1
  first : Ps.head? = some {V}
  last : Ps.getLast? = some (singletons V)
  refine : Ps.Pairwise fun P Q => Refines Q P ∧ Q ≠ P
  nondecreasing : cv.Pairwise (· ≤ ·)
  optimal : ∀ (i : ℕ) (P : Finset (Finset ℕ)) (lam : ℚ), Ps[i]? = some P →
    (∀ j c, cv[j]? = some c → j < i → c ≤ lam) →
    (∀ j c, cv[j]? = some c → i ≤ j → lam ≤ c) →
    IsNearOptimalSF h V C lam P

end PSP.Spec
