import Verif.Spec.PSP

/-!
# Specification: a hierarchy of partitions with values
-/

namespace PSP.Spec

/-- Partitions of `V` from the coarsest to the finest, each one strictly refining all before it, with one value between
each two neighbours; the values do not decrease. -/
structure IsHierarchy (V : Finset ℕ) (Ps : List (Finset (Finset ℕ))) (cv : List ℚ) : Prop where
  length : Ps.length = cv.length + 1
  partition : ∀ P ∈ Ps, IsPartition V P
  first : Ps.head? = some {V}
  last : Ps.getLast? = some (singletons V)
  refine : Ps.Pairwise fun P Q => Refines Q P ∧ Q ≠ P
  nondecreasing : cv.Pairwise (· ≤ ·)

end PSP.Spec
