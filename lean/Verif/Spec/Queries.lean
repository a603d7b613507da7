import Verif.Spec.Hierarchy
import Mathlib.Order.WithBot

/-!
# Specification: the partition of a sequence at a threshold
-/

namespace PSP.Spec

/-- `P` is the partition that the sequence `Ps` with the values `cv` has above all values up to `gam` and below the others. -/
def PartitionAt (Ps : List (Finset (Finset ℕ))) (cv : List ℚ) (gam : WithBot ℚ) (P : Finset (Finset ℕ)) : Prop :=
  ∃ i : ℕ, Ps[i]? = some P ∧ (∀ (j : ℕ) (c : ℚ), cv[j]? = some c → (j < i ↔ (c : WithBot ℚ) ≤ gam))

end PSP.Spec
