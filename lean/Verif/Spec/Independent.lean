import Verif.Spec.Shared

/-!
# Specification: independent parts

Nothing in this file mentions the model of the code.
-/

namespace PSP.Spec

/-- The blocks of the partition `P` of `V` have nothing in common: their values add up to the value of `V`. -/
def AreIndependent (φ : Finset ℕ → ℚ) (V : Finset ℕ) (P : Finset (Finset ℕ)) : Prop :=
  IsPartition V P ∧ ∑ C ∈ P, φ C = φ V

/-- `P` divides `V` into independent parts, as finely as possible. -/
def IsFinestIndependent (φ : Finset ℕ → ℚ) (V : Finset ℕ) (P : Finset (Finset ℕ)) : Prop :=
  AreIndependent φ V P ∧ ∀ Q, AreIndependent φ V Q → Refines P Q

/-- Several elements have together at most the sum of what they have alone. -/
def Subadditive (φ : Finset ℕ → ℚ) : Prop := φ ∅ = 0 ∧ ∀ S T, φ (S ∪ T) ≤ φ S + φ T

end PSP.Spec
