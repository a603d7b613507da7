import Verif.Spec.SF
import Verif.Spec.Spectrum
import Mathlib.Order.Bounds.Basic

/-!
# Specification: shared information and clusters of a set function

Nothing in this file mentions the model of the code.
-/

namespace PSP.Spec

/-- What the blocks of the partition `Q` of `S` have in common: the sum of their values minus the value of `S`. -/
def common (φ : Finset ℕ → ℚ) (S : Finset ℕ) (Q : Finset (Finset ℕ)) : ℚ := ∑ C ∈ Q, φ C - φ S

/-- However `S` is divided, the parts have more than `γ` in common per additional part: the shared information of `S`
exceeds `γ`. -/
def SharesMore (φ : Finset ℕ → ℚ) (γ : ℚ) (S : Finset ℕ) : Prop :=
  ∀ Q, IsPartition S Q → 2 ≤ Q.card → γ * ((Q.card : ℚ) - 1) < common φ S Q

/-- `Ps` and `cv` are the clusters of the set function `φ` by shared information. -/
structure AreClusters (φ : Finset ℕ → ℚ) (V : Finset ℕ) (Ps : List (Finset (Finset ℕ))) (cv : List ℚ) : Prop where
  /-- At every threshold two elements are in one cluster if and only if some set containing them shares more than the
  threshold. -/
  cluster : ∀ γ : ℚ, ∃ P, Ps[cv.countP fun c => decide (c ≤ γ)]? = some P ∧
    ∀ u v, Same P u v ↔ ∃ S ⊆ V, u ∈ S ∧ v ∈ S ∧ SharesMore φ γ S
  /-- There are critical values, unless there is only one element. -/
  some_value : 2 ≤ V.card → cv ≠ []
  /-- The first one is the information shared by all elements. -/
  first : ∀ c, cv.head? = some c →
    IsLeast {x | ∃ P, IsPartition V P ∧ 2 ≤ P.card ∧ x = common φ V P / ((P.card : ℚ) - 1)} c
  /-- The last one is the largest total correlation per additional element of any set. -/
  last : ∀ c, cv.getLast? = some c →
    IsGreatest {x | ∃ S ⊆ V, 2 ≤ S.card ∧ x = common φ S (singletons S) / ((S.card : ℚ) - 1)} c
  /-- The critical values times the numbers of additional clusters add up to the total correlation. -/
  total : stepSum Ps cv = common φ V (singletons V)

end PSP.Spec
