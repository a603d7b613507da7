import Verif.Spec.PSP
import Mathlib.Logic.Relation

/-!
# Specification: connected nodes

Nothing in this file mentions the model of the code.
-/

namespace PSP.Spec

/-- `u` and `v` are equal or connected by a path of edges of positive weight that does not leave `S`. The direction of the
edges does not matter. -/
def ConnectedIn (E : List Arc) (S : Finset ℕ) : ℕ → ℕ → Prop :=
  Relation.EqvGen fun x y => x ∈ S ∧ y ∈ S ∧ ∃ e ∈ E, e.src = x ∧ e.dst = y ∧ 0 < e.cap

end PSP.Spec
