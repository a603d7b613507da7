import Verif.Spec.PSP

/-!
# Specification: capacities between sets of nodes

Nothing in this file mentions the model of the code.
-/

namespace PSP.Spec

/-- Total capacity of the arcs from `A` to `B`. -/
def capFromTo (E : List Arc) (A B : Finset ℕ) : ℚ :=
  (E.map fun a => if a.src ∈ A ∧ a.dst ∈ B then a.cap else 0).sum

/-- The nodes that `A` stands for after `S` has been contracted to `i`. -/
def uncontract (S : Finset ℕ) (i : ℕ) (A : Finset ℕ) : Finset ℕ := if i ∈ A then A ∪ S else A

end PSP.Spec
