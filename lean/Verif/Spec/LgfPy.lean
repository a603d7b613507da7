import Verif.Spec.PSP

/-!
# Specification: files with graphs

Nothing in this file mentions the model of the code.
-/

namespace PSP.Spec

/-- A text that can be the print of a finite number. -/
def NumberText (t : List Char) : Prop :=
  t ≠ [] ∧ ∀ c ∈ t, c ∈ ['0', '1', '2', '3', '4', '5', '6', '7', '8', '9', '.', 'e', '+', '-']

end PSP.Spec
