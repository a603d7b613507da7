import Mathlib.LinearAlgebra.FiniteDimensional.Lemmas
import Verif.Spec.SF

/-!
# Specification: rank of a finite linear source

Nothing in this file mentions the model of the code.
-/

namespace PSP.Spec

/-- The space spanned by the rows of the matrices of the elements of `B`, over the field `F`. -/
def rowSpace (F : Type) [Field F] (cols : ℕ) (M : List (List (List ℤ))) (B : Finset ℕ) :
    Submodule F (Fin cols → F) :=
  Submodule.span F {v | ∃ b ∈ B, ∃ r ∈ M.getD b [], v = fun k : Fin cols => ((r.getD k 0 : ℤ) : F)}

/-- Its dimension. -/
noncomputable def rowRank (F : Type) [Field F] (cols : ℕ) (M : List (List (List ℤ))) (B : Finset ℕ) : ℕ :=
  Module.finrank F (rowSpace F cols M B)

end PSP.Spec
