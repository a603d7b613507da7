import Verif.Spec.PSP
import Verif.Spec.HC

/-!
# Specification: edges as links, forests

Nothing in this file mentions the model of the code.
-/

namespace PSP.Spec

/-- The edges as links whose values are the weights. -/
def links (E : List Arc) : List Link := E.map fun e => ⟨e.src, e.dst, e.cap⟩

/-- The edges form a forest: the end points of an edge are not connected by the other edges. -/
def IsForest (E : List Arc) : Prop :=
  ∀ A e B, E = A ++ e :: B → ¬ Joined (links (A ++ B)) ⊥ e.src e.dst

end PSP.Spec
