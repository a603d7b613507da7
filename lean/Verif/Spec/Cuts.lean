import Verif.Spec.Spectrum

/-!
# Specification: cuts and degrees

Nothing in this file mentions the model of the code.
-/

namespace PSP.Spec

/-- Total weight of the edges with exactly one end in `S`. For a single node this is its degree. -/
def boundaryWeight (E : List Arc) (S : Finset ℕ) : ℚ :=
  (E.map fun e => if (e.src ∈ S ∧ e.dst ∉ S) ∨ (e.src ∉ S ∧ e.dst ∈ S) then e.cap else 0).sum

/-- The lightest cut of the graph with the nodes `V`: every set of nodes but `∅` and `V` is left by edges of this weight
at least, and one by no more. -/
def IsMinCut (E : List Arc) (V : Finset ℕ) (x : ℚ) : Prop :=
  IsLeast {y | ∃ S, S ⊂ V ∧ S.Nonempty ∧ y = boundaryWeight E S} x

/-- The largest degree. -/
def IsMaxDegree (E : List Arc) (V : Finset ℕ) (x : ℚ) : Prop := IsGreatest {y | ∃ v ∈ V, y = boundaryWeight E {v}} x

end PSP.Spec
