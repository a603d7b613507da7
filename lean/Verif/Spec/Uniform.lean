import Verif.Spec.Spectrum

/-!
# Specification: graphs without denser parts

Nothing in this file mentions the model of the code.
-/

namespace PSP.Spec

/-- The total weight per additional node of the graph with the nodes `V`. -/
def meanDensity (E : List Arc) (V : Finset ℕ) : ℚ := totalWeight E / ((V.card : ℚ) - 1)

/-- No set of nodes is denser than the whole graph. -/
def NoDenserPart (E : List Arc) (V : Finset ℕ) : Prop :=
  ∀ S ⊆ V, 2 ≤ S.card → insideWeight E S / ((S.card : ℚ) - 1) ≤ meanDensity E V

/-- Every proper set of nodes is less dense than the whole graph. -/
def PartsLessDense (E : List Arc) (V : Finset ℕ) : Prop :=
  ∀ S ⊂ V, 2 ≤ S.card → insideWeight E S / ((S.card : ℚ) - 1) < meanDensity E V

/-- The complete graph with the nodes `0..n-1` and equal weights. -/
def completeArcs (n : ℕ) (w : ℚ) : List Arc := (List.range n).flatMap fun j => (List.range j).map fun i => ⟨i, j, w⟩

end PSP.Spec
