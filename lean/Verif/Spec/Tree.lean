import Verif.Spec.PSP

/-!
# Specification: trees given by parents

Nothing in this file mentions the model of the code.
-/

namespace PSP.Spec

/-- The edges of the tree with the nodes `0..n-1` and the root `0` in which node `j` has the parent `K[j]`, and `W[j]` is
the weight of the edge between them. What the lists say about the root is not used. -/
def treeEdges (n : ℕ) (K : List ℕ) (W : List ℚ) : List Arc :=
  (List.range (n - 1)).map fun i => ⟨K.getD (i + 1) 0, i + 1, W.getD (i + 1) 0⟩

/-- Every node but the root has a parent with a smaller number. -/
def IsTree (n : ℕ) (K : List ℕ) : Prop := K.length = n ∧ ∀ j < n, 0 < j → K.getD j 0 < j

instance (n : ℕ) (K : List ℕ) : Decidable (IsTree n K) := by unfold IsTree; infer_instance

/-- In the order of decreasing weights, equal ones by number, `a` comes before `b`. -/
def ComesBefore (W : List ℚ) (a b : ℕ) : Prop := W.getD b 0 < W.getD a 0 ∨ (W.getD a 0 = W.getD b 0 ∧ a < b)

instance (W : List ℚ) (a b : ℕ) : Decidable (ComesBefore W a b) := by unfold ComesBefore; infer_instance

/-- The weights decrease strictly from a node to its parent, unless this is the root; and before a node that has children
comes one of its siblings (or the root itself, if the node hangs on the root). -/
def Orderly (n : ℕ) (K : List ℕ) (W : List ℚ) : Prop :=
  ∀ j < n, 0 < j → (0 < K.getD j 0 → W.getD (K.getD j 0) 0 < W.getD j 0) ∧
    ((∃ i < n, 0 < i ∧ K.getD i 0 = j) → ∃ i < n, K.getD i 0 = K.getD j 0 ∧ ComesBefore W i j)

instance (n : ℕ) (K : List ℕ) (W : List ℚ) : Decidable (Orderly n K W) := by unfold Orderly; infer_instance

end PSP.Spec
