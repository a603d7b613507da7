import Verif.Spec.Spectrum
import Mathlib.Algebra.BigOperators.Group.Finset.Basic

/-!
# Specification: comparing the results for two graphs

Nothing in this file mentions the model of the code.
-/

namespace PSP.Spec

/-- The weight between two nodes, whichever way the edges are given. -/
def between (E : List Arc) (u v : ℕ) : ℚ :=
  (E.map fun e => if (e.src = u ∧ e.dst = v) ∨ (e.src = v ∧ e.dst = u) then e.cap else 0).sum

/-- The sum of the changes of all weights. -/
def weightDistance (n : ℕ) (E E' : List Arc) : ℚ :=
  ∑ p ∈ (Finset.range n ×ˢ Finset.range n).filter fun p => p.1 < p.2, |between E p.1 p.2 - between E' p.1 p.2|

/-- The sum of the amounts by which the weights of the first graph exceed those of the second. -/
def weightExcess (n : ℕ) (E E' : List Arc) : ℚ :=
  ∑ p ∈ (Finset.range n ×ˢ Finset.range n).filter fun p => p.1 < p.2, max 0 (between E p.1 p.2 - between E' p.1 p.2)

/-- The critical values, each as often as there are additional blocks. -/
def spectrum : List (Finset (Finset ℕ)) → List ℚ → List ℚ
  | P :: Q :: Ps, c :: cv => List.replicate (Q.card - P.card) c ++ spectrum (Q :: Ps) cv
  | _, _ => []

/-- The clusters at the threshold `γ`: the partition whose number is the number of critical values up to `γ`. -/
def clustersAt (Ps : List (Finset (Finset ℕ))) (cv : List ℚ) (γ : ℚ) : Finset (Finset ℕ) :=
  Ps.getD (cv.countP fun c => decide (c ≤ γ)) ∅

/-- `φ` maps the `k` nodes of the first graph to different nodes among the `n` of the second. -/
def IsEmbedding (k n : ℕ) (φ : ℕ → ℕ) : Prop :=
  (∀ u < k, φ u < n) ∧ ∀ u < k, ∀ v < k, φ u = φ v → u = v

/-- `π` maps the `n` nodes of the first graph onto the `k` nodes of the second: nodes with the same image are merged. -/
def IsMerging (n k : ℕ) (π : ℕ → ℕ) : Prop := (∀ u < n, π u < k) ∧ ∀ a < k, ∃ u < n, π u = a

/-- The weight between the nodes merged to `a` and those merged to `b`. -/
def mergedWeight (n : ℕ) (E : List Arc) (π : ℕ → ℕ) (a b : ℕ) : ℚ :=
  ∑ u ∈ (Finset.range n).filter fun u => π u = a, ∑ v ∈ (Finset.range n).filter fun v => π v = b, between E u v

end PSP.Spec
