import Verif.Spec.PSP

/-!
# What the partitions and critical values mean for the graph, without optimisation over partitions of all nodes
-/

namespace PSP.Spec

/-- Total weight of the edges. -/
def totalWeight (E : List Arc) : ℚ := (E.map fun e => e.cap).sum

/-- Total weight of the edges with both ends in `S`. -/
def insideWeight (E : List Arc) (S : Finset ℕ) : ℚ :=
  (E.map fun e => if e.src ∈ S ∧ e.dst ∈ S then e.cap else 0).sum

/-- Total weight of the edges with both ends in `S` that are cut if `S` is broken into the pieces `Q`. -/
def brokenWeight (E : List Arc) (S : Finset ℕ) (Q : Finset (Finset ℕ)) : ℚ :=
  (E.map fun e => if (e.src ∈ S ∧ e.dst ∈ S) ∧ ¬ Same Q e.src e.dst then e.cap else 0).sum

/-- Breaking `S` into `k ≥ 2` pieces always cuts edges of total weight more than `γ (k - 1)`. -/
def HoldsTogether (E : List Arc) (γ : ℚ) (S : Finset ℕ) : Prop :=
  ∀ Q, IsPartition S Q → 2 ≤ Q.card → γ * ((Q.card : ℚ) - 1) < brokenWeight E S Q

/-- The sum over all steps of the critical value times the number of additional blocks. -/
def stepSum : List (Finset (Finset ℕ)) → List ℚ → ℚ
  | P :: Q :: Ps, c :: cv => c * ((Q.card : ℚ) - P.card) + stepSum (Q :: Ps) cv
  | _, _ => 0

end PSP.Spec
