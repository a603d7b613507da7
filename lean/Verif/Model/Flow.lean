import Mathlib.Data.Finset.Powerset
import Mathlib.Data.Finset.Max
import Verif.Model.Basic

/-!
# Model of the max-flow solver `lemon::Preflow` (an external library)
-/

namespace PSP.Model

/-- A vertex of a flow network: the source, the sink, or an ordinary node. -/
inductive NV where
  | src | snk | v (i : ℕ)
deriving DecidableEq, Repr

/-- An arc of a flow network with its capacity. -/
structure NArc where
  a : NV
  b : NV
  cap : ℚ
deriving DecidableEq, Repr

/-- A flow network: ordinary vertices and arcs. -/
structure Net where
  verts : Finset ℕ
  arcs : List NArc
deriving DecidableEq

/-- Is the vertex on the sink side of the cut whose sink side is `X ∪ {sink}`? -/
def NV.onSink (X : Finset ℕ) : NV → Bool
  | .src => false
  | .snk => true
  | .v i => decide (i ∈ X)

/-- Capacity of the cut with sink side `X ∪ {sink}`. -/
def Net.cutCap (N : Net) (X : Finset ℕ) : ℚ :=
  (N.arcs.map fun e => if e.a.onSink X = false ∧ e.b.onSink X = true then e.cap else 0).sum

/-- All capacities are nonnegative. -/
def Net.Nonneg (N : Net) : Prop := ∀ e ∈ N.arcs, 0 ≤ e.cap

/-- Model of `lemon::Preflow` after `run()`: `flowValue()` and `minCut(node)`
(`true` = on the source side). The solver is a parameter of the whole model. -/
structure FlowSolver where
  flowValue : Net → ℚ
  minCut : Net → ℕ → Bool

/-- The ordinary nodes reported on the sink side. -/
def FlowSolver.sinkSide (S : FlowSolver) (N : Net) : Finset ℕ :=
  N.verts.filter fun v => S.minCut N v = false

/-- Assumption on the external solver: the flow value is the capacity of the reported cut, and no
cut is smaller. -/
structure FlowSolver.Correct (S : FlowSolver) : Prop where
  value_eq : ∀ N : Net, N.Nonneg → S.flowValue N = N.cutCap (S.sinkSide N)
  le_cut : ∀ N : Net, N.Nonneg → ∀ X ⊆ N.verts, S.flowValue N ≤ N.cutCap X

/-- Additional assumption on the external solver: the reported sink side is contained in the sink
side of every minimum cut, i.e. it consists of the nodes that reach the sink in the residual network.
LEMON's `Preflow` does *not* promise this (its `minCut` reports the nodes whose label did not reach the
maximum, which may include nodes that no longer reach the sink); theorems that need it say so, and
there are theorems showing what goes wrong without it. -/
structure FlowSolver.Minimal (S : FlowSolver) : Prop extends S.Correct where
  minimal : ∀ N : Net, N.Nonneg → ∀ X ⊆ N.verts, N.cutCap X = S.flowValue N → S.sinkSide N ⊆ X

/-- A brute-force solver: minimum over all subsets, sink side = the nodes in every minimum cut. It
shows that the assumptions can be met and makes the model executable. -/
def bruteValue (N : Net) : ℚ :=
  (N.verts.powerset.image N.cutCap).min' (Finset.Nonempty.image ⟨∅, by simp⟩ _)

def bruteSolver : FlowSolver where
  flowValue := bruteValue
  minCut N v := decide (∃ X ∈ N.verts.powerset, N.cutCap X = bruteValue N ∧ v ∉ X)

end PSP.Model
