import Mathlib.Data.Finset.Basic
import Mathlib.Data.Finset.Card
import Mathlib.Data.Finset.Image
import Mathlib.Data.Finset.Lattice.Fold
import Mathlib.Data.Finset.Sort
import Mathlib.Data.Rat.Defs
import Mathlib.Algebra.Order.Field.Rat
import Mathlib.Algebra.BigOperators.Group.Finset.Basic
import Verif.Spec.PSP

/-!
# Model: outcomes, sets, partitions, graphs
-/

namespace PSP.Model

open PSP.Spec (Arc)

/-- Result of running a piece of C++: a value, a C++ exception, undefined behaviour, a
floating-point result outside the finite numbers (`0/0`, `x/0`), or fuel exhausted (the recursion
of the model was cut off; theorems show it never happens). -/
inductive Outcome (α : Type) where
  | ok (a : α)
  | exc (what : String)
  | ub (what : String)
  | nan
  | fuel
deriving Repr

instance {α : Type} [DecidableEq α] : DecidableEq (Outcome α) := fun x y =>
  match x, y with
  | .ok a, .ok b => decidable_of_iff (a = b) (by simp)
  | .exc a, .exc b => decidable_of_iff (a = b) (by simp)
  | .ub a, .ub b => decidable_of_iff (a = b) (by simp)
  | .nan, .nan => isTrue rfl
  | .fuel, .fuel => isTrue rfl
  | .ok _, .exc _ | .ok _, .ub _ | .ok _, .nan | .ok _, .fuel
  | .exc _, .ok _ | .exc _, .ub _ | .exc _, .nan | .exc _, .fuel
  | .ub _, .ok _ | .ub _, .exc _ | .ub _, .nan | .ub _, .fuel
  | .nan, .ok _ | .nan, .exc _ | .nan, .ub _ | .nan, .fuel
  | .fuel, .ok _ | .fuel, .exc _ | .fuel, .ub _ | .fuel, .nan => isFalse (by simp)

namespace Outcome
variable {α β : Type}

def bind : Outcome α → (α → Outcome β) → Outcome β
  | ok a, f => f a
  | exc e, _ => exc e
  | ub e, _ => ub e
  | nan, _ => nan
  | fuel, _ => fuel

instance : Monad Outcome where
  pure := ok
  bind := bind

@[simp] theorem pure_eq (a : α) : (pure a : Outcome α) = ok a := rfl
@[simp] theorem ok_bind (a : α) (f : α → Outcome β) : (ok a >>= f) = f a := rfl
theorem bind_eq_ok {x : Outcome α} {f : α → Outcome β} {b : β} (h : (x >>= f) = ok b) :
    ∃ a, x = ok a ∧ f a = ok b := by
  cases x with
  | ok a => exact ⟨a, rfl, h⟩
  | exc e => cases h
  | ub e => cases h
  | nan => cases h
  | fuel => cases h

theorem bind_assoc {γ : Type} (x : Outcome α) (f : α → Outcome β) (h : β → Outcome γ) :
    (x >>= f >>= h) = (x >>= fun a => f a >>= h) := by
  cases x <;> rfl

@[simp] theorem exc_bind (e : String) (f : α → Outcome β) : ((exc e : Outcome α) >>= f) = exc e := rfl
@[simp] theorem ub_bind (e : String) (f : α → Outcome β) : ((ub e : Outcome α) >>= f) = ub e := rfl
@[simp] theorem nan_bind (f : α → Outcome β) : ((nan : Outcome α) >>= f) = nan := rfl
@[simp] theorem fuel_bind (f : α → Outcome β) : ((fuel : Outcome α) >>= f) = fuel := rfl

end Outcome

/-- Model of `stl::CSet` (submodule `psp/set`, absent from the tree): a finite set of node ids.
`AddElement`, `HasElement`, `Union`, `Intersection`, `Difference`, `IsSubSet`, `Cardinality` are the
operations of `Finset`; `*S.begin()` is the least element (`CSet` iterates in increasing order). -/
abbrev CSet := Finset ℕ

/-- Model of `stl::Partition` (submodule `psp/set`, absent from the tree): a set of blocks.
`AddElement` is `insert`, `Cardinality` is `card`, `==` is equality of sets. -/
abbrev Partition := Finset (Finset ℕ)

/-- `stl::CSet::MakeDense(n)` = `{0, …, n-1}` (used in dt.cpp:146, hpsp.cpp:12, psp_i.cpp:104). -/
def makeDense (n : ℕ) : CSet := Finset.range n

/-- `stl::Partition::makeFine(n)`: all singletons (dt.cpp:149, hpsp.cpp:88). -/
def makeFine (n : ℕ) : Partition := (Finset.range n).image fun v => {v}

/-- `Partition::expand(T)` (dt.cpp:25, psp_i.cpp:90, pmf.cpp:317): `T` is merged with all blocks that
intersect it; the other blocks are kept. -/
def expand (P : Partition) (T : CSet) : Partition :=
  insert (T ∪ (P.filter fun B => ¬ Disjoint B T).sup id) (P.filter fun B => Disjoint B T)

/-- `*S.begin()`: the least element.  Dereferencing `begin()` of an empty set is undefined behaviour;
the model returns 0 there and every use is guarded by nonemptiness in the theorems. -/
def firstElem (S : CSet) : ℕ := if h : S.Nonempty then S.min' h else 0

/-- Model of `lemon::ListDigraph` with its `ArcMap<double>`: ids of the valid nodes in order of
insertion (`NodeIt` visits them in the opposite order) and arcs in order of insertion, each with the
value stored in the arc map. Arc ids are not modelled. -/
structure Digraph where
  nodes : List ℕ
  arcs : List Arc
deriving DecidableEq, Repr

/-- `lemon::countNodes`. -/
def Digraph.countNodes (g : Digraph) : ℕ := g.nodes.length

/-- `lemon::Tolerance<double>` : `positive(a)` is `epsilon < a`. -/
def tolPositive (ε a : ℚ) : Bool := decide (ε < a)
/-- `lemon::Tolerance<double>` : `less(a,b)` is `a + epsilon < b`. -/
def tolLess (ε a b : ℚ) : Bool := decide (a + ε < b)
/-- `lemon::Tolerance<double>` : `different(a,b)` is `less(a,b) || less(b,a)`. -/
def tolDifferent (ε a b : ℚ) : Bool := tolLess ε a b || tolLess ε b a

/-- `submodular::make_dgraph` (graph.h:26-41).  Adds `n` nodes, then every arc whose capacity is
`positive`.  `g.nodeFromId(src)` with `src ≥ n` indexes outside LEMON's node vector inside `addArc`:
undefined behaviour. -/
def makeDgraphArcs (ε : ℚ) (n : ℕ) : List Arc → List Arc → Outcome (List Arc)
  | [], acc => .ok acc
  | a :: as, acc =>
    if ¬ tolPositive ε a.cap then makeDgraphArcs ε n as acc
    else if n ≤ a.src ∨ n ≤ a.dst then .ub "addArc: node id out of range"
    else makeDgraphArcs ε n as (acc ++ [a])

/-- `submodular::make_dgraph` (graph.h:26-41) applied to an empty graph (psp.cpp:13-15). -/
def makeDgraph (ε : ℚ) (n : ℕ) (elt : List Arc) : Outcome Digraph := do
  let arcs ← makeDgraphArcs ε n elt []
  return { nodes := List.range n, arcs := arcs }

/-- `submodular::get_cut_value` (graph.h:45-55): weight of the arcs entering `S`. Sums are exact,
so the order of summation is irrelevant. -/
def getCutValue (arcs : List Arc) (S : CSet) : ℚ :=
  (arcs.map fun a => if a.src ∉ S ∧ a.dst ∈ S then a.cap else 0).sum

/-- `submodular::get_partition_value` (graph.h:57-63). -/
def getPartitionValue (arcs : List Arc) (P : Partition) : ℚ :=
  ∑ B ∈ P, getCutValue arcs B

end PSP.Model
