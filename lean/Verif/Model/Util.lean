import Mathlib.Data.List.Sort
import Verif.Model.Mem

/-!
# Model of `psp/digraph_utility.cpp`

`digraph_copy` erases nodes while it iterates over them, so the list of nodes inside
`lemon::ListDigraph` is modelled here with its links.
-/

namespace PSP.Model

open PSP.Spec (Arc)

/-- The nodes inside `lemon::ListDigraph` (LEMON `list_graph.h`, not part of /repo): the vector `nodes`
with the links `next` and `prev`, `first_node` and `first_free_node`. The end of a list, -1 in LEMON, is
`none`; `valid v` stands for `prev != -2`. -/
structure NodeStore where
  size : ℕ
  next : ℕ → Option ℕ
  prev : ℕ → Option ℕ
  valid : ℕ → Bool
  first : Option ℕ
  free : Option ℕ

/-- A new `ListDigraph`. -/
def NodeStore.empty : NodeStore := ⟨0, fun _ => none, fun _ => none, fun _ => false, none, none⟩

/-- `ListDigraph::addNode()`: takes the head of the free list or a new entry, and puts it in front of the
list of nodes. -/
def NodeStore.addNode (s : NodeStore) : NodeStore :=
  let n := s.free.getD s.size
  { size := if s.free.isSome then s.size else s.size + 1
    next := Function.update s.next n s.first
    prev := match s.first with
      | some f => Function.update (Function.update s.prev n none) f (some n)
      | none => Function.update s.prev n none
    valid := Function.update s.valid n true
    first := some n
    free := match s.free with
      | some f => s.next f
      | none => none }

/-- `ListDigraph::erase(node)` as far as the links of the nodes are concerned: the node is taken out of the
list of nodes and put in front of the free list, which uses the same field `next`. -/
def NodeStore.erase (s : NodeStore) (n : ℕ) : NodeStore where
  size := s.size
  next :=
    let nx := match s.prev n with
      | some p => Function.update s.next p (s.next n)
      | none => s.next
    Function.update nx n s.free
  prev := match s.next n with
    | some q => Function.update s.prev q (s.prev n)
    | none => s.prev
  valid := Function.update s.valid n false
  first := match s.prev n with
    | some _ => s.first
    | none => s.next n
  free := some n

/-- The ids of the nodes in the order of `NodeIt` starting at the given node; the first argument limits
the number of steps. -/
def NodeStore.listFrom (s : NodeStore) : ℕ → Option ℕ → List ℕ
  | 0, _ => []
  | _, none => []
  | k + 1, some n => n :: s.listFrom k (s.next n)

/-- The ids of the nodes in the order of `NodeIt`. -/
def NodeStore.list (s : NodeStore) : List ℕ := s.listFrom s.size s.first

/-- The loop of digraph_utility.cpp:8-11: `++n` reads the link of the node after it may have been erased.
`k` limits the number of steps. -/
def copyLoop (old : ℕ → Bool) : ℕ → Option ℕ → NodeStore → Outcome NodeStore
  | _, none, s => .ok s
  | 0, some _, _ => .fuel
  | k + 1, some n, s =>
    let s' := if old n then s else s.erase n
    copyLoop old k (s'.next n) s'

/-- `digraph_copy(oldGraph, oldArcMap, G, A)` (digraph_utility.cpp:5-16) for a newly constructed `G`. As
everywhere in the model the nodes are listed in the order opposite to `NodeIt`. The arcs are listed in
their order in the old graph; `ArcIt` visits them by source node. -/
def digraphCopy (m : Mem) : Outcome Digraph := do
  let s := NodeStore.addNode^[m.ids] .empty
  let s' ← copyLoop (fun v => decide (v ∈ m.nodes)) m.ids s.first s
  return ⟨s'.list.reverse, m.arcs⟩

/-- `capacity_map[v].first` after the loop over the arcs (digraph_utility.cpp:33-39). -/
def capacityOut (arcs : List Arc) (S : CSet) (v : ℕ) : ℚ :=
  (arcs.map fun a => if a.src ∈ S ∧ a.dst ∉ S ∧ a.dst = v then a.cap else 0).sum

/-- `capacity_map[v].second` after the loop over the arcs (digraph_utility.cpp:33-42). -/
def capacityIn (arcs : List Arc) (S : CSet) (v : ℕ) : ℚ :=
  (arcs.map fun a => if a.src ∉ S ∧ a.dst ∈ S ∧ a.src = v then a.cap else 0).sum

/-- The arc added for the node `v` (digraph_utility.cpp:55-65), if any. -/
def utilArc (ε : ℚ) (arcs : List Arc) (S : CSet) (i v : ℕ) : Option Arc :=
  if v ∈ S then none
  else if capacityOut arcs S v > ε then some ⟨i, v, capacityOut arcs S v⟩
  else if |capacityIn arcs S v| > ε then some ⟨v, i, capacityIn arcs S v⟩
  else none

/-- The arcs added by `digraph_contract`, in increasing order of the node ids (order of `std::map`). -/
def utilArcs (ε : ℚ) (g : Digraph) (S : CSet) (i : ℕ) : List Arc :=
  (g.nodes.insertionSort (· ≤ ·)).filterMap (utilArc ε g.arcs S i)

/-- `digraph_contract(G, A, S, i, tol)` (digraph_utility.cpp:18-66). Erasing the arc an `ArcIt` points to
does not disturb the iteration: LEMON links erased arcs by their field `next_in`, `ArcIt` follows
`next_out`. `nodeFromId(i)` is used for the new arcs; if there are any and `i` is not a node this is
undefined behaviour. -/
def digraphContract (ε : ℚ) (g : Digraph) (S : CSet) (i : ℕ) : Outcome Digraph :=
  if ∀ j ∈ g.nodes, j ∈ S → j = i then .ok g
  else if i ∉ g.nodes ∧ utilArcs ε g S i ≠ [] then .ub "addArc: not a node"
  else .ok
    { nodes := g.nodes.filter fun v => ¬ (v ∈ S ∧ v ≠ i)
      arcs := (g.arcs.filter fun a => ¬ (a.src = i ∨ a.dst = i) ∧
          ¬ (a.src ∈ S ∧ a.src ≠ i) ∧ ¬ (a.dst ∈ S ∧ a.dst ≠ i)) ++ utilArcs ε g S i }

end PSP.Model
