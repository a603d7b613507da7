import Mathlib.Data.List.Sort
import Verif.Model.Dilworth
import Verif.Model.DT

/-!
# Model of `psp::PSP_I` (`/repo/psp/psp_i.cpp:99-266`)
-/

namespace PSP.Model

open PSP.Spec (Arc)

/-! ### contraction of the graph -/

/-- `capacity_map[v]` after the loop of `contract` (psp_i.cpp:222-238, hpsp.cpp:139-155): total weight
of the arcs between `v` and `S`. -/
def capacityTo (arcs : List Arc) (S : CSet) (v : ℕ) : ℚ :=
  (arcs.map fun a =>
    if a.src ∈ S ∧ a.dst ∉ S then (if a.dst = v then a.cap else 0)
    else if a.src ∉ S ∧ a.dst ∈ S then (if a.src = v then a.cap else 0)
    else 0).sum

/-- The arc added for `v` (psp_i.cpp:247-258, hpsp.cpp:164-175), if any. -/
def contractArc (ε : ℚ) (arcs : List Arc) (S : CSet) (i v : ℕ) : Option Arc :=
  let c := capacityTo arcs S v
  if v ∈ S ∨ |c| < ε then none
  else if i < v then some ⟨i, v, |c|⟩ else some ⟨v, i, |c|⟩

/-- `PSP_I::contract(S, i)` (psp_i.cpp:220-259) and `HPSP::contract(S, i)` (hpsp.cpp:137-176), the same
text. First all arcs at `i` are erased (after their weight has been collected), then the nodes of `S`
other than `i` with all their arcs, then one arc per remaining node is added, in increasing order of
node ids (the order of `std::map`). Erasing the arc an `ArcIt` points to is assumed not to disturb the
iteration. -/
def contract (ε : ℚ) (g : Digraph) (S : CSet) (i : ℕ) : Digraph where
  nodes := g.nodes.filter fun v => ¬ (v ∈ S ∧ v ≠ i)
  arcs := (g.arcs.filter fun a => ¬ (a.src = i ∨ a.dst = i) ∧
        ¬ (a.src ∈ S ∧ a.src ≠ i) ∧ ¬ (a.dst ∈ S ∧ a.dst ≠ i)) ++
      (g.nodes.insertionSort (· ≤ ·)).filterMap (contractArc ε g.arcs S i)

/-! ### the tree -/

/-- Model of the member `tree` with `K` and `tree_edge_map` (psp_i.h:45-47).  A node carries its set
`K`, the value that `tree_edge_map` holds on all arcs to its children (`none` = not below infinity:
NaN, only for the one-node graph), and its children in the order in which `OutArcIt` visits the
arcs (most recently inserted first).  Numeric ids of tree nodes are not modelled. -/
inductive PTree where
  | leaf (K : CSet)
  | node (K : CSet) (lam : Option ℚ) (children : List PTree)

/-- The set `K` of a tree node. -/
def PTree.K : PTree → CSet
  | .leaf K => K
  | .node K _ _ => K

/-- `inserted_lambda` (psp_i.cpp:134-141): the value on the first arc to a child, `INFINITY` for a
leaf.  `none` stands for a value that is not `< INFINITY`. -/
def PTree.val : PTree → Option ℚ
  | .leaf _ => none
  | .node _ lam _ => lam

def PTree.children : PTree → List PTree
  | .leaf _ => []
  | .node _ _ ch => ch

/-- Sum of the arcs of the subgraph induced by `ns` (psp_i.cpp:168-170, hpsp.cpp:97-99). -/
def weightTotal (arcs : List Arc) (ns : List ℕ) : ℚ :=
  ((arcs.filter fun a => a.src ∈ ns ∧ a.dst ∈ ns).map (·.cap)).sum

/-- Nodes of `FilterNodes<Digraph> subgraph` in order of insertion (psp_i.cpp:158-167). -/
def subNodes (g : Digraph) (ids : CSet) : List ℕ := g.nodes.filter fun v => v ∈ ids

/-- The condition of psp_i.cpp:183 / hpsp.cpp:112 under which the value is final, given the result
`(min_value, P')` of the truncation, or the number of children is 2 (psp_i.cpp:174, hpsp.cpp:103). -/
def splitDone (ε γ : ℚ) (m : ℕ) (r : ℚ × Partition) : Bool :=
  decide (¬ (r.2.card ≠ 1 ∧ r.2.card ≠ m ∧ r.1 < -γ - ε))

/-- The loop over the blocks of `P'` (psp_i.cpp:190-216), `split` being the recursive call.  The arcs to
the children meeting `B` are moved one by one to the front of the new node's arc list
(`changeSource`), which reverses them, and the new node becomes the first child. -/
def pspiBlocks (ε : ℚ) (split : Digraph → List PTree → Outcome (Digraph × Option ℚ × List PTree)) :
    List CSet → Digraph → List PTree → Outcome (Digraph × List PTree)
  | [], g, ch => .ok (g, ch)
  | B :: Bs, g, ch =>
    if B.card = 1 then pspiBlocks ε split Bs g ch
    else do
      let moved := ch.filter fun c => ¬ Disjoint c.K B
      let rest := ch.filter fun c => Disjoint c.K B
      let x ← split g moved.reverse
      let K' : CSet := B ∪ (moved.map PTree.K).foldr (· ∪ ·) ∅
      pspiBlocks ε split Bs (contract ε x.1 B (firstElem B)) (.node K' x.2.1 x.2.2 :: rest)

/-- `PSP_I::split(i)` (psp_i.cpp:157-219): `ch` are the children of node `i`. Returns the graph
afterwards, the value put on the arcs to the children, and the children.  `ord` is the order in which
the blocks of a partition are visited.  With one child the quotient is `0/0`: the truncation is then
run with NaN, its partition has one block, and NaN becomes the value. -/
def pspiSplit (S : FlowSolver) (ε : ℚ) (ord : Partition → List CSet) :
    ℕ → Digraph → List PTree → Outcome (Digraph × Option ℚ × List PTree)
  | 0, _, _ => .fuel
  | k + 1, g, ch =>
    let ids : CSet := (ch.map fun c => firstElem c.K).toFinset
    let ns := subNodes g ids
    if ch.length = 1 then .ok (g, none, ch)
    else
      let γ := weightTotal g.arcs ns / ((ch.length : ℚ) - 1)
      if ch.length = 2 then .ok (g, some γ, ch)
      else
        let r := dilworthI S g.arcs γ ns
        if splitDone ε γ ch.length r then .ok (g, some γ, ch)
        else do
          let x ← pspiBlocks ε (pspiSplit S ε ord k) (ord r.2) g ch
          pspiSplit S ε ord k x.1 x.2

/-! ### the queue -/

/-- `it->second < inserted_lambda`, where `none` is `INFINITY`. -/
def valLt : Option ℚ → Option ℚ → Bool
  | some a, some b => decide (a < b)
  | some _, none => true
  | none, _ => false

/-- Insertion before the first smaller entry, else at the end (psp_i.cpp:142-152). -/
def queueInsert (t : PTree) : List PTree → List PTree
  | [] => [t]
  | s :: q => if valLt s.val t.val then t :: s :: q else s :: queueInsert t q

/-- The `while` loop of `PSP_I::run` (psp_i.cpp:118-154) on the queue `q`.  Returns the partitions and
critical values pushed. -/
def queueLoop : ℕ → List PTree → Outcome (List Partition × List ℚ)
  | 0, _ => .fuel
  | k + 1, q =>
    match q.getLast? with
    | none => .ok ([], [])
    | some t =>
      let p : Partition := (q.map PTree.K).toFinset
      match t.val with
      | none => .ok ([p], [])
      | some lam => do
        let x ← queueLoop k (t.children.foldl (fun q c => queueInsert c q) q.dropLast)
        return (p :: x.1, lam :: x.2)

/-- `PSP_I::run()` (psp_i.cpp:102-155).  The leaves are added in increasing order, so `OutArcIt` visits
them in decreasing order.  Fuel: `n + 1` levels of `split` and `2n` queue steps suffice (proved). Also
returns the graph afterwards (it is shared with the caller). -/
def pspiRun (S : FlowSolver) (ε : ℚ) (ord : Partition → List CSet) (g : Digraph) :
    Outcome (Digraph × PSPOut) :=
  let n := g.countNodes
  if n = 0 then .ub "OutArcIt of the root is INVALID"
  else do
    let x ← pspiSplit S ε ord (n + 1) g ((List.range n).reverse.map fun i => PTree.leaf {i})
    let y ← queueLoop (2 * n) [PTree.node (makeDense n) x.2.1 x.2.2]
    return (x.1, ⟨y.1, y.2⟩)

end PSP.Model
