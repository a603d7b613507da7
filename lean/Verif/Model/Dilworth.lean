import Verif.Model.Flow

/-!
# Model of the two `DilworthTruncation` classes and of `DT`

`submodular::DilworthTruncation` and `submodular::DT` are in `/repo/psp/dt.cpp`,
`psp::DilworthTruncation` is in `/repo/psp/psp_i.cpp`.
-/

namespace PSP.Model

open PSP.Spec (Arc)

/-- Source and sink arcs of the network (dt.cpp:59-72 and psp_i.cpp:36-49) for the nodes `ns` with
values `xs` and costs `c` of the arcs into the new node:  a source arc `-x` if `x < 0`, then a sink
arc `max(0,x) + c` if that is positive. -/
def terminalArcs (c : ℕ → ℚ) : List ℕ → List ℚ → List NArc
  | i :: ns, x :: xs =>
    (if x < 0 then [⟨.src, .v i, -x⟩] else []) ++
    (if 0 < max 0 x + c i then [⟨.v i, .snk, max 0 x + c i⟩] else []) ++
    terminalArcs c ns xs
  | _, _ => []

/-- Arcs of the graph between enabled nodes, as network arcs (the `FilterNodes` adaptor hides the
others). -/
def interiorArcs (arcs : List Arc) (ns : List ℕ) : List NArc :=
  (arcs.filter fun a => a.src ∈ ns ∧ a.dst ∈ ns).map fun a => ⟨.v a.src, .v a.dst, a.cap⟩

/-- `const_difference` (dt.cpp:59,71; psp_i.cpp:36,48). -/
def constDifference (lam : ℚ) (xl : List ℚ) : ℚ := lam + (xl.map fun x => max 0 x).sum

/-- The network on which dt.cpp:75 / psp_i.cpp:52 run the flow algorithm. -/
def dilworthNet (arcs : List Arc) (c : ℕ → ℚ) (ns : List ℕ) (xl : List ℚ) : Net where
  verts := ns.toFinset
  arcs := interiorArcs arcs ns ++ terminalArcs c ns xl

/-- `sink_node_cost_map` (psp_i.cpp:18-22): the arcs into `l` coming from enabled nodes are visited
most recent first and each one *overwrites* the entry of its source, so the arc inserted first wins.
Entries never written read as 0. -/
def sinkCost (arcs : List Arc) (ns : List ℕ) (l : ℕ) (i : ℕ) : ℚ :=
  match arcs.find? (fun a => decide (a.dst = l ∧ a.src = i ∧ (i ∈ ns ∨ i = l))) with
  | some a => a.cap
  | none => 0

/-- `psp::DilworthTruncation::minimize` (psp_i.cpp:9-64).  `ns` are the enabled nodes before the new
one (`enabled_nodes[0..graph_size-1]`), `l` is `enabled_nodes[graph_size]`.  Returns `min_value` and
`Tl`. Source and sink are added and removed again, so the graph is unchanged. -/
def minimizeI (S : FlowSolver) (arcs : List Arc) (lam : ℚ) (ns : List ℕ) (l : ℕ) (xl : List ℚ) :
    ℚ × CSet :=
  let N := dilworthNet arcs (sinkCost arcs ns l) ns xl
  (S.flowValue N - constDifference lam xl, S.sinkSide N)

/-- Loop of `psp::DilworthTruncation::run` (psp_i.cpp:86-92). `done` are the nodes processed so
far, `xl` their values. -/
def runLoopI (S : FlowSolver) (arcs : List Arc) (lam : ℚ) :
    List ℕ → List ℕ → List ℚ → Partition → List ℚ × Partition
  | _, [], xl, P => (xl, P)
  | done, l :: rest, xl, P =>
    let r := minimizeI S arcs lam done l xl
    runLoopI S arcs lam (done ++ [l]) rest (xl ++ [r.1]) (expand P (insert l r.2))

/-- `psp::DilworthTruncation::run` (psp_i.cpp:81-97) on the subgraph induced by `ns`
(`enabled_nodes`, psp_i.cpp:69-71: the nodes of the filtered graph in order of insertion).  Returns
`(min_value, partition)`. -/
def dilworthI (S : FlowSolver) (arcs : List Arc) (lam : ℚ) (ns : List ℕ) : ℚ × Partition :=
  let r := runLoopI S arcs lam [] ns [] ∅
  (r.1.sum, r.2)

/-- `submodular::DilworthTruncation::minimize` (dt.cpp:34-88) with `graph_size = xl.length`.
Line 50 writes `sink_node_cost_map[node_id]` where the vector has size `graph_size`: a self loop at
node `graph_size` writes out of bounds.  `nodeFromId(i)` for an id that is not a valid node is
undefined behaviour too (it cannot happen when the nodes are `0..n-1`). -/
def minimizeDT (S : FlowSolver) (g : Digraph) (lam : ℚ) (xl : List ℚ) : Outcome (ℚ × CSet) :=
  let l := xl.length
  let ns := List.range l
  if ¬ (∀ i ∈ List.range (l + 1), i ∈ g.nodes) then .ub "nodeFromId: invalid node"
  else if ∃ a ∈ g.arcs, a.src = l ∧ a.dst = l then .ub "sink_node_cost_map: index out of range"
  else
    let N := dilworthNet g.arcs (sinkCost g.arcs ns l) ns xl
    .ok (S.flowValue N - constDifference lam xl, S.sinkSide N)

/-- Loop of `submodular::DilworthTruncation::run` (dt.cpp:21-27): `k` further nodes. -/
def runLoopDT (S : FlowSolver) (g : Digraph) (lam : ℚ) :
    ℕ → List ℚ → Partition → Outcome (List ℚ × Partition)
  | 0, xl, P => .ok (xl, P)
  | k + 1, xl, P => do
    let r ← minimizeDT S g lam xl
    runLoopDT S g lam k (xl ++ [r.1]) (expand P (insert xl.length r.2))

/-- `submodular::DilworthTruncation::run` (dt.cpp:17-32); returns `(min_value, partition)`.
`NodeSize = countNodes` (dt.cpp:8). -/
def dilworthDT (S : FlowSolver) (g : Digraph) (lam : ℚ) : Outcome (ℚ × Partition) := do
  let r ← runLoopDT S g lam g.countNodes [] ∅
  return (r.1.sum, r.2)

/-- `submodular::DilworthTruncation::evaluate` (dt.cpp:90-93). -/
def dilworthEvaluate (g : Digraph) (lam : ℚ) (P : Partition) : ℚ :=
  getPartitionValue g.arcs P - lam * P.card

end PSP.Model
