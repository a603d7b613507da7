import Verif.Model.DT
import Verif.Model.PMF

/-!
# Model of the shared `lemon::ListDigraph` and of the code that changes it in place

`DilworthTruncation::minimize` (dt.cpp, psp_i.cpp) adds a source and a sink with their arcs to the graph
of the caller, runs the flow algorithm there and erases them again. The models `minimizeDT` and `minimizeI`
build the flow network directly; here the graph is changed step by step as in the code, and
`Theory/Mem.lean` proves that the result is the same and the graph is what it was.
-/

namespace PSP.Model

open PSP.Spec (Arc)

/-- A `lemon::ListDigraph` with its arc map: the valid nodes and the arcs in order of insertion, the free
list of node ids (the last erased first) and the number of ids given out, `maxNodeId() + 1`. -/
structure Mem where
  nodes : List ℕ
  arcs : List Arc
  free : List ℕ
  ids : ℕ
deriving DecidableEq, Repr

/-- The graph seen through iterators. -/
def Mem.graph (m : Mem) : Digraph := ⟨m.nodes, m.arcs⟩

/-- `ListDigraph::addNode()`: takes the last erased id, or a new one. -/
def Mem.addNode (m : Mem) : ℕ × Mem :=
  match m.free with
  | [] => (m.ids, { m with nodes := m.nodes ++ [m.ids], ids := m.ids + 1 })
  | v :: fr => (v, { m with nodes := m.nodes ++ [v], free := fr })

/-- `ListDigraph::addArc` and the assignment to the arc map. -/
def Mem.addArc (m : Mem) (a : Arc) : Mem := { m with arcs := m.arcs ++ [a] }

/-- `ListDigraph::erase(node)`: the arcs at the node go too. -/
def Mem.erase (m : Mem) (v : ℕ) : Mem where
  nodes := m.nodes.filter fun u => u ≠ v
  arcs := m.arcs.filter fun a => a.src ≠ v ∧ a.dst ≠ v
  free := v :: m.free
  ids := m.ids

/-- The loop adding the arcs at source `s` and sink `t` (dt.cpp:60-72, psp_i.cpp:37-49). -/
def addTerminals (c : ℕ → ℚ) (s t : ℕ) : List ℕ → List ℚ → Mem → Mem
  | i :: ns, x :: xs, m =>
    let m1 := if x < 0 then m.addArc ⟨s, i, -x⟩ else m
    let m2 := if 0 < max 0 x + c i then m1.addArc ⟨i, t, max 0 x + c i⟩ else m1
    addTerminals c s t ns xs m2
  | _, _, m => m

/-- The node with id `i` as a vertex of the network. -/
def termNode (s t i : ℕ) : NV := if i = s then .src else if i = t then .snk else .v i

/-- The network that `Preflow` sees: the subgraph of the enabled nodes `ns`, `s` and `t`
(dt.cpp:73-75, psp_i.cpp:50-52). -/
def Mem.net (m : Mem) (ns : List ℕ) (s t : ℕ) : Net where
  verts := ns.toFinset
  arcs := (m.arcs.filter fun a => (a.src ∈ ns ∨ a.src = s ∨ a.src = t) ∧
      (a.dst ∈ ns ∨ a.dst = s ∨ a.dst = t)).map fun a =>
    ⟨termNode s t a.src, termNode s t a.dst, a.cap⟩

/-- `minimize` on the shared graph (dt.cpp:46-87, psp_i.cpp:15-63): enabled nodes `ns`, new node `l`. -/
def minimizeMem (S : FlowSolver) (m : Mem) (lam : ℚ) (ns : List ℕ) (l : ℕ) (xl : List ℚ) :
    Mem × ℚ × CSet :=
  let c := sinkCost m.arcs ns l
  let s := m.addNode
  let t := s.2.addNode
  let m' := addTerminals c s.1 t.1 ns xl t.2
  let N := m'.net ns s.1 t.1
  ((m'.erase s.1).erase t.1, S.flowValue N - constDifference lam xl, S.sinkSide N)

/-- `submodular::DilworthTruncation::minimize` (dt.cpp:34-88), compare `minimizeDT`. -/
def minimizeDTMem (S : FlowSolver) (m : Mem) (lam : ℚ) (xl : List ℚ) : Outcome (Mem × ℚ × CSet) :=
  let l := xl.length
  let ns := List.range l
  let all := List.range (l + 1)
  if ¬ (∀ i ∈ all, i ∈ m.nodes) then .ub "nodeFromId: invalid node"
  else if ∃ a ∈ m.arcs, a.src = l ∧ a.dst = l then .ub "sink_node_cost_map: index out of range"
  else .ok (minimizeMem S m lam ns l xl)

/-- dt.cpp:21-27, compare `runLoopDT`. -/
def runLoopDTMem (S : FlowSolver) (lam : ℚ) :
    ℕ → List ℚ → Partition → Mem → Outcome (Mem × List ℚ × Partition)
  | 0, xl, P, m => .ok (m, xl, P)
  | k + 1, xl, P, m => do
    let r ← minimizeDTMem S m lam xl
    runLoopDTMem S lam k (xl ++ [r.2.1]) (expand P (insert xl.length r.2.2)) r.1

/-- `submodular::DilworthTruncation::run` (dt.cpp:17-32), compare `dilworthDT`. -/
def dilworthDTMem (S : FlowSolver) (lam : ℚ) (m : Mem) : Outcome (Mem × ℚ × Partition) := do
  let r ← runLoopDTMem S lam m.nodes.length [] ∅ m
  return (r.1, r.2.1.sum, r.2.2)

/-- `DT::split(Q, P)` (dt.cpp:128-143), compare `dtSplit`. -/
def dtSplitMem (S : FlowSolver) (ε : ℚ) : ℕ → Partition → Partition → Mem → Outcome (Mem × DTOut)
  | 0, _, _, _ => .fuel
  | k + 1, Q, P, m =>
    if P.card = Q.card then .nan
    else do
      let r ← dilworthDTMem S (gammaApos m.graph Q P) m
      if r.2.1 > hApos m.graph Q P - ε ∨ Q.card = r.2.2.card ∨ P.card = r.2.2.card then
        return (r.1, ⟨[gammaApos m.graph Q P], [], 1⟩)
      else
        let a ← dtSplitMem S ε k Q r.2.2 r.1
        let b ← dtSplitMem S ε k r.2.2 P a.1
        return (b.1, ⟨a.2.cv ++ b.2.cv, r.2.2 :: (a.2.psp ++ b.2.psp), 1 + a.2.calls + b.2.calls⟩)

/-- `DT::run()` (dt.cpp:153-165), compare `dtRun`. -/
def dtRunMem (S : FlowSolver) (ε : ℚ) (m : Mem) : Outcome (Mem × PSPOut) := do
  let n := m.nodes.length
  let r ← dtSplitMem S ε n {makeDense n} (makeFine n) m
  return (r.1, ⟨(({makeDense n} : Partition) :: makeFine n :: r.2.psp).insertionSort
            (fun P Q => P.card ≤ Q.card),
          r.2.cv.insertionSort (· ≤ ·)⟩)

/-- Loop of `psp::DilworthTruncation::run` (psp_i.cpp:86-92), compare `runLoopI`. -/
def runLoopIMem (S : FlowSolver) (lam : ℚ) :
    List ℕ → List ℕ → List ℚ → Partition → Mem → Mem × List ℚ × Partition
  | _, [], xl, P, m => (m, xl, P)
  | done, l :: rest, xl, P, m =>
    let r := minimizeMem S m lam done l xl
    runLoopIMem S lam (done ++ [l]) rest (xl ++ [r.2.1]) (expand P (insert l r.2.2)) r.1

/-- `psp::DilworthTruncation::run` (psp_i.cpp:81-97), compare `dilworthI`. -/
def dilworthIMem (S : FlowSolver) (lam : ℚ) (ns : List ℕ) (m : Mem) : Mem × ℚ × Partition :=
  let r := runLoopIMem S lam [] ns [] ∅ m
  (r.1, r.2.1.sum, r.2.2)

/-- `PDT::run()` on a new object, for a graph that has given out `ids` node ids. -/
def pdtRunIds (W : WarmSolver) (ε : ℚ) (ids : ℕ) (g : Digraph) : Outcome PSPOut := do
  let r ← pdtRunWith (pmfRunIds W ε g ids) g fun _ => (0, none)
  return r.1

end PSP.Model
