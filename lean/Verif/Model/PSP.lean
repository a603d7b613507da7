import Verif.Model.Mem
import Verif.Model.PSPI
import Verif.Model.HPSP
import Verif.Model.PMFR

/-!
# Model of the class `psp::PSP` (`/repo/psp/psp.cpp`), of the output of `main` and of `io_utility.cpp`
-/

namespace PSP.Model

open PSP.Spec (Arc)

/-- Everything the algorithms get from outside: the max-flow solvers, the tolerance of LEMON, and the
order in which the blocks of a `Partition` are visited. -/
structure Env where
  S : FlowSolver
  W : WarmSolver
  R : SrcSolver
  eps : ℚ
  ord : Partition → List CSet

/-- Which threads deliver in each call of `PMF_R::slice` during one run. -/
abbrev Schedule := ℕ → CSet → CSet → Finish

/-- The members `g`, `edge_map`, `gamma_list` and `psp_list` of a `PSP` object (psp.h:30-35).
`num_points` only decides whether the destructor frees the graph and is not modelled. -/
structure PSPObj where
  mem : Mem
  gamma : List ℚ
  psp : List Partition

/-- `PSP(arc_triple_list, n)` (psp.cpp:11-16); `n ≥ 0`. -/
def PSPObj.new (eps : ℚ) (n : ℕ) (elt : List Arc) : Outcome PSPObj := do
  let g ← makeDgraph eps n elt
  return ⟨⟨g.nodes, g.arcs, [], n⟩, [], []⟩

/-- Conversion of an `int` to `std::size_t` (psp.cpp:23). -/
def toSizeT (i : ℤ) : ℕ := (i % 2 ^ 64).toNat

/-- The loop of psp.cpp:22-24: it runs over `s_list` and reads the other two vectors at the same index. -/
def tripleList : List ℤ → List ℤ → List ℚ → Outcome (List Arc)
  | [], _, _ => .ok []
  | s :: ss, t :: ts, w :: ws => do
    let r ← tripleList ss ts ws
    return ⟨toSizeT s, toSizeT t, w⟩ :: r
  | _ :: _, _, _ => .ub "vector index out of range"

/-- `PSP(s_list, t_list, weight_list, n)` (psp.cpp:17-26); `n ≥ 0`. -/
def PSPObj.newLists (eps : ℚ) (n : ℕ) (ss ts : List ℤ) (ws : List ℚ) : Outcome PSPObj := do
  let elt ← tripleList ss ts ws
  PSPObj.new eps n elt

/-- `PSP(g, edge_map)` (psp.cpp:27): the graph of the caller. -/
def PSPObj.newGraph (m : Mem) : PSPObj := ⟨m, [], []⟩

/-- The graph after `psp_i` or `hpsp` has contracted it to `g`. How many ids were given out and the order
of the free list are not modelled exactly (no result depends on them, `Theory/Mem.lean`): the free ids are
listed in increasing order. -/
def Mem.contracted (m : Mem) (g : Digraph) : Mem :=
  ⟨g.nodes, g.arcs, (List.range (m.ids + 2)).filter fun v => v ∉ g.nodes, m.ids + 2⟩

/-- The end of `run_dt` etc. (psp.cpp:55-57 and the like): the lists are assigned only if the algorithm
returned; otherwise the object is shown as it was (after undefined behaviour or non-finite numbers this
carries no meaning; the only exception of the algorithms, `lambda value mismatch`, leaves the graph
untouched). -/
def PSPObj.finish (o : PSPObj) : Outcome (Mem × PSPOut) → PSPObj × Outcome Unit
  | .ok (m, r) => (⟨m, r.cv, r.psp⟩, .ok ())
  | .exc s => (o, .exc s)
  | .ub s => (o, .ub s)
  | .nan => (o, .nan)
  | .fuel => (o, .fuel)

/-- `PSP::run(method)` (psp.cpp:35-82, without `AGG`). Every run makes a new algorithm object on the shared
graph. -/
def PSPObj.run (e : Env) (sched : Schedule) (method : String) (o : PSPObj) : PSPObj × Outcome Unit :=
  if method = "dt" then o.finish (dtRunMem e.S e.eps o.mem)
  else if method = "pdt" then o.finish do
    let r ← pdtRunIds e.W e.eps o.mem.ids o.mem.graph
    return (o.mem, r)
  else if method = "pdt_r" then o.finish do
    let r ← pdtrRun e.S e.R e.eps sched o.mem.graph
    return (o.mem, r)
  else if method = "psp_i" then o.finish do
    let r ← pspiRun e.S e.eps e.ord o.mem.graph
    return (o.mem.contracted r.1, r.2)
  else if method = "hpsp" then o.finish do
    let r ← hpspRun e.S e.eps e.ord o.mem.graph
    return (o.mem.contracted r.1, r.2)
  else (o, .exc (method ++ " not allowed"))

/-- `PSP::get_critical_values` (psp.cpp:91-95). -/
def PSPObj.getCriticalValues (o : PSPObj) : List ℚ := o.gamma

/-- `PSP::get_partitions` (psp.cpp:97-103). -/
def PSPObj.getPartitions (o : PSPObj) : List Partition := o.psp

/-- A sequence of runs on one object; an exception is caught and the next run goes on. -/
def PSPObj.runs (e : Env) : List (Schedule × String) → PSPObj → PSPObj
  | [], o => o
  | (sched, m) :: hs, o => PSPObj.runs e hs (o.run e sched m).1

/-- What a user of the class sees: the object is made, run once, and the lists are read. -/
def runOnce (e : Env) (sched : Schedule) (n : ℕ) (E : List Arc) (method : String) : Outcome PSPOut := do
  let o ← PSPObj.new e.eps n E
  (o.run e sched method).2
  return ⟨(o.run e sched method).1.getPartitions, (o.run e sched method).1.getCriticalValues⟩

/-- A line of the result file of `main`. -/
inductive Line where
  | part (P : Partition)
  | value (c : ℚ)

/-- The loop of main.cpp:75-79. -/
def mainLoop : List Partition → List ℚ → Outcome (List Line)
  | _, [] => .ok []
  | [], _ :: _ => .ub "partition_list: iterator out of range"
  | P :: Ps, c :: cv => do
    let r ← mainLoop Ps cv
    return .value c :: .part P :: r

/-- The lines that `main` writes (main.cpp:73-79). -/
def mainOutput : List Partition → List ℚ → Outcome (List Line)
  | [], _ => .ub "partition_list: begin() of an empty vector"
  | P :: Ps, cv => do
    let r ← mainLoop Ps cv
    return .part P :: r

/-! ### `io_utility.cpp` -/

/-- The loop of io_utility.cpp:6-8 after the opening bracket, and what follows it, for the part of the vector
from the current index on. -/
def showRest : List ℤ → String
  | [] => "]"
  | [x] => toString x ++ "]"
  | x :: xs => toString x ++ ", " ++ showRest xs

/-- `operator<<(ostream&, const vector<int>&)` (io_utility.cpp:3-12). For an empty vector `size() - 1` wraps
around and `category[0]` is read. -/
def showVector : List ℤ → Outcome String
  | [] => .ub "operator<<: index out of range"
  | v => .ok ("[" ++ showRest v)

end PSP.Model
