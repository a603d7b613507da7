import Verif.Model.DT

/-!
# `DT` with rounded arithmetic

The functions of `Verif.Model.Dilworth` and `Verif.Model.DT` again, now with a rounding `fl` after every addition,
subtraction, multiplication and division of `double` values (negation, `max` and comparisons are exact), in the order of
the code. Infinities and NaN are not modelled, `fl` is a total function on numbers: that nothing overflows is part of the
theorems, which leave `fl` (almost) open for large numbers (`Spec.FloatingPoint`); the division by `|P| - |Q| = 0` is `Outcome.nan` as before. The flow solver
computes with `double` values too: see `FlowSolver.Approx`.
-/

namespace PSP.Model

open PSP.Spec (Arc)

/-- `for (x : l) s += x;` -/
def flSum (fl : ℚ → ℚ) (s : ℚ) (l : List ℚ) : ℚ := l.foldl (fun s x => fl (s + x)) s

/-- `get_cut_value` (graph.h:43-54); `ao` is the order in which `ArcIt` visits the arcs. -/
def cutValueF (fl : ℚ → ℚ) (ao : List Arc → List Arc) (arcs : List Arc) (X : CSet) : ℚ :=
  flSum fl 0 (((ao arcs).filter fun a => a.src ∉ X ∧ a.dst ∈ X).map (·.cap))

/-- `get_partition_value` (graph.h:56-62); `ord` is the order in which the blocks are visited. -/
def partitionValueF (fl : ℚ → ℚ) (ao : List Arc → List Arc) (ord : Partition → List CSet) (arcs : List Arc) (P : Partition) : ℚ :=
  flSum fl 0 ((ord P).map (cutValueF fl ao arcs))

/-- `gamma_apostrophe` (dt.cpp:129). -/
def gammaF (fl : ℚ → ℚ) (ao : List Arc → List Arc) (ord : Partition → List CSet) (g : Digraph) (Q P : Partition) : ℚ :=
  fl (fl (partitionValueF fl ao ord g.arcs P - partitionValueF fl ao ord g.arcs Q) / ((P.card : ℚ) - Q.card))

/-- `h_apostrophe` (dt.cpp:130). -/
def hF (fl : ℚ → ℚ) (ao : List Arc → List Arc) (ord : Partition → List CSet) (g : Digraph) (Q P : Partition) : ℚ :=
  fl (fl (fl (P.card * partitionValueF fl ao ord g.arcs Q) - fl (Q.card * partitionValueF fl ao ord g.arcs P)) /
    ((P.card : ℚ) - Q.card))

/-- Source and sink arcs, see `terminalArcs`. -/
def terminalArcsF (fl : ℚ → ℚ) (c : ℕ → ℚ) : List ℕ → List ℚ → List NArc
  | i :: ns, x :: xs =>
    (if x < 0 then [⟨.src, .v i, -x⟩] else []) ++
    (if 0 < fl (max 0 x + c i) then [⟨.v i, .snk, fl (max 0 x + c i)⟩] else []) ++
    terminalArcsF fl c ns xs
  | _, _ => []

/-- `const_difference` (dt.cpp:59, 71; psp_i.cpp:36, 48). -/
def constDifferenceF (fl : ℚ → ℚ) (lam : ℚ) (xl : List ℚ) : ℚ := flSum fl lam (xl.map fun x => max 0 x)

/-- The network, see `dilworthNet`. -/
def dilworthNetF (fl : ℚ → ℚ) (arcs : List Arc) (c : ℕ → ℚ) (ns : List ℕ) (xl : List ℚ) : Net where
  verts := ns.toFinset
  arcs := interiorArcs arcs ns ++ terminalArcsF fl c ns xl

/-- `psp::DilworthTruncation::minimize` (psp_i.cpp:9-64), see `minimizeI`. -/
def minimizeIF (fl : ℚ → ℚ) (S : FlowSolver) (arcs : List Arc) (lam : ℚ) (ns : List ℕ) (l : ℕ) (xl : List ℚ) :
    ℚ × CSet :=
  let N := dilworthNetF fl arcs (sinkCost arcs ns l) ns xl
  (fl (S.flowValue N - constDifferenceF fl lam xl), S.sinkSide N)

/-- Loop of `psp::DilworthTruncation::run` (psp_i.cpp:86-92), see `runLoopI`. -/
def runLoopIF (fl : ℚ → ℚ) (S : FlowSolver) (arcs : List Arc) (lam : ℚ) :
    List ℕ → List ℕ → List ℚ → Partition → List ℚ × Partition
  | _, [], xl, P => (xl, P)
  | done, l :: rest, xl, P =>
    let r := minimizeIF fl S arcs lam done l xl
    runLoopIF fl S arcs lam (done ++ [l]) rest (xl ++ [r.1]) (expand P (insert l r.2))

/-- `psp::DilworthTruncation::run` (psp_i.cpp:81-97), see `dilworthI`. -/
def dilworthIF (fl : ℚ → ℚ) (S : FlowSolver) (arcs : List Arc) (lam : ℚ) (ns : List ℕ) : ℚ × Partition :=
  let r := runLoopIF fl S arcs lam [] ns [] ∅
  (flSum fl 0 r.1, r.2)

/-- `submodular::DilworthTruncation::minimize` (dt.cpp:34-88), see `minimizeDT`. -/
def minimizeDTF (fl : ℚ → ℚ) (S : FlowSolver) (g : Digraph) (lam : ℚ) (xl : List ℚ) : Outcome (ℚ × CSet) :=
  let l := xl.length
  let ns := List.range l
  if ¬ (∀ i ∈ List.range (l + 1), i ∈ g.nodes) then .ub "nodeFromId: invalid node"
  else if ∃ a ∈ g.arcs, a.src = l ∧ a.dst = l then .ub "sink_node_cost_map: index out of range"
  else
    let N := dilworthNetF fl g.arcs (sinkCost g.arcs ns l) ns xl
    .ok (fl (S.flowValue N - constDifferenceF fl lam xl), S.sinkSide N)

/-- Loop of `submodular::DilworthTruncation::run` (dt.cpp:21-27), see `runLoopDT`. -/
def runLoopDTF (fl : ℚ → ℚ) (S : FlowSolver) (g : Digraph) (lam : ℚ) :
    ℕ → List ℚ → Partition → Outcome (List ℚ × Partition)
  | 0, xl, P => .ok (xl, P)
  | k + 1, xl, P => do
    let r ← minimizeDTF fl S g lam xl
    runLoopDTF fl S g lam k (xl ++ [r.1]) (expand P (insert xl.length r.2))

/-- `submodular::DilworthTruncation::run` (dt.cpp:17-32), see `dilworthDT`. -/
def dilworthDTF (fl : ℚ → ℚ) (S : FlowSolver) (g : Digraph) (lam : ℚ) : Outcome (ℚ × Partition) := do
  let r ← runLoopDTF fl S g lam g.countNodes [] ∅
  return (flSum fl 0 r.1, r.2)

/-- `DT::split(Q, P)` (dt.cpp:128-143), see `dtSplit`; the critical values and the partitions. -/
def dtSplitF (fl : ℚ → ℚ) (ao : List Arc → List Arc) (ord : Partition → List CSet) (S : FlowSolver) (ε : ℚ) (g : Digraph) :
    ℕ → Partition → Partition → Outcome (List ℚ × List Partition)
  | 0, _, _ => .fuel
  | k + 1, Q, P =>
    if P.card = Q.card then .nan
    else do
      let r ← dilworthDTF fl S g (gammaF fl ao ord g Q P)
      if r.1 > fl (hF fl ao ord g Q P - ε) ∨ Q.card = r.2.card ∨ P.card = r.2.card then
        return ([gammaF fl ao ord g Q P], [])
      else
        let a ← dtSplitF fl ao ord S ε g k Q r.2
        let b ← dtSplitF fl ao ord S ε g k r.2 P
        return (a.1 ++ b.1, r.2 :: (a.2 ++ b.2))

/-- `DT::run()` (dt.cpp:153-165), see `dtRun`. -/
def dtRunF (fl : ℚ → ℚ) (ao : List Arc → List Arc) (ord : Partition → List CSet) (S : FlowSolver) (ε : ℚ) (g : Digraph) : Outcome PSPOut := do
  let n := g.countNodes
  let r ← dtSplitF fl ao ord S ε g n {makeDense n} (makeFine n)
  return ⟨(({makeDense n} : Partition) :: makeFine n :: r.2).insertionSort (fun P Q => P.card ≤ Q.card),
          r.1.insertionSort (· ≤ ·)⟩

/-- `DT::split(Q, P, partition_num)` (dt.cpp:100-126), see `dtSplitNum`. -/
def dtSplitNumF (fl : ℚ → ℚ) (ao : List Arc → List Arc) (ord : Partition → List CSet) (S : FlowSolver) (ε : ℚ) (g : Digraph)
    (num : ℤ) : ℕ → Partition → Partition → Outcome Partition
  | 0, _, _ => .fuel
  | k + 1, Q, P =>
    if Q.card = P.card then .exc "Q and P have the same size"
    else do
      let r ← dilworthDTF fl S g (gammaF fl ao ord g Q P)
      if r.1 > fl (hF fl ao ord g Q P - ε) then
        return P
      else if (r.2.card : ℤ) = num then
        return r.2
      else if (r.2.card : ℤ) < num then
        dtSplitNumF fl ao ord S ε g num k r.2 P
      else
        dtSplitNumF fl ao ord S ε g num k Q r.2

/-- `DT::run(partition_num)` (dt.cpp:145-151), see `dtRunNum`, with a bound on the depth of the recursion: `fuel` means
that it is deeper. -/
def dtRunNumF (fl : ℚ → ℚ) (ao : List Arc → List Arc) (ord : Partition → List CSet) (S : FlowSolver) (ε : ℚ) (num : ℤ)
    (depth : ℕ) (g : Digraph) : Outcome Partition :=
  let n := g.countNodes
  dtSplitNumF fl ao ord S ε g num depth {makeDense n} (makeFine n)

/-- Assumption on a flow solver that computes with rounded numbers: on networks with at most `n` nodes and capacities
up to `C`, the value is at most the capacity of any cut, and the reported cut has at most this value, up to `δ`. -/
structure FlowSolver.Approx (S : FlowSolver) (δ C : ℚ) (n : ℕ) : Prop where
  le_cut : ∀ N : Net, N.Nonneg → (∀ e ∈ N.arcs, e.cap ≤ C) → N.verts.card ≤ n →
    ∀ X ⊆ N.verts, S.flowValue N ≤ N.cutCap X + δ
  cut_le : ∀ N : Net, N.Nonneg → (∀ e ∈ N.arcs, e.cap ≤ C) → N.verts.card ≤ n →
    N.cutCap (S.sinkSide N) ≤ S.flowValue N + δ

end PSP.Model
