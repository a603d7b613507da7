import Mathlib.Data.List.Sort
import Verif.Model.DT

/-!
# Model of `parametric::PMF` and `parametric::PDT` (`/repo/psp/pmf.cpp`)

`INFINITY` is `none`.
-/

namespace PSP.Model

open PSP.Spec (Arc)

/-- `pair(a, b)` of pmf.h:9: the function `λ ↦ min(a - λ, b)`; `b = none` is `INFINITY`. -/
abbrev YPair := ℚ × Option ℚ

/-- `std::min(x, b)`. -/
def minO (x : ℚ) : Option ℚ → ℚ
  | none => x
  | some b => min x b

/-- `std::min<double>(a_i - lambda, b_i)` (pmf.cpp:37, 168, 178). -/
def yVal (lam : ℚ) (p : YPair) : ℚ := minO (p.1 - lam) p.2

/-- A floating-point division: division by zero gives a NaN or an infinity. -/
def divO (a b : ℚ) : Outcome ℚ := if b = 0 then .nan else .ok (a / b)

/-- `turning_points` before sorting (pmf.cpp:13-20). -/
def turningPoints (ps : List YPair) : List ℚ := ps.filterMap fun p => p.2.map fun b => p.1 - b

/-- `infinity_count` (pmf.cpp:14-20). -/
def infinityCount (ps : List YPair) : ℕ := ps.countP fun p => p.2.isNone

/-- The loop over the sorted turning points and the final return (pmf.cpp:54-62). -/
def lambdaLoop (target : ℚ) : List ℚ → ℚ → ℤ → ℚ → Outcome ℚ
  | [], last, slope, sum => do
    let q ← divO (target - sum) slope
    return q + last
  | tp :: tps, last, slope, sum =>
    let sum' := sum + slope * (tp - last)
    if sum' ≤ target then do
      let q ← divO (target - sum') slope
      return q + tp
    else lambdaLoop target tps tp (slope - 1) sum'

/-- `PMF::compute_lambda` (pmf.cpp:11-63). -/
def computeLambda (ε : ℚ) (ps : List YPair) (target : ℚ) : Outcome ℚ :=
  match (turningPoints ps).insertionSort (· ≤ ·) with
  | [] => divO ((ps.map Prod.fst).sum - target) ps.length
  | t0 :: tps =>
    let slope : ℤ := -(infinityCount ps)
    let sum := (ps.map (yVal t0)).sum
    let intersept := (ps.map fun p => p.2.getD p.1).sum
    if tolLess ε sum target then
      if slope = 0 then .exc "no solution"
      else divO (target - intersept) slope
    else if ¬ tolDifferent ε target sum then .ok t0
    else lambdaLoop target (t0 :: tps) t0 slope sum

/-! ### the flow solver with a warm start -/

/-- What is read from a `lemon::Preflow` object after both phases: `flowValue()`, `minCut` and
`flowMap()` (one value per arc, in the order of the arcs of the network). -/
structure PfResult where
  value : ℚ
  minCut : ℕ → Bool
  flow : List ℚ

/-- `lemon::Preflow` started by `init()` (`none`) or `init(flowMap)` (`some flow`), followed by both
phases. -/
structure WarmSolver where
  run : Net → Option (List ℚ) → PfResult

/-- The nodes reported on the sink side. -/
def WarmSolver.sinkSide (W : WarmSolver) (N : Net) (init : Option (List ℚ)) : Finset ℕ :=
  N.verts.filter fun v => (W.run N init).minCut v = false

/-- Incoming minus outgoing flow at a vertex. -/
def excess (arcs : List NArc) (f : List ℚ) (x : NV) : ℚ :=
  ((arcs.zip f).map fun e => (if e.1.b = x then e.2 else 0) - (if e.1.a = x then e.2 else 0)).sum

/-- What `Preflow::init(flowMap)` requires: a preflow.  One value per arc, within the capacities, and
nothing but the source sends out more than it receives. -/
structure IsPreflow (N : Net) (f : List ℚ) : Prop where
  length : f.length = N.arcs.length
  bounds : ∀ e ∈ N.arcs.zip f, 0 ≤ e.2 ∧ e.2 ≤ e.1.cap
  excess : ∀ x, x ≠ NV.src → 0 ≤ excess N.arcs f x

/-- Assumption on the external solver: started from nothing or from a preflow it finds a minimum cut
and its capacity, and its flow map is a preflow. -/
structure WarmSolver.Correct (W : WarmSolver) : Prop where
  value_eq : ∀ N init, N.Nonneg → (∀ f, init = some f → IsPreflow N f) →
    (W.run N init).value = N.cutCap (W.sinkSide N init)
  le_cut : ∀ N init, N.Nonneg → (∀ f, init = some f → IsPreflow N f) → ∀ X ⊆ N.verts,
    (W.run N init).value ≤ N.cutCap X
  flow : ∀ N init, N.Nonneg → (∀ f, init = some f → IsPreflow N f) →
    IsPreflow N (W.run N init).flow

/-- Additional assumption: the reported sink side is the smallest one. -/
structure WarmSolver.Minimal (W : WarmSolver) : Prop extends W.Correct where
  minimal : ∀ N init, N.Nonneg → (∀ f, init = some f → IsPreflow N f) → ∀ X ⊆ N.verts,
    N.cutCap X = (W.run N init).value → W.sinkSide N init ⊆ X

/-! ### PMF -/

/-- An arc of `PMF::dig`: a copied arc of the graph that does not enter the sink, an arc from node `i`
to the sink, or an arc from the source to node `i`. -/
inductive PArc where
  | inner (s t : NV) (cap : ℚ)
  | sink (i : ℕ)
  | source (i : ℕ)

/-- A node of `dig`: node `j` is the sink. -/
def pmfNode (j i : ℕ) : NV := if i = j then .snk else .v i

/-- `sink_capacity` (pmf.cpp:92-98): the arcs into `j` from enabled nodes are visited most recent first
and overwrite each other. -/
def sinkCapacity (arcs : List Arc) (j : ℕ) (i : ℕ) : ℚ :=
  match arcs.find? (fun a => decide (a.dst = j ∧ a.src = i ∧ i ≤ j)) with
  | some a => a.cap
  | none => 0

/-- The arcs of `dig` (pmf.cpp:103-123): the arcs of the graph between the nodes `0..j`, then for each
node but the sink an arc from the source, and an arc to the sink if there is none yet (judged by the
capacity). Enabled nodes are `0..j` (pmf.cpp:70, 145). The order of the arcs is that of the model; no
result depends on it. -/
def pmfArcs (ε : ℚ) (arcs : List Arc) (j : ℕ) : List PArc :=
  ((arcs.filter fun a => a.src ≤ j ∧ a.dst ≤ j).map fun a =>
    if a.dst = j then .sink a.src else .inner (pmfNode j a.src) (pmfNode j a.dst) a.cap) ++
  (List.range j).map PArc.source ++
  ((List.range j).filter fun i => sinkCapacity arcs j i < ε).map PArc.sink

/-- `dig_aM` after `update_dig(lambda)` (pmf.cpp:163-180). -/
def pmfArc (arcs : List Arc) (j : ℕ) (y : ℕ → YPair) (lam : ℚ) : PArc → NArc
  | .inner s t c => ⟨s, t, c⟩
  | .sink i => ⟨pmfNode j i, .snk, sinkCapacity arcs j i + max 0 (yVal lam (y i))⟩
  | .source i => ⟨.src, .v i, if yVal lam (y i) < 0 then -yVal lam (y i) else 0⟩

/-- The network for `lambda`. -/
def pmfNet (ε : ℚ) (arcs : List Arc) (j : ℕ) (y : ℕ → YPair) (lam : ℚ) : Net where
  verts := Finset.range j
  arcs := (pmfArcs ε arcs j).map (pmfArc arcs j y lam)

/-- `PMF::modify_flow` (pmf.cpp:150-161) for the capacities at `lambda`: source arcs are saturated,
arcs into the sink are cut off at their capacity, other arcs keep their flow. -/
def modifyFlow (arcs : List Arc) (j : ℕ) (y : ℕ → YPair) (lam : ℚ) (as : List PArc) (f : List ℚ) :
    List ℚ :=
  (as.zip f).map fun e => match e.1 with
    | .inner _ _ _ => e.2
    | .sink i => if (pmfArc arcs j y lam (.sink i)).cap < e.2 then (pmfArc arcs j y lam (.sink i)).cap
        else e.2
    | .source i => (pmfArc arcs j y lam (.source i)).cap

/-- `get_min_cut_sink_side` (pmf.cpp:80-87): the ordinary nodes on the sink side and the sink. -/
def pmfSide (W : WarmSolver) (N : Net) (init : Option (List ℚ)) (j : ℕ) : CSet :=
  insert j (W.sinkSide N init)

/-- Value of the cut with sink side `T` in `dig` (`get_cut_value(dig, dig_aM, T)`, pmf.cpp:214).
The arcs out of the sink never count because the sink is in `T`. -/
def pmfCut (ε : ℚ) (arcs : List Arc) (j : ℕ) (y : ℕ → YPair) (lam : ℚ) (T : CSet) : ℚ :=
  (pmfNet ε arcs j y lam).cutCap (T.erase j)

/-- Is `a` different from `b` within the tolerance (`b = none` is infinity)? -/
def tolDifferentO (ε a : ℚ) : Option ℚ → Bool
  | none => true
  | some b => tolDifferent ε a b

/-- `PMF::slice` (pmf.cpp:182-242, release build); `n = tilde_G_size`. Returns the sets and the values in
the order in which they are appended to `set_list` and `lambda_list`. The result of
`pf_instance.init(newFlowMap)` is ignored as in the code. -/
def pmfSlice (W : WarmSolver) (ε : ℚ) (arcs : List Arc) (n j : ℕ) (y : ℕ → YPair) :
    ℕ → CSet → CSet → List ℚ → ℚ → Option ℚ → Outcome (List CSet × List ℚ)
  | 0, _, _, _, _, _ => .fuel
  | k + 1, Tl, Tr, f, lam1, lam3 => do
    let const := getCutValue arcs Tl - getCutValue arcs Tr
    let ps := ((List.range (n - 1)).filter fun i => i ∈ Tl ∧ i ∉ Tr).map y
    let lam2 ← computeLambda ε ps const
    if ¬ tolDifferent ε lam2 lam1 ∨ ¬ tolDifferentO ε lam2 lam3 then return ([], [lam2])
    else if lam2 < lam1 ∨ (∃ l ∈ lam3, l < lam2) then .exc "lambda value mismatch"
    else
      let N := pmfNet ε arcs j y lam2
      let original := pmfCut ε arcs j y lam2 Tr
      let f' := modifyFlow arcs j y lam2 (pmfArcs ε arcs j) f
      let r := W.run N (some f')
      let T := pmfSide W N (some f') j
      if T ≠ Tr ∧ T ≠ Tl ∧ r.value < original - 10 * ε then
        let a ← pmfSlice W ε arcs n j y k Tl T f lam1 (some lam2)
        let b ← pmfSlice W ε arcs n j y k T Tr f' lam2 lam3
        return (T :: (a.1 ++ b.1), a.2 ++ b.2)
      else return ([], [lam2])

/-- `PMF::run` for node `j` (pmf.cpp:89-141): returns the sorted `set_list` and `lambda_list`; `ids` is
`maxNodeId() + 1`, the number of node ids that the graph has given out (pmf.cpp:91, 115). It exceeds the
number of nodes if nodes were erased. `nodeFromId(i)` for an id `i ≤ j` that is not a node of the graph is
treated as undefined behaviour; it cannot happen when the nodes are `0..n-1`. -/
def pmfRunIds (W : WarmSolver) (ε : ℚ) (g : Digraph) (ids j : ℕ) (y : ℕ → YPair) :
    Outcome (List CSet × List ℚ) :=
  if ¬ (∀ i ∈ List.range (j + 1), i ∈ g.nodes) then .ub "nodeFromId: invalid node"
  else do
    let N := pmfNet ε g.arcs j y (-1 / 10)
    let r := W.run N none
    let T0 := pmfSide W N none j
    let s ← pmfSlice W ε g.arcs ids j y (j + 1) T0 {j} r.flow (-1 / 10) none
    return ((T0 :: {j} :: s.1).insertionSort (fun A B => B ⊆ A), s.2.insertionSort (· ≤ ·))

/-- `PMF::run` for a graph from which no node has been erased. -/
def pmfRun (W : WarmSolver) (ε : ℚ) (g : Digraph) (j : ℕ) (y : ℕ → YPair) :
    Outcome (List CSet × List ℚ) := pmfRunIds W ε g g.countNodes j y

/-! ### PDT -/

/-- The new value of `_y_lambda[u]` for `u < j` (pmf.cpp:293-305); reading behind the end of
`lambda_list` is undefined behaviour. -/
def pdtUpdate (ts : List CSet) (ls : List ℚ) (y : YPair) (u : ℕ) : Outcome YPair :=
  match (ts.filter fun T => u ∈ T).length with
  | 0 => .ok y
  | c + 1 => match ls[c]? with
    | none => .ub "lambda_list: iterator out of range"
    | some l => .ok (match y.2 with
      | none => (y.1, some (y.1 - l))
      | some b => if y.1 - b < l then (y.1, some (y.1 - l)) else y)

/-- The loop over `u` (pmf.cpp:286-307): `u = 0..k-1`. -/
def pdtUpdates (ts : List CSet) (ls : List ℚ) (y : ℕ → YPair) : ℕ → Outcome (ℕ → YPair)
  | 0 => .ok y
  | k + 1 => do
    let z ← pdtUpdates ts ls y k
    let p ← pdtUpdate ts ls (y k) k
    return Function.update z k p

/-- `<=` with infinity. -/
def leO : Option ℚ → Option ℚ → Bool
  | _, none => true
  | none, some _ => false
  | some a, some b => decide (a ≤ b)

/-- `std::min` with infinity. -/
def minOO (a b : Option ℚ) : Option ℚ := if leO b a then b else a

/-- The merging loop (pmf.cpp:316-338). Partitions come with the right end of their interval, sets too;
the accumulator is in reverse order, its head holds `Q` and the last value. (`Q_apostrophe` is never the
empty partition, so the first comparison with the empty `Q` always succeeds.) -/
def pdtMerge : ℕ → List (Partition × Option ℚ) → List (CSet × Option ℚ) →
    List (Partition × Option ℚ) → List (Partition × Option ℚ)
  | k + 1, (p, di) :: ps, (t, dk) :: ts, acc =>
    let Q' := expand p t
    let acc' := match acc with
      | [] => [(Q', minOO di dk)]
      | (Q, m) :: rest => if Q' ≠ Q then (Q', minOO di dk) :: (Q, m) :: rest else (Q, minOO di dk) :: rest
    pdtMerge k (if leO di dk then ps else (p, di) :: ps) (if leO dk di then ts else (t, dk) :: ts) acc'
  | _, _, _, acc => acc.reverse

/-- The state of the loop over `j` (pmf.cpp:280): `_y_lambda`, and `partition_list` paired with
`Lambda_list`. -/
structure PDTState where
  y : ℕ → YPair
  parts : List (Partition × Option ℚ)

/-- One iteration (pmf.cpp:281-340, the same text as pmf_r.cpp:709-768). `pmf j y` is the result of
`reset_y_lambda(y)`, `reset_j(j)` and `run()`: the lists of sets and values. If `t_list` were not one
element longer than `lambda_list` the loop would run over the end of a list. -/
def pdtStep (pmf : ℕ → (ℕ → YPair) → Outcome (List CSet × List ℚ)) (g : Digraph) (j : ℕ)
    (st : PDTState) : Outcome PDTState := do
  let r ← pmf j st.y
  let y ← pdtUpdates r.1 r.2 st.y j
  if r.1.length ≠ r.2.length + 1 then .ub "t_list: iterator out of range"
  else
    let ts := r.1.zip (r.2.map some ++ [none])
    return ⟨Function.update y j (getCutValue g.arcs {j}, none),
      pdtMerge (st.parts.length + ts.length) st.parts ts []⟩

/-- The loop over `j = i, …, i+k-1`. -/
def pdtLoop (pmf : ℕ → (ℕ → YPair) → Outcome (List CSet × List ℚ)) (g : Digraph) :
    ℕ → ℕ → PDTState → Outcome PDTState
  | 0, _, st => .ok st
  | k + 1, i, st => do
    let st' ← pdtStep pmf g i st
    pdtLoop pmf g k (i + 1) st'

/-- `PDT::run()` (pmf.cpp:268-343) and `PDT_R::run()` (pmf_r.cpp:697-771, the same text) on an object
whose member `_y_lambda` is `y`; returns the output and the new `_y_lambda`. The constructor (pmf.cpp:65-71, 256-260) sets `node_filter` of node 0, which is out
of range for a graph without nodes. `Lambda_list.pop_back()` is `dropLast`; another infinite value left
in the list would be a non-finite result. -/
def pdtRunWith (pmf : ℕ → (ℕ → YPair) → Outcome (List CSet × List ℚ)) (g : Digraph) (y : ℕ → YPair) :
    Outcome (PSPOut × (ℕ → YPair)) :=
  if g.countNodes = 0 then .ub "node_filter: invalid node"
  else do
    let st ← pdtLoop pmf g (g.countNodes - 1) 1 ⟨y, [({{0}}, none)]⟩
    let cv := st.parts.dropLast.map Prod.snd
    if none ∈ cv then .nan
    else return (⟨st.parts.map Prod.fst, cv.filterMap id⟩, st.y)

/-- `PDT::run()` on an object whose member `_y_lambda` is `y`. -/
def pdtRunFrom (W : WarmSolver) (ε : ℚ) (g : Digraph) (y : ℕ → YPair) :
    Outcome (PSPOut × (ℕ → YPair)) :=
  pdtRunWith (pmfRun W ε g) g y

/-- `PDT::run()` on a new object: `_y_lambda.resize(n, pair(0, INFINITY))` (pmf.cpp:279). -/
def pdtRun (W : WarmSolver) (ε : ℚ) (g : Digraph) : Outcome PSPOut := do
  let r ← pdtRunFrom W ε g fun _ => (0, none)
  return r.1

end PSP.Model
