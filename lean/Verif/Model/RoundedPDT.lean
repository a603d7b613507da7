import Verif.Model.PMF
import Verif.Model.Rounded

/-!
# `PMF` and `PDT` with rounded arithmetic

The functions of `Verif.Model.PMF` again, with a rounding `fl` after every addition, subtraction, multiplication and
division of `double` values (negation, `min`, `max` and comparisons are exact), in the order of the code; see
`Verif.Model.Rounded`. `ao` is the order in which `ArcIt` visits the arcs of the graph, `no` the same for `dig`.
-/

namespace PSP.Model

open PSP.Spec (Arc)

/-- Assumption on the solver: its sink side is the least minimum cut of the network it is given, the reported value is
the capacity of that cut up to a relative error `v`, and its flow map is a preflow. -/
structure WarmLeast (W : WarmSolver) (v : ℚ) : Prop where
  le_cut : ∀ N init, N.Nonneg → (∀ f, init = some f → IsPreflow N f) → ∀ X ⊆ N.verts,
    N.cutCap (W.sinkSide N init) ≤ N.cutCap X
  least : ∀ N init, N.Nonneg → (∀ f, init = some f → IsPreflow N f) → ∀ X ⊆ N.verts,
    N.cutCap X = N.cutCap (W.sinkSide N init) → W.sinkSide N init ⊆ X
  value : ∀ N init, N.Nonneg → (∀ f, init = some f → IsPreflow N f) →
    |(W.run N init).value - N.cutCap (W.sinkSide N init)| ≤ v * N.cutCap (W.sinkSide N init)
  flow : ∀ N init, N.Nonneg → (∀ f, init = some f → IsPreflow N f) →
    IsPreflow N (W.run N init).flow

/-- `tolerance.less(a, b)`: `a + epsilon < b` (LEMON, `lemon/tolerance.h`). -/
def tolLessF (fl : ℚ → ℚ) (ε a b : ℚ) : Bool := decide (fl (a + ε) < b)

/-- `tolerance.different(a, b)`. -/
def tolDifferentF (fl : ℚ → ℚ) (ε a b : ℚ) : Bool := tolLessF fl ε a b || tolLessF fl ε b a

/-- `tolerance.different(a, b)` where `b` may be infinite. -/
def tolDifferentOF (fl : ℚ → ℚ) (ε a : ℚ) : Option ℚ → Bool
  | none => true
  | some b => tolDifferentF fl ε a b

/-- `std::min<double>(a_i - lambda, b_i)` (pmf.cpp:37, 168, 178). -/
def yValF (fl : ℚ → ℚ) (lam : ℚ) (p : YPair) : ℚ := minO (fl (p.1 - lam)) p.2

/-- `turning_points` before sorting (pmf.cpp:13-20). -/
def turningPointsF (fl : ℚ → ℚ) (ps : List YPair) : List ℚ := ps.filterMap fun p => p.2.map fun b => fl (p.1 - b)

/-- The loop over the sorted turning points and the final return (pmf.cpp:54-62), see `lambdaLoop`. -/
def lambdaLoopF (fl : ℚ → ℚ) (target : ℚ) : List ℚ → ℚ → ℤ → ℚ → Outcome ℚ
  | [], last, slope, sum => do
    let q ← divO (fl (target - sum)) slope
    return fl (fl q + last)
  | tp :: tps, last, slope, sum =>
    let sum' := fl (sum + fl (slope * fl (tp - last)))
    if sum' ≤ target then do
      let q ← divO (fl (target - sum')) slope
      return fl (fl q + tp)
    else lambdaLoopF fl target tps tp (slope - 1) sum'

/-- `PMF::compute_lambda` (pmf.cpp:11-63), see `computeLambda`. -/
def computeLambdaF (fl : ℚ → ℚ) (ε : ℚ) (ps : List YPair) (target : ℚ) : Outcome ℚ :=
  match (turningPointsF fl ps).insertionSort (· ≤ ·) with
  | [] => do
    let q ← divO (flSum fl (-target) (ps.map Prod.fst)) ps.length
    return fl q
  | t0 :: tps =>
    let slope : ℤ := -(infinityCount ps)
    let sum := flSum fl 0 (ps.map (yValF fl t0))
    let intersept := flSum fl 0 (ps.map fun p => p.2.getD p.1)
    if tolLessF fl ε sum target then
      if slope = 0 then .exc "no solution"
      else do
        let q ← divO (fl (target - intersept)) slope
        return fl q
    else if ¬ tolDifferentF fl ε target sum then .ok t0
    else lambdaLoopF fl target (t0 :: tps) t0 slope sum

/-- `dig_aM` after `update_dig(lambda)` (pmf.cpp:163-180), see `pmfArc`. -/
def pmfArcF (fl : ℚ → ℚ) (arcs : List Arc) (j : ℕ) (y : ℕ → YPair) (lam : ℚ) : PArc → NArc
  | .inner s t c => ⟨s, t, c⟩
  | .sink i => ⟨pmfNode j i, .snk, fl (sinkCapacity arcs j i + max 0 (yValF fl lam (y i)))⟩
  | .source i => ⟨.src, .v i, if yValF fl lam (y i) < 0 then -yValF fl lam (y i) else 0⟩

/-- The network for `lambda`. -/
def pmfNetF (fl : ℚ → ℚ) (ε : ℚ) (arcs : List Arc) (j : ℕ) (y : ℕ → YPair) (lam : ℚ) : Net where
  verts := Finset.range j
  arcs := (pmfArcs ε arcs j).map (pmfArcF fl arcs j y lam)

/-- `PMF::modify_flow` (pmf.cpp:150-161), see `modifyFlow`. Nothing is computed. -/
def modifyFlowF (fl : ℚ → ℚ) (arcs : List Arc) (j : ℕ) (y : ℕ → YPair) (lam : ℚ) (as : List PArc) (f : List ℚ) :
    List ℚ :=
  (as.zip f).map fun e => match e.1 with
    | .inner _ _ _ => e.2
    | .sink i => if (pmfArcF fl arcs j y lam (.sink i)).cap < e.2 then (pmfArcF fl arcs j y lam (.sink i)).cap
        else e.2
    | .source i => (pmfArcF fl arcs j y lam (.source i)).cap

/-- `get_cut_value(dig, dig_aM, T)` (graph.h:43-54, pmf.cpp:214), see `pmfCut`. -/
def pmfCutF (fl : ℚ → ℚ) (no : List NArc → List NArc) (ε : ℚ) (arcs : List Arc) (j : ℕ) (y : ℕ → YPair) (lam : ℚ)
    (T : CSet) : ℚ :=
  flSum fl 0 (((no (pmfNetF fl ε arcs j y lam).arcs).filter fun e =>
    e.a.onSink (T.erase j) = false ∧ e.b.onSink (T.erase j) = true).map (·.cap))

/-- `compute_lambda_eq_const` (pmf.cpp:243-248). -/
def lambdaConstF (fl : ℚ → ℚ) (ao : List Arc → List Arc) (arcs : List Arc) (Tl Tr : CSet) : ℚ :=
  fl (cutValueF fl ao arcs Tl - cutValueF fl ao arcs Tr)

/-- `PMF::slice` (pmf.cpp:182-242, release build), see `pmfSlice`. -/
def pmfSliceF (fl : ℚ → ℚ) (ao : List Arc → List Arc) (no : List NArc → List NArc) (W : WarmSolver) (ε : ℚ)
    (arcs : List Arc) (n j : ℕ) (y : ℕ → YPair) :
    ℕ → CSet → CSet → List ℚ → ℚ → Option ℚ → Outcome (List CSet × List ℚ)
  | 0, _, _, _, _, _ => .fuel
  | k + 1, Tl, Tr, f, lam1, lam3 => do
    let const := lambdaConstF fl ao arcs Tl Tr
    let ps := ((List.range (n - 1)).filter fun i => i ∈ Tl ∧ i ∉ Tr).map y
    let lam2 ← computeLambdaF fl ε ps const
    if ¬ tolDifferentF fl ε lam2 lam1 ∨ ¬ tolDifferentOF fl ε lam2 lam3 then return ([], [lam2])
    else if lam2 < lam1 ∨ (∃ l ∈ lam3, l < lam2) then .exc "lambda value mismatch"
    else
      let N := pmfNetF fl ε arcs j y lam2
      let original := pmfCutF fl no ε arcs j y lam2 Tr
      let f' := modifyFlowF fl arcs j y lam2 (pmfArcs ε arcs j) f
      let r := W.run N (some f')
      let T := pmfSide W N (some f') j
      if T ≠ Tr ∧ T ≠ Tl ∧ r.value < fl (original - fl (10 * ε)) then
        let a ← pmfSliceF fl ao no W ε arcs n j y k Tl T f lam1 (some lam2)
        let b ← pmfSliceF fl ao no W ε arcs n j y k T Tr f' lam2 lam3
        return (T :: (a.1 ++ b.1), a.2 ++ b.2)
      else return ([], [lam2])

/-- `PMF::run` for node `j` (pmf.cpp:89-141), see `pmfRun`; the literal `-0.1` is rounded too. -/
def pmfRunF (fl : ℚ → ℚ) (ao : List Arc → List Arc) (no : List NArc → List NArc) (W : WarmSolver) (ε : ℚ) (g : Digraph)
    (j : ℕ) (y : ℕ → YPair) : Outcome (List CSet × List ℚ) :=
  if ¬ (∀ i ∈ List.range (j + 1), i ∈ g.nodes) then .ub "nodeFromId: invalid node"
  else do
    let N := pmfNetF fl ε g.arcs j y (fl (-1 / 10))
    let r := W.run N none
    let T0 := pmfSide W N none j
    let s ← pmfSliceF fl ao no W ε g.arcs g.countNodes j y (j + 1) T0 {j} r.flow (fl (-1 / 10)) none
    return ((T0 :: {j} :: s.1).insertionSort (fun A B => B ⊆ A), s.2.insertionSort (· ≤ ·))

/-- The new value of `_y_lambda[u]` for `u < j` (pmf.cpp:293-305), see `pdtUpdate`. -/
def pdtUpdateF (fl : ℚ → ℚ) (ts : List CSet) (ls : List ℚ) (y : YPair) (u : ℕ) : Outcome YPair :=
  match (ts.filter fun T => u ∈ T).length with
  | 0 => .ok y
  | c + 1 => match ls[c]? with
    | none => .ub "lambda_list: iterator out of range"
    | some l => .ok (match y.2 with
      | none => (y.1, some (fl (y.1 - l)))
      | some b => if fl (y.1 - b) < l then (y.1, some (fl (y.1 - l))) else y)

/-- The loop over `u` (pmf.cpp:286-307): `u = 0..k-1`. -/
def pdtUpdatesF (fl : ℚ → ℚ) (ts : List CSet) (ls : List ℚ) (y : ℕ → YPair) : ℕ → Outcome (ℕ → YPair)
  | 0 => .ok y
  | k + 1 => do
    let z ← pdtUpdatesF fl ts ls y k
    let p ← pdtUpdateF fl ts ls (y k) k
    return Function.update z k p

/-- One iteration (pmf.cpp:281-340), see `pdtStep`. -/
def pdtStepF (fl : ℚ → ℚ) (ao : List Arc → List Arc) (pmf : ℕ → (ℕ → YPair) → Outcome (List CSet × List ℚ))
    (g : Digraph) (j : ℕ) (st : PDTState) : Outcome PDTState := do
  let r ← pmf j st.y
  let y ← pdtUpdatesF fl r.1 r.2 st.y j
  if r.1.length ≠ r.2.length + 1 then .ub "t_list: iterator out of range"
  else
    let ts := r.1.zip (r.2.map some ++ [none])
    return ⟨Function.update y j (cutValueF fl ao g.arcs {j}, none),
      pdtMerge (st.parts.length + ts.length) st.parts ts []⟩

/-- The loop over `j = i, …, i+k-1`. -/
def pdtLoopF (fl : ℚ → ℚ) (ao : List Arc → List Arc) (pmf : ℕ → (ℕ → YPair) → Outcome (List CSet × List ℚ))
    (g : Digraph) : ℕ → ℕ → PDTState → Outcome PDTState
  | 0, _, st => .ok st
  | k + 1, i, st => do
    let st' ← pdtStepF fl ao pmf g i st
    pdtLoopF fl ao pmf g k (i + 1) st'

/-- `PDT::run()` on a new object (pmf.cpp:268-343), see `pdtRunWith` and `pdtRun`. -/
def pdtRunF (fl : ℚ → ℚ) (ao : List Arc → List Arc) (no : List NArc → List NArc) (W : WarmSolver) (ε : ℚ)
    (g : Digraph) : Outcome PSPOut :=
  if g.countNodes = 0 then .ub "node_filter: invalid node"
  else do
    let st ← pdtLoopF fl ao (pmfRunF fl ao no W ε g) g (g.countNodes - 1) 1 ⟨fun _ => (0, none), [({{0}}, none)]⟩
    let cv := st.parts.dropLast.map Prod.snd
    if none ∈ cv then .nan
    else return ⟨st.parts.map Prod.fst, cv.filterMap id⟩

end PSP.Model
