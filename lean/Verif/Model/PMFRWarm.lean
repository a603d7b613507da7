import Verif.Model.PMFR

/-!
# Model of `parametric::PMF_R` with its starting points (`/repo/psp/pmf_r.cpp`)

`Verif.Model.PMFR` leaves out the flow maps and elevators that `slice` hands to the solvers. Here they are
part of the model. An elevator (the level structure of the solver) is represented by the set of nodes of
the network it was made for, because that decides whether it fits a network.
-/

namespace PSP.Model

open PSP.Spec (Arc)

/-- What a `lemon::Preflow_HL` is started from: `init(flowMap)` or `init(flowMap, elevator)`. -/
structure HLStart where
  flow : List ℚ
  ele : Option (Finset ℕ)
deriving DecidableEq

/-- `lemon::Preflow_HL` (submodule `psp/preflow`, absent from the tree) started by `init()` (`none`) or from
a starting point, followed by both phases. -/
structure HLSolver where
  run : Net → Option HLStart → PfResult

/-- The nodes reported on the sink side. -/
def HLSolver.sinkSide (W : HLSolver) (N : Net) (s : Option HLStart) : Finset ℕ :=
  N.verts.filter fun v => (W.run N s).minCut v = false

/-- The nodes reported on the source side. -/
def HLSolver.srcSide (W : HLSolver) (N : Net) (s : Option HLStart) : Finset ℕ :=
  N.verts.filter fun v => (W.run N s).minCut v = true

/-- `PMF_R::modify_flow(G, capMap, flowMap, newFlowMap)` (pmf_r.cpp:256-272): the flow into the sink and
out of the source is cut off at the capacity. -/
def clampFlow (arcs : List NArc) (f : List ℚ) : List ℚ :=
  (arcs.zip f).map fun e =>
    if (e.1.b = .snk ∨ e.1.a = .src) ∧ e.1.cap < e.2 then e.1.cap else e.2

/-- The flow of the arcs satisfying `p` (the sums of pmf_r.cpp:196-230). -/
def flowSum (old : List NArc) (f : List ℚ) (p : NArc → Bool) : ℚ :=
  ((old.zip f).map fun e => if p e.1 then e.2 else 0).sum

/-- `tmp_map[u][v]` (pmf_r.cpp:227): parallel arcs overwrite each other. -/
def lastFlow (old : List NArc) (f : List ℚ) (u v : NV) : ℚ :=
  (((old.zip f).filter fun e => e.1.a = u ∧ e.1.b = v).getLast?.map Prod.snd).getD 0

/-- The flow that `modify_flow(S, T, G, old_G, flowMap, newFlowMap)` gives to an arc of the contracted
network (pmf_r.cpp:231-254). An arc from the sink to the source keeps the initial value `0`. -/
def contractFlowAt (j : ℕ) (S T : CSet) (old : List NArc) (f : List ℚ) (e : NArc) : ℚ :=
  let inS (x : NV) : Bool := decide (nvId j x ∈ S)
  let inT (x : NV) : Bool := decide (nvId j x ∈ T)
  if inS e.a then
    if inT e.b then
      flowSum old f (fun z => inS z.a && inT z.b) -
        flowSum old f (fun z => !inS z.a && inT z.a && inS z.b)
    else flowSum old f fun z => inS z.a && !inT z.b && !inS z.b && decide (nvId j z.b = nvId j e.b)
  else if inT e.a then
    if inS e.b then 0
    else flowSum old f fun z =>
      !inS z.a && inT z.a && !inS z.b && !inT z.b && decide (nvId j z.b = nvId j e.b)
  else if inS e.b then
    flowSum old f fun z => !inS z.a && !inT z.a && inS z.b && decide (nvId j z.a = nvId j e.a)
  else if inT e.b then
    flowSum old f fun z => !inS z.a && !inT z.a && !inS z.b && inT z.b && decide (nvId j z.a = nvId j e.a)
  else lastFlow old f e.a e.b

/-- `PMF_R::modify_flow(S, T, G, old_G, flowMap, newFlowMap)` (pmf_r.cpp:185-255) for the network made by
`contract`. -/
def contractFlow (ε : ℚ) (j : ℕ) (S T : CSet) (old : List NArc) (f : List ℚ) : List ℚ :=
  (contractR ε j S T old).map (contractFlowAt j S T old f)

/-- The arguments `leftArcMap`, `rightArcMap`, `left_ele` and `right_ele` of `slice`. -/
structure RWarm where
  left : List ℚ
  right : List ℚ
  leftEle : Option (Finset ℕ)
  rightEle : Option (Finset ℕ)

/-- The elevator left behind by a thread (`ele_out`, pmf_r.cpp:331-344, 377-393) on a network with the
nodes `V`: the solver's own one if none was given, otherwise the copy. An interrupted thread leaves nothing
or (`copied`) the copy. -/
def eleOut (V : Finset ℕ) (done copied : Bool) : Option (Finset ℕ) → Option (Finset ℕ)
  | none => if done then some V else none
  | some e => if done || copied then some e else none

/-- A flow map for the network of a call of `slice` (pmf_r.cpp:451-472). -/
def sliceFlow (ε : ℚ) (j : ℕ) (G : RNet) (Tl Tr : CSet) (isContract : Bool) (f : List ℚ) : List ℚ :=
  if isContract then contractFlow ε j (Finset.range (j + 2) \ Tl) Tr G.arcs f else f

/-- What the left thread is started with (pmf_r.cpp:327-336, 462-471). -/
def leftStart (ε : ℚ) (j : ℕ) (G H : RNet) (Tl Tr : CSet) (c : Bool) (w : RWarm) : HLStart :=
  ⟨clampFlow H.arcs (sliceFlow ε j G Tl Tr c w.left), if c then none else w.leftEle⟩

/-- What the right thread is started with (pmf_r.cpp:373-382). -/
def rightStart (ε : ℚ) (j : ℕ) (G H : RNet) (Tl Tr : CSet) (c : Bool) (w : RWarm) : HLStart :=
  ⟨clampFlow H.arcs (sliceFlow ε j G Tl Tr c w.right), if c then none else w.rightEle⟩

/-- `PMF_R::slice` (pmf_r.cpp:408-571, release build) with its flow maps and elevators. `sched Tl Tr` says
which thread of the call for `Tl`, `Tr` delivered, and whether an interrupted one had copied its elevator.
The result of `init` is ignored as in the code. The children get `left_ele` and `right_ele`, not
`left_inner` and `right_inner` (pmf_r.cpp:549-550). -/
def pmfrSliceW (W Q : HLSolver) (ε : ℚ) (arcs : List Arc) (j : ℕ) (y : ℕ → YPair)
    (sched : CSet → CSet → Finish × Bool) :
    ℕ → RNet → CSet → CSet → RWarm → ℚ → ℚ → Bool → Outcome (List CSet × List ℚ × List NArc)
  | 0, _, _, _, _, _, _, _ => .fuel
  | k + 1, G, Tl, Tr, w, lam1, lam3, isContract => do
    let const := getCutValue arcs Tl - getCutValue arcs Tr
    let ps := ((List.range (j + 1)).filter fun i => i ∈ Tl ∧ i ∉ Tr).map y
    let lam2 ← computeLambda ε ps const
    if ¬ tolDifferent ε lam2 lam1 ∨ ¬ tolDifferent ε lam2 lam3 then return ([], [lam2], G.arcs)
    else if lam2 < lam1 ∨ lam3 < lam2 then .exc "lambda value mismatch"
    else
      let H := sliceNet ε arcs j y G Tl Tr lam2 isContract
      let N : Net := ⟨H.verts, H.arcs⟩
      let original := N.cutCap (Tr.erase j)
      let c := sched Tl Tr
      let sl := leftStart ε j G H Tl Tr isContract w
      let sr := rightStart ε j G H Tl Tr isContract w
      let L : CSet × ℚ := if c.1.leftDone then
        (insert j (W.sinkSide N (some sl)), (W.run N (some sl)).value) else (∅, -1)
      let r : CSet × ℚ := if L.1.card = 0 then
        (if c.1 = .left then (∅, -1)
          else (insert j (Q.srcSide N.rev (some sr)), (Q.run N.rev (some sr)).value))
        else L
      let T := r.1 ∪ Tr
      if T ≠ Tr ∧ T ≠ Tl ∧ r.2 < original - 10 * ε then
        let f := if L.1.card = 0 then (Q.run N.rev (some sr)).flow else (W.run N (some sl)).flow
        let a ← pmfrSliceW W Q ε arcs j y sched k H Tl T
          ⟨sliceFlow ε j G Tl Tr isContract w.left, f, w.leftEle,
            eleOut H.verts (c.1 ≠ .left) c.2 sr.ele⟩ lam1 lam2 (L.1.card ≠ 0)
        let b ← pmfrSliceW W Q ε arcs j y sched k ⟨H.verts, a.2.2, H.base⟩ T Tr
          ⟨f, sliceFlow ε j G Tl Tr isContract w.right, eleOut H.verts c.1.leftDone c.2 sl.ele,
            w.rightEle⟩ lam2 lam3 (L.1.card = 0)
        return (T :: (a.1 ++ b.1), a.2.1 ++ b.2.1, if isContract then G.arcs else b.2.2)
      else return ([], [lam2], if isContract then G.arcs else H.arcs)

/-- `PMF_R::run` for node `j` (pmf_r.cpp:96-177). -/
def pmfrRunW (W Q : HLSolver) (ε : ℚ) (g : Digraph) (sched : ℕ → CSet → CSet → Finish × Bool) (j : ℕ)
    (y : ℕ → YPair) : Outcome (List CSet × List ℚ) :=
  if ¬ (∀ i ∈ List.range (j + 1), i ∈ g.nodes) then .ub "nodeFromId: invalid node"
  else do
    let base := fun i => (0, sinkCapacity g.arcs j i)
    let dig := updateDig y (-1 / 10) base ((pmfArcs ε g.arcs j).map (digArc g.arcs j))
    let T0 := insert j (W.sinkSide ⟨Finset.range j, dig⟩ none)
    let lam3 := lambda3 g.arcs j y g.countNodes
    let dig3 := updateDig y lam3 base dig
    let s ← pmfrSliceW W Q ε g.arcs j y (sched j) (j + 1) ⟨Finset.range j, dig3, base⟩ T0 {j}
      ⟨(W.run ⟨Finset.range j, dig⟩ none).flow, (Q.run (Net.rev ⟨Finset.range j, dig3⟩) none).flow,
        some (Finset.range j), some (Finset.range j)⟩ (-1 / 10) lam3 false
    return ((T0 :: {j} :: s.1).insertionSort (fun A B => B ⊆ A), s.2.1.insertionSort (· ≤ ·))

/-- `PDT_R::run()` on an object whose member `_y_lambda` is `y` (pmf_r.cpp:697-771). -/
def pdtrRunFromW (W Q : HLSolver) (ε : ℚ) (sched : ℕ → CSet → CSet → Finish × Bool) (g : Digraph)
    (y : ℕ → YPair) : Outcome (PSPOut × (ℕ → YPair)) :=
  pdtRunWith (pmfrRunW W Q ε g sched) g y

/-- `PDT_R::run()` on a new object. -/
def pdtrRunW (W Q : HLSolver) (ε : ℚ) (sched : ℕ → CSet → CSet → Finish × Bool) (g : Digraph) :
    Outcome PSPOut := do
  let r ← pdtrRunFromW W Q ε sched g fun _ => (0, none)
  return r.1

/-! ### assumptions on the solver -/

/-- A flow of the network: one value per arc, within the capacities, and nothing is lost at the ordinary
nodes. -/
structure IsFlow (N : Net) (f : List ℚ) : Prop where
  length : f.length = N.arcs.length
  bounds : ∀ e ∈ N.arcs.zip f, 0 ≤ e.2 ∧ e.2 ≤ e.1.cap
  conserve : ∀ i, excess N.arcs f (.v i) = 0

/-- All capacities are nonnegative, and the arcs join nodes of the network. -/
structure Net.Proper (N : Net) : Prop where
  nonneg : N.Nonneg
  tail : ∀ e ∈ N.arcs, ∀ i, e.a = .v i → i ∈ N.verts
  head : ∀ e ∈ N.arcs, ∀ i, e.b = .v i → i ∈ N.verts

/-- Assumption on the external solver, for the starting points allowed by `ok`: it returns a flow of the
network with its value, and a cut of that capacity. -/
structure HLSolver.Correct (ok : Net → HLStart → Prop) (W : HLSolver) : Prop where
  value_eq : ∀ N s, N.Proper → (∀ t, s = some t → ok N t) → (W.run N s).value = N.cutCap (W.sinkSide N s)
  flow : ∀ N s, N.Proper → (∀ t, s = some t → ok N t) → IsFlow N (W.run N s).flow
  flow_value : ∀ N s, N.Proper → (∀ t, s = some t → ok N t) →
    excess N.arcs (W.run N s).flow .snk = (W.run N s).value

/-- Additional assumption: the reported sink side is the smallest one. -/
structure HLSolver.LeastSink (ok : Net → HLStart → Prop) (W : HLSolver) : Prop extends W.Correct ok where
  least : ∀ N s, N.Proper → (∀ t, s = some t → ok N t) → ∀ X ⊆ N.verts,
    N.cutCap X = (W.run N s).value → W.sinkSide N s ⊆ X

/-- Additional assumption: the reported source side is the smallest one. -/
structure HLSolver.LeastSource (ok : Net → HLStart → Prop) (W : HLSolver) : Prop extends W.Correct ok where
  least : ∀ N s, N.Proper → (∀ t, s = some t → ok N t) → ∀ X ⊆ N.verts,
    N.cutCap X = (W.run N s).value → W.srcSide N s ⊆ N.verts \ X

/-- A starting flow: within the capacities, and no ordinary node sends out more than it receives. -/
structure IsStart (N : Net) (f : List ℚ) : Prop where
  length : f.length = N.arcs.length
  bounds : ∀ e ∈ N.arcs.zip f, 0 ≤ e.2 ∧ e.2 ≤ e.1.cap
  excess : ∀ i, 0 ≤ excess N.arcs f (.v i)

/-- The starting points for which the solver is assumed to work: any starting flow, with any elevator. -/
def AnyStart (N : Net) (s : HLStart) : Prop := IsStart N s.flow

/-- An elevator, if there is one, was made for the nodes `V`. -/
def EleFits (V : Finset ℕ) (e : Option (Finset ℕ)) : Prop := ∀ s, e = some s → s = V

/-- Starting points with an elevator that fits the network. -/
def FitStart (N : Net) (s : HLStart) : Prop := IsStart N s.flow ∧ EleFits N.verts s.ele

end PSP.Model
