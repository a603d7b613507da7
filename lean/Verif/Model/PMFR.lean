import Verif.Model.PMF

/-!
# Model of `parametric::PMF_R` and `parametric::PDT_R` (`/repo/psp/pmf_r.cpp`)

Every call of `slice` runs two max-flow computations in two threads, one of them on the reversed
network. What the threads do to each other is modelled in `Verif.Model.Race`; here a parameter says
which of the two delivered its result.

The flow maps and elevators handed to the solver as a starting point (pmf_r.cpp:146-148, 166-170, 185-272,
457-471) are left out here; `Verif.Model.PMFRWarm` adds them. Not modelled: the debug checks and the memory
management.
-/

namespace PSP.Model

open PSP.Spec (Arc)

/-! ### the solver on the reversed network -/

/-- Exchange source and sink. -/
def NV.swap : NV → NV
  | .src => .snk
  | .snk => .src
  | .v i => .v i

/-- `lemon::ReverseDigraph` with source and sink exchanged (pmf_r.cpp:163, 372). -/
def Net.rev (N : Net) : Net where
  verts := N.verts
  arcs := N.arcs.map fun e => ⟨e.b.swap, e.a.swap, e.cap⟩

/-- `lemon::Preflow_HL` (submodule `psp/preflow`, absent from the tree) after both phases, asked by
`minCutSource`: the nodes on the source side of a minimum cut. -/
structure SrcSolver where
  flowValue : Net → ℚ
  minCutSource : Net → ℕ → Bool

/-- The nodes reported on the source side. -/
def SrcSolver.srcSide (R : SrcSolver) (N : Net) : Finset ℕ :=
  N.verts.filter fun v => R.minCutSource N v = true

/-- Assumption on the external solver: the reported source side is that of a minimum cut, whose
capacity is the flow value. -/
structure SrcSolver.Correct (R : SrcSolver) : Prop where
  value_eq : ∀ N : Net, N.Nonneg → R.flowValue N = N.cutCap (N.verts \ R.srcSide N)
  le_cut : ∀ N : Net, N.Nonneg → ∀ X ⊆ N.verts, R.flowValue N ≤ N.cutCap X

/-- Additional assumption: the reported source side is the smallest one (the nodes reachable from the
source in the residual network). -/
structure SrcSolver.Minimal (R : SrcSolver) : Prop extends R.Correct where
  minimal : ∀ N : Net, N.Nonneg → ∀ X ⊆ N.verts, N.cutCap X = R.flowValue N →
    R.srcSide N ⊆ N.verts \ X

/-! ### the networks -/

/-- An arc of `dig` before any `update_dig` (pmf_r.cpp:112-132). -/
def digArc (arcs : List Arc) (j : ℕ) : PArc → NArc
  | .inner s t c => ⟨s, t, c⟩
  | .sink i => ⟨pmfNode j i, .snk, sinkCapacity arcs j i⟩
  | .source i => ⟨.src, .v i, 0⟩

/-- What `PMF_R::update_dig` does to one arc (pmf_r.cpp:274-292).  An arc between source and sink is left
alone. (A self loop at the sink is left alone too; its capacity is never used.) -/
def updateArc (y : ℕ → YPair) (lam : ℚ) (base : ℕ → ℚ × ℚ) : NArc → NArc
  | ⟨.src, .v i, _⟩ => ⟨.src, .v i, (if yVal lam (y i) < 0 then -yVal lam (y i) else 0) + (base i).1⟩
  | ⟨.v i, .snk, _⟩ => ⟨.v i, .snk, (base i).2 + max 0 (yVal lam (y i))⟩
  | e => e

/-- `PMF_R::update_dig` (pmf_r.cpp:273-293). -/
def updateDig (y : ℕ → YPair) (lam : ℚ) (base : ℕ → ℚ × ℚ) (arcs : List NArc) : List NArc :=
  arcs.map (updateArc y lam base)

/-- `PMF_R::construct_new_update_base` (pmf_r.cpp:294-312): all arcs of the graph are taken into account;
`S` and `T` are compared with ids of the graph. -/
def newBase (arcs : List Arc) (S T : CSet) (i : ℕ) : ℚ × ℚ :=
  ((arcs.map fun a => if a.dst = i ∧ a.src ∈ S then a.cap else 0).sum,
    (arcs.map fun a => if a.src = i ∧ a.dst ∈ T then a.cap else 0).sum)

/-- Id of a node of `dig`: the sink is `j`, the source `j+1` (pmf_r.cpp:120-123). -/
def nvId (j : ℕ) : NV → ℕ
  | .src => j + 1
  | .snk => j
  | .v i => i

/-- The arcs between `S` and `T` on the one hand and the remaining nodes on the other hand, summed up
(pmf_r.cpp:611-648): capacity of the arcs satisfying `p`, tiny ones left out. -/
def arcSum (ε : ℚ) (old : List NArc) (p : NArc → Bool) : ℚ :=
  (old.map fun e => if ¬ e.cap < ε ∧ p e then e.cap else 0).sum

/-- `PMF_R::contract` (pmf_r.cpp:578-663): `S` becomes the source, `T` the sink. `sum p` is the sum of the capacities of
the arcs satisfying `p`. -/
def contractRWith (sum : (NArc → Bool) → ℚ) (ε : ℚ) (j : ℕ) (S T : CSet) (old : List NArc) : List NArc :=
  let inS (x : NV) : Bool := decide (nvId j x ∈ S)
  let inT (x : NV) : Bool := decide (nvId j x ∈ T)
  (old.filter fun e => ¬ e.cap < ε ∧ inS e.a = false ∧ inT e.a = false ∧ inS e.b = false ∧
      inT e.b = false) ++
  [⟨.src, .snk, sum fun e => inS e.a && inT e.b⟩,
    ⟨.snk, .src, sum fun e => !inS e.a && inT e.a && inS e.b⟩] ++
  ((List.range (j + 2)).filter fun i => i ≠ j ∧ i ≠ j + 1 ∧ i ∉ S ∧ i ∉ T).flatMap fun i =>
    let back := sum fun e => !inS e.a && !inT e.a && inS e.b && decide (nvId j e.a = i)
    let from_t := sum fun e =>
      !inS e.a && inT e.a && !inS e.b && !inT e.b && decide (nvId j e.b = i)
    [⟨.src, .v i, sum fun e => inS e.a && !inT e.b && !inS e.b && decide (nvId j e.b = i)⟩] ++
    (if ε < back then [⟨.v i, .src, back⟩] else []) ++
    [⟨.v i, .snk, sum fun e =>
      !inS e.a && !inT e.a && !inS e.b && inT e.b && decide (nvId j e.a = i)⟩] ++
    (if ε < from_t then [⟨.snk, .v i, from_t⟩] else [])

/-- `PMF_R::contract` with exact sums. -/
def contractR (ε : ℚ) (j : ℕ) (S T : CSet) (old : List NArc) : List NArc :=
  contractRWith (arcSum ε old) ε j S T old

/-- A network `newDig` with `newArcMap` and `new_update_base`. -/
structure RNet where
  verts : Finset ℕ
  arcs : List NArc
  base : ℕ → ℚ × ℚ

/-- Which of the two threads delivered a result (see `Verif.Model.Race`). -/
inductive Finish where
  | left | right | both
deriving DecidableEq, Repr

/-- Did the left thread deliver? -/
def Finish.leftDone : Finish → Bool
  | .right => false
  | _ => true

/-- `T_apostrophe_left` with its value after the threads have been joined; it stays empty if the
thread was interrupted. -/
def leftResult (S : FlowSolver) (j : ℕ) (N : Net) (c : Finish) : CSet × ℚ :=
  if c.leftDone then (insert j (S.sinkSide N), S.flowValue N) else (∅, -1)

/-- `T_apostrophe_right` with its value (pmf_r.cpp:79-86, 396-397). -/
def rightResult (R : SrcSolver) (j : ℕ) (N : Net) (c : Finish) : CSet × ℚ :=
  if c = .left then (∅, -1) else (insert j (R.srcSide N.rev), R.flowValue N.rev)

/-- The network `slice` works on (pmf_r.cpp:442-473): contracted or the old one; capacities are set. -/
def sliceNet (ε : ℚ) (arcs : List Arc) (j : ℕ) (y : ℕ → YPair) (G : RNet) (Tl Tr : CSet) (lam : ℚ)
    (isContract : Bool) : RNet :=
  let S : CSet := Finset.range (j + 2) \ Tl
  if isContract then
    ⟨(Finset.range j).filter fun i => i ∉ S ∧ i ∉ Tr,
      updateDig y lam (newBase arcs S Tr) (contractR ε j S Tr G.arcs), newBase arcs S Tr⟩
  else ⟨G.verts, updateDig y lam G.base G.arcs, G.base⟩

/-- `PMF_R::slice` (pmf_r.cpp:408-571, release build). `finish Tl Tr` says which thread of the call for
`Tl`, `Tr` delivered.  Returns the sets and values in the order in which they are appended, and the
arcs of `G` afterwards (their capacities change if `G` is not contracted).  `get_cut_value(newDig, …,
T_r)` (pmf_r.cpp:475) is the capacity of a cut because the sink is in `T_r` and the source is not. -/
def pmfrSlice (S : FlowSolver) (R : SrcSolver) (ε : ℚ) (arcs : List Arc) (j : ℕ) (y : ℕ → YPair)
    (finish : CSet → CSet → Finish) :
    ℕ → RNet → CSet → CSet → ℚ → ℚ → Bool → Outcome (List CSet × List ℚ × List NArc)
  | 0, _, _, _, _, _, _ => .fuel
  | k + 1, G, Tl, Tr, lam1, lam3, isContract => do
    let const := getCutValue arcs Tl - getCutValue arcs Tr
    let ps := ((List.range (j + 1)).filter fun i => i ∈ Tl ∧ i ∉ Tr).map y
    let lam2 ← computeLambda ε ps const
    if ¬ tolDifferent ε lam2 lam1 ∨ ¬ tolDifferent ε lam2 lam3 then return ([], [lam2], G.arcs)
    else if lam2 < lam1 ∨ lam3 < lam2 then .exc "lambda value mismatch"
    else
      let H := sliceNet ε arcs j y G Tl Tr lam2 isContract
      let N : Net := ⟨H.verts, H.arcs⟩
      let original := N.cutCap (Tr.erase j)
      let c := finish Tl Tr
      let L := leftResult S j N c
      let r := if L.1.card = 0 then rightResult R j N c else L
      let T := r.1 ∪ Tr
      if T ≠ Tr ∧ T ≠ Tl ∧ r.2 < original - 10 * ε then
        let a ← pmfrSlice S R ε arcs j y finish k H Tl T lam1 lam2 (L.1.card ≠ 0)
        let b ← pmfrSlice S R ε arcs j y finish k ⟨H.verts, a.2.2, H.base⟩ T Tr lam2 lam3 (L.1.card = 0)
        return (T :: (a.1 ++ b.1), a.2.1 ++ b.2.1, if isContract then G.arcs else b.2.2)
      else return ([], [lam2], if isContract then G.arcs else H.arcs)

/-- `lambda_3` (pmf_r.cpp:149-159) for the nodes `0..n-1`. -/
def lambda3 (arcs : List Arc) (j : ℕ) (y : ℕ → YPair) (n : ℕ) : ℚ :=
  (List.range n).foldl (fun l i =>
    let l1 := match (y i).2 with
      | none => l
      | some b => if l < (y i).1 - b then (y i).1 - b else l
    let l2 := if l1 < (y i).1 then (y i).1 else l1
    if l2 < sinkCapacity arcs j i + (y i).1 then sinkCapacity arcs j i + (y i).1 else l2) 0

/-- `PMF_R::run` for node `j` (pmf_r.cpp:96-177).  The flow at `lambda_3` is only used as a starting
point and not modelled. -/
def pmfrRun (S : FlowSolver) (R : SrcSolver) (ε : ℚ) (g : Digraph)
    (finish : ℕ → CSet → CSet → Finish) (j : ℕ) (y : ℕ → YPair) : Outcome (List CSet × List ℚ) :=
  if ¬ (∀ i ∈ List.range (j + 1), i ∈ g.nodes) then .ub "nodeFromId: invalid node"
  else do
    let base := fun i => (0, sinkCapacity g.arcs j i)
    let dig := updateDig y (-1 / 10) base ((pmfArcs ε g.arcs j).map (digArc g.arcs j))
    let T0 := insert j (S.sinkSide ⟨Finset.range j, dig⟩)
    let lam3 := lambda3 g.arcs j y g.countNodes
    let dig3 := updateDig y lam3 base dig
    let s ← pmfrSlice S R ε g.arcs j y (finish j) (j + 1) ⟨Finset.range j, dig3, base⟩ T0 {j} (-1 / 10)
      lam3 false
    return ((T0 :: {j} :: s.1).insertionSort (fun A B => B ⊆ A), s.2.1.insertionSort (· ≤ ·))

/-- `PDT_R::run()` on an object whose member `_y_lambda` is `y` (pmf_r.cpp:697-771). -/
def pdtrRunFrom (S : FlowSolver) (R : SrcSolver) (ε : ℚ) (finish : ℕ → CSet → CSet → Finish)
    (g : Digraph) (y : ℕ → YPair) : Outcome (PSPOut × (ℕ → YPair)) :=
  pdtRunWith (pmfrRun S R ε g finish) g y

/-- `PDT_R::run()` on a new object. -/
def pdtrRun (S : FlowSolver) (R : SrcSolver) (ε : ℚ) (finish : ℕ → CSet → CSet → Finish)
    (g : Digraph) : Outcome PSPOut := do
  let r ← pdtrRunFrom S R ε finish g fun _ => (0, none)
  return r.1

end PSP.Model
