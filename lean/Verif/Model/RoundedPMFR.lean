import Verif.Model.PMFR
import Verif.Model.RoundedPDT

/-!
# `PMF_R` and `PDT_R` with rounded arithmetic

The functions of `Verif.Model.PMFR` again, with a rounding `fl` after every addition, subtraction, multiplication and
division of `double` values, in the order of the code; see `Verif.Model.RoundedPDT`. `ao` is the order in which `ArcIt`
visits the arcs of the graph, `io` the order in which `InArcIt` and `OutArcIt` visit them, `no` the order in which `ArcIt`
visits the arcs of `dig` and `newDig`. Simplification: these orders are arbitrary functions of the list of arcs; in LEMON
they follow from the order of insertion.
-/

namespace PSP.Model

open PSP.Spec (Arc)

/-- Assumption on `lemon::Preflow_HL`: its sink side is the least minimum cut of the network it is given, the reported
value is the capacity of that cut up to a relative error `v`. -/
structure FlowLeast (S : FlowSolver) (v : ℚ) : Prop where
  le_cut : ∀ N : Net, N.Nonneg → ∀ X ⊆ N.verts, N.cutCap (S.sinkSide N) ≤ N.cutCap X
  least : ∀ N : Net, N.Nonneg → ∀ X ⊆ N.verts, N.cutCap X = N.cutCap (S.sinkSide N) → S.sinkSide N ⊆ X
  value : ∀ N : Net, N.Nonneg → |S.flowValue N - N.cutCap (S.sinkSide N)| ≤ v * N.cutCap (S.sinkSide N)

/-- The same for `minCutSource`: the source side is the least one. -/
structure SrcLeast (R : SrcSolver) (v : ℚ) : Prop where
  le_cut : ∀ N : Net, N.Nonneg → ∀ X ⊆ N.verts, N.cutCap (N.verts \ R.srcSide N) ≤ N.cutCap X
  least : ∀ N : Net, N.Nonneg → ∀ X ⊆ N.verts, N.cutCap X = N.cutCap (N.verts \ R.srcSide N) →
    R.srcSide N ⊆ N.verts \ X
  value : ∀ N : Net, N.Nonneg →
    |R.flowValue N - N.cutCap (N.verts \ R.srcSide N)| ≤ v * N.cutCap (N.verts \ R.srcSide N)

/-- What `PMF_R::update_dig` does to one arc (pmf_r.cpp:274-292), see `updateArc`. -/
def updateArcF (fl : ℚ → ℚ) (y : ℕ → YPair) (lam : ℚ) (base : ℕ → ℚ × ℚ) : NArc → NArc
  | ⟨.src, .v i, _⟩ => ⟨.src, .v i, fl ((if yValF fl lam (y i) < 0 then -yValF fl lam (y i) else 0) + (base i).1)⟩
  | ⟨.v i, .snk, _⟩ => ⟨.v i, .snk, fl ((base i).2 + max 0 (yValF fl lam (y i)))⟩
  | e => e

/-- `PMF_R::update_dig` (pmf_r.cpp:273-293). -/
def updateDigF (fl : ℚ → ℚ) (y : ℕ → YPair) (lam : ℚ) (base : ℕ → ℚ × ℚ) (arcs : List NArc) : List NArc :=
  arcs.map (updateArcF fl y lam base)

/-- `PMF_R::construct_new_update_base` (pmf_r.cpp:294-312), see `newBase`. -/
def newBaseF (fl : ℚ → ℚ) (io : List Arc → List Arc) (arcs : List Arc) (S T : CSet) (i : ℕ) : ℚ × ℚ :=
  (flSum fl 0 (((io arcs).filter fun a => a.dst = i ∧ a.src ∈ S).map (·.cap)),
    flSum fl 0 (((io arcs).filter fun a => a.src = i ∧ a.dst ∈ T).map (·.cap)))

/-- The sums in `PMF_R::contract` (pmf_r.cpp:611-648), see `arcSum`; all of them are formed in one loop over the arcs, and
each is the sum of the arcs satisfying `p` in the order of that loop. -/
def arcSumF (fl : ℚ → ℚ) (no : List NArc → List NArc) (ε : ℚ) (old : List NArc) (p : NArc → Bool) : ℚ :=
  flSum fl 0 (((no old).filter fun e => ¬ e.cap < ε ∧ p e).map (·.cap))

/-- The network `slice` works on (pmf_r.cpp:442-473), see `sliceNet`. -/
def sliceNetF (fl : ℚ → ℚ) (io : List Arc → List Arc) (no : List NArc → List NArc) (ε : ℚ) (arcs : List Arc) (j : ℕ)
    (y : ℕ → YPair) (G : RNet) (Tl Tr : CSet) (lam : ℚ) (isContract : Bool) : RNet :=
  let S : CSet := Finset.range (j + 2) \ Tl
  if isContract then
    ⟨(Finset.range j).filter fun i => i ∉ S ∧ i ∉ Tr,
      updateDigF fl y lam (newBaseF fl io arcs S Tr) (contractRWith (arcSumF fl no ε G.arcs) ε j S Tr G.arcs),
      newBaseF fl io arcs S Tr⟩
  else ⟨G.verts, updateDigF fl y lam G.base G.arcs, G.base⟩

/-- `get_cut_value(newDig, newArcMap, T_r)` (graph.h:43-54, pmf_r.cpp:475). -/
def netCutF (fl : ℚ → ℚ) (no : List NArc → List NArc) (arcs : List NArc) (X : Finset ℕ) : ℚ :=
  flSum fl 0 (((no arcs).filter fun e => e.a.onSink X = false ∧ e.b.onSink X = true).map (·.cap))

/-- `PMF_R::slice` (pmf_r.cpp:408-571, release build), see `pmfrSlice`. -/
def pmfrSliceF (fl : ℚ → ℚ) (ao io : List Arc → List Arc) (no : List NArc → List NArc) (S : FlowSolver) (R : SrcSolver)
    (ε : ℚ) (arcs : List Arc) (j : ℕ) (y : ℕ → YPair) (finish : CSet → CSet → Finish) :
    ℕ → RNet → CSet → CSet → ℚ → ℚ → Bool → Outcome (List CSet × List ℚ × List NArc)
  | 0, _, _, _, _, _, _ => .fuel
  | k + 1, G, Tl, Tr, lam1, lam3, isContract => do
    let const := lambdaConstF fl ao arcs Tl Tr
    let ps := ((List.range (j + 1)).filter fun i => i ∈ Tl ∧ i ∉ Tr).map y
    let lam2 ← computeLambdaF fl ε ps const
    if ¬ tolDifferentF fl ε lam2 lam1 ∨ ¬ tolDifferentF fl ε lam2 lam3 then return ([], [lam2], G.arcs)
    else if lam2 < lam1 ∨ lam3 < lam2 then .exc "lambda value mismatch"
    else
      let H := sliceNetF fl io no ε arcs j y G Tl Tr lam2 isContract
      let N : Net := ⟨H.verts, H.arcs⟩
      let original := netCutF fl no H.arcs (Tr.erase j)
      let c := finish Tl Tr
      let L := leftResult S j N c
      let r := if L.1.card = 0 then rightResult R j N c else L
      let T := r.1 ∪ Tr
      if T ≠ Tr ∧ T ≠ Tl ∧ r.2 < fl (original - fl (10 * ε)) then
        let a ← pmfrSliceF fl ao io no S R ε arcs j y finish k H Tl T lam1 lam2 (L.1.card ≠ 0)
        let b ← pmfrSliceF fl ao io no S R ε arcs j y finish k ⟨H.verts, a.2.2, H.base⟩ T Tr lam2 lam3 (L.1.card = 0)
        return (T :: (a.1 ++ b.1), a.2.1 ++ b.2.1, if isContract then G.arcs else b.2.2)
      else return ([], [lam2], if isContract then G.arcs else H.arcs)

/-- One step of the loop computing `lambda_3` (pmf_r.cpp:150-159). -/
def lambda3StepF (fl : ℚ → ℚ) (arcs : List Arc) (j : ℕ) (y : ℕ → YPair) (l : ℚ) (i : ℕ) : ℚ :=
  let l1 := match (y i).2 with
    | none => l
    | some b => if l < fl ((y i).1 - b) then fl ((y i).1 - b) else l
  let l2 := if l1 < (y i).1 then (y i).1 else l1
  if l2 < fl (sinkCapacity arcs j i + (y i).1) then fl (sinkCapacity arcs j i + (y i).1) else l2

/-- `lambda_3` (pmf_r.cpp:149-159), see `lambda3`. -/
def lambda3F (fl : ℚ → ℚ) (arcs : List Arc) (j : ℕ) (y : ℕ → YPair) (n : ℕ) : ℚ :=
  (List.range n).foldl (lambda3StepF fl arcs j y) 0

/-- `PMF_R::run` for node `j` (pmf_r.cpp:96-177), see `pmfrRun`; the literal `-0.1` is rounded too. -/
def pmfrRunF (fl : ℚ → ℚ) (ao io : List Arc → List Arc) (no : List NArc → List NArc) (S : FlowSolver) (R : SrcSolver)
    (ε : ℚ) (g : Digraph) (finish : ℕ → CSet → CSet → Finish) (j : ℕ) (y : ℕ → YPair) :
    Outcome (List CSet × List ℚ) :=
  if ¬ (∀ i ∈ List.range (j + 1), i ∈ g.nodes) then .ub "nodeFromId: invalid node"
  else do
    let base := fun i => (0, sinkCapacity g.arcs j i)
    let dig := updateDigF fl y (fl (-1 / 10)) base ((pmfArcs ε g.arcs j).map (digArc g.arcs j))
    let T0 := insert j (S.sinkSide ⟨Finset.range j, dig⟩)
    let lam3 := lambda3F fl g.arcs j y g.countNodes
    let dig3 := updateDigF fl y lam3 base dig
    let s ← pmfrSliceF fl ao io no S R ε g.arcs j y (finish j) (j + 1) ⟨Finset.range j, dig3, base⟩ T0 {j} (fl (-1 / 10))
      lam3 false
    return ((T0 :: {j} :: s.1).insertionSort (fun A B => B ⊆ A), s.2.1.insertionSort (· ≤ ·))

/-- `PDT_R::run()` on a new object (pmf_r.cpp:697-771), see `pdtrRun`. -/
def pdtrRunF (fl : ℚ → ℚ) (ao io : List Arc → List Arc) (no : List NArc → List NArc) (S : FlowSolver) (R : SrcSolver)
    (ε : ℚ) (finish : ℕ → CSet → CSet → Finish) (g : Digraph) : Outcome PSPOut :=
  if g.countNodes = 0 then .ub "node_filter: invalid node"
  else do
    let st ← pdtLoopF fl ao (pmfrRunF fl ao io no S R ε g finish) g (g.countNodes - 1) 1
      ⟨fun _ => (0, none), [({{0}}, none)]⟩
    let cv := st.parts.dropLast.map Prod.snd
    if none ∈ cv then .nan
    else return ⟨st.parts.map Prod.fst, cv.filterMap id⟩

end PSP.Model
