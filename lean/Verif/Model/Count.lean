import Verif.Model.PSP

/-!
# Counting the maximum flow computations

The algorithms again, with a second component that counts the runs of `lemon::Preflow`. `Verif/Theory/Count.lean`
proves that forgetting the counter gives the functions of the other files, so the counter is the only addition.
-/

namespace PSP.Model

open PSP.Spec (Arc)

/-- Forget the counter. -/
def uncount {α : Type} (x : Outcome (α × ℕ)) : Outcome α := x >>= fun y => .ok y.1

/-! ### `PSP_I` and `HPSP` -/

/-- `runLoopI` (psp_i.cpp:86-92): every call of `minimize` runs `pf.run()` once (psp_i.cpp:53). -/
def runLoopIC (S : FlowSolver) (arcs : List Arc) (lam : ℚ) :
    List ℕ → List ℕ → List ℚ → Partition → (List ℚ × Partition) × ℕ
  | _, [], xl, P => ((xl, P), 0)
  | done, l :: rest, xl, P =>
    let r := minimizeI S arcs lam done l xl
    let x := runLoopIC S arcs lam (done ++ [l]) rest (xl ++ [r.1]) (expand P (insert l r.2))
    (x.1, 1 + x.2)

/-- `dilworthI` (psp_i.cpp:81-97). -/
def dilworthIC (S : FlowSolver) (arcs : List Arc) (lam : ℚ) (ns : List ℕ) : (ℚ × Partition) × ℕ :=
  let r := runLoopIC S arcs lam [] ns [] ∅
  ((r.1.1.sum, r.1.2), r.2)

/-- `hpspBlocks` (hpsp.cpp:121-132). -/
def hpspBlocksC (ε : ℚ) (split : Digraph → HState → ℕ → CSet → Outcome ((Digraph × HState) × ℕ)) :
    List CSet → Digraph → HState → CSet → Outcome ((Digraph × HState × CSet) × ℕ)
  | [], g, st, newS => .ok ((g, st, newS), 0)
  | B :: Bs, g, st, newS =>
    if B.card = 1 then hpspBlocksC ε split Bs g st (insert (firstElem B) newS)
    else do
      let x ← split g st (firstElem B) B
      let y ← hpspBlocksC ε split Bs (contract ε x.1.1 B (firstElem B)) x.1.2 (insert (firstElem B) newS)
      return (y.1, x.2 + y.2)

/-- `hpspSplit` (hpsp.cpp:90-136). -/
def hpspSplitC (S : FlowSolver) (ε : ℚ) (ord : Partition → List CSet) :
    ℕ → Digraph → HState → ℕ → CSet → Outcome ((Digraph × HState) × ℕ)
  | 0, _, _, _, _ => .fuel
  | k + 1, g, st, s, children =>
    let ns := subNodes g children
    if children.card = 1 then .nan
    else
      let γ := weightTotal g.arcs ns / ((children.card : ℚ) - 1)
      if children.card = 2 then .ok ((g, st.assign children γ s), 0)
      else
        let r := dilworthIC S g.arcs γ ns
        if splitDone ε γ children.card r.1 then .ok ((g, st.assign children γ s), r.2)
        else do
          let x ← hpspBlocksC ε (hpspSplitC S ε ord k) (ord r.1.2) g st ∅
          let y ← hpspSplitC S ε ord k x.1.1 x.1.2.1 s x.1.2.2
          return (y.1, r.2 + x.2 + y.2)

/-- `hpspRun` (hpsp.cpp:11-14). For one node the truncation is run with a NaN on that node. -/
def hpspRunC (S : FlowSolver) (ε : ℚ) (ord : Partition → List CSet) (g : Digraph) :
    Outcome ((Digraph × PSPOut) × ℕ) :=
  let n := g.countNodes
  if n = 1 then .ok ((g, ⟨[makeFine 1], []⟩), 1)
  else do
    let x ← hpspSplitC S ε ord (n + 1) g ⟨fun _ => 0, fun _ => 0⟩ 0 (makeDense n)
    let y ← pspConstruct n x.1.2
    return ((x.1.1, y), x.2)

/-- `pspiBlocks` (psp_i.cpp:190-216). -/
def pspiBlocksC (ε : ℚ)
    (split : Digraph → List PTree → Outcome ((Digraph × Option ℚ × List PTree) × ℕ)) :
    List CSet → Digraph → List PTree → Outcome ((Digraph × List PTree) × ℕ)
  | [], g, ch => .ok ((g, ch), 0)
  | B :: Bs, g, ch =>
    if B.card = 1 then pspiBlocksC ε split Bs g ch
    else do
      let moved := ch.filter fun c => ¬ Disjoint c.K B
      let rest := ch.filter fun c => Disjoint c.K B
      let x ← split g moved.reverse
      let K' : CSet := B ∪ (moved.map PTree.K).foldr (· ∪ ·) ∅
      let y ← pspiBlocksC ε split Bs (contract ε x.1.1 B (firstElem B)) (.node K' x.1.2.1 x.1.2.2 :: rest)
      return (y.1, x.2 + y.2)

/-- `pspiSplit` (psp_i.cpp:157-219). With one child one truncation on one node is run. -/
def pspiSplitC (S : FlowSolver) (ε : ℚ) (ord : Partition → List CSet) :
    ℕ → Digraph → List PTree → Outcome ((Digraph × Option ℚ × List PTree) × ℕ)
  | 0, _, _ => .fuel
  | k + 1, g, ch =>
    let ids : CSet := (ch.map fun c => firstElem c.K).toFinset
    let ns := subNodes g ids
    if ch.length = 1 then .ok ((g, none, ch), ns.length)
    else
      let γ := weightTotal g.arcs ns / ((ch.length : ℚ) - 1)
      if ch.length = 2 then .ok ((g, some γ, ch), 0)
      else
        let r := dilworthIC S g.arcs γ ns
        if splitDone ε γ ch.length r.1 then .ok ((g, some γ, ch), r.2)
        else do
          let x ← pspiBlocksC ε (pspiSplitC S ε ord k) (ord r.1.2) g ch
          let y ← pspiSplitC S ε ord k x.1.1 x.1.2
          return (y.1, r.2 + x.2 + y.2)

/-- `pspiRun` (psp_i.cpp:102-155). -/
def pspiRunC (S : FlowSolver) (ε : ℚ) (ord : Partition → List CSet) (g : Digraph) :
    Outcome ((Digraph × PSPOut) × ℕ) :=
  let n := g.countNodes
  if n = 0 then .ub "OutArcIt of the root is INVALID"
  else do
    let x ← pspiSplitC S ε ord (n + 1) g ((List.range n).reverse.map fun i => PTree.leaf {i})
    let y ← queueLoop (2 * n) [PTree.node (makeDense n) x.1.2.1 x.1.2.2]
    return ((x.1.1, ⟨y.1, y.2⟩), x.2)

/-! ### `DT` -/

/-- `runLoopDT` (dt.cpp:21-27): every call of `minimize` runs `pf.run()` once (dt.cpp:76). -/
def runLoopDTC (S : FlowSolver) (g : Digraph) (lam : ℚ) :
    ℕ → List ℚ → Partition → Outcome ((List ℚ × Partition) × ℕ)
  | 0, xl, P => .ok ((xl, P), 0)
  | k + 1, xl, P => do
    let r ← minimizeDT S g lam xl
    let x ← runLoopDTC S g lam k (xl ++ [r.1]) (expand P (insert xl.length r.2))
    return (x.1, 1 + x.2)

/-- `dilworthDT` (dt.cpp:17-32). -/
def dilworthDTC (S : FlowSolver) (g : Digraph) (lam : ℚ) : Outcome ((ℚ × Partition) × ℕ) := do
  let r ← runLoopDTC S g lam g.countNodes [] ∅
  return ((r.1.1.sum, r.1.2), r.2)

/-- `dtSplit` (dt.cpp:128-143). -/
def dtSplitC (S : FlowSolver) (ε : ℚ) (g : Digraph) :
    ℕ → Partition → Partition → Outcome (DTOut × ℕ)
  | 0, _, _ => .fuel
  | k + 1, Q, P =>
    if P.card = Q.card then .nan
    else do
      let r ← dilworthDTC S g (gammaApos g Q P)
      if r.1.1 > hApos g Q P - ε ∨ Q.card = r.1.2.card ∨ P.card = r.1.2.card then
        return (⟨[gammaApos g Q P], [], 1⟩, r.2)
      else
        let a ← dtSplitC S ε g k Q r.1.2
        let b ← dtSplitC S ε g k r.1.2 P
        return (⟨a.1.cv ++ b.1.cv, r.1.2 :: (a.1.psp ++ b.1.psp), 1 + a.1.calls + b.1.calls⟩,
          r.2 + a.2 + b.2)

/-- `dtRun` (dt.cpp:153-165). -/
def dtRunC (S : FlowSolver) (ε : ℚ) (g : Digraph) : Outcome (PSPOut × ℕ) := do
  let n := g.countNodes
  let r ← dtSplitC S ε g n {makeDense n} (makeFine n)
  return (⟨(({makeDense n} : Partition) :: makeFine n :: r.1.psp).insertionSort
            (fun P Q => P.card ≤ Q.card),
          r.1.cv.insertionSort (· ≤ ·)⟩, r.2)

/-! ### `PDT` -/

/-- `pmfSlice` (pmf.cpp:182-242): one flow computation, from `init(newFlowMap)`, unless `lambda_2` is one of the
ends (pmf.cpp:218-227). -/
def pmfSliceC (W : WarmSolver) (ε : ℚ) (arcs : List Arc) (n j : ℕ) (y : ℕ → YPair) :
    ℕ → CSet → CSet → List ℚ → ℚ → Option ℚ → Outcome ((List CSet × List ℚ) × ℕ)
  | 0, _, _, _, _, _ => .fuel
  | k + 1, Tl, Tr, f, lam1, lam3 => do
    let const := getCutValue arcs Tl - getCutValue arcs Tr
    let ps := ((List.range (n - 1)).filter fun i => i ∈ Tl ∧ i ∉ Tr).map y
    let lam2 ← computeLambda ε ps const
    if ¬ tolDifferent ε lam2 lam1 ∨ ¬ tolDifferentO ε lam2 lam3 then return (([], [lam2]), 0)
    else if lam2 < lam1 ∨ (∃ l ∈ lam3, l < lam2) then .exc "lambda value mismatch"
    else
      let N := pmfNet ε arcs j y lam2
      let original := pmfCut ε arcs j y lam2 Tr
      let f' := modifyFlow arcs j y lam2 (pmfArcs ε arcs j) f
      let r := W.run N (some f')
      let T := pmfSide W N (some f') j
      if T ≠ Tr ∧ T ≠ Tl ∧ r.value < original - 10 * ε then
        let a ← pmfSliceC W ε arcs n j y k Tl T f lam1 (some lam2)
        let b ← pmfSliceC W ε arcs n j y k T Tr f' lam2 lam3
        return ((T :: (a.1.1 ++ b.1.1), a.1.2 ++ b.1.2), 1 + a.2 + b.2)
      else return (([], [lam2]), 1)

/-- `pmfRun` (pmf.cpp:89-141). -/
def pmfRunC (W : WarmSolver) (ε : ℚ) (g : Digraph) (j : ℕ) (y : ℕ → YPair) :
    Outcome ((List CSet × List ℚ) × ℕ) :=
  if ¬ (∀ i ∈ List.range (j + 1), i ∈ g.nodes) then .ub "nodeFromId: invalid node"
  else do
    let N := pmfNet ε g.arcs j y (-1 / 10)
    let r := W.run N none
    let T0 := pmfSide W N none j
    let s ← pmfSliceC W ε g.arcs g.countNodes j y (j + 1) T0 {j} r.flow (-1 / 10) none
    return (((T0 :: {j} :: s.1.1).insertionSort (fun A B => B ⊆ A), s.1.2.insertionSort (· ≤ ·)), 1 + s.2)

/-- `pdtStep` (pmf.cpp:281-340). -/
def pdtStepC (pmf : ℕ → (ℕ → YPair) → Outcome ((List CSet × List ℚ) × ℕ)) (g : Digraph) (j : ℕ)
    (st : PDTState) : Outcome (PDTState × ℕ) := do
  let r ← pmf j st.y
  let y ← pdtUpdates r.1.1 r.1.2 st.y j
  if r.1.1.length ≠ r.1.2.length + 1 then .ub "t_list: iterator out of range"
  else
    let ts := r.1.1.zip (r.1.2.map some ++ [none])
    return (⟨Function.update y j (getCutValue g.arcs {j}, none),
      pdtMerge (st.parts.length + ts.length) st.parts ts []⟩, r.2)

/-- `pdtLoop` (pmf.cpp:280). -/
def pdtLoopC (pmf : ℕ → (ℕ → YPair) → Outcome ((List CSet × List ℚ) × ℕ)) (g : Digraph) :
    ℕ → ℕ → PDTState → Outcome (PDTState × ℕ)
  | 0, _, st => .ok (st, 0)
  | k + 1, i, st => do
    let x ← pdtStepC pmf g i st
    let z ← pdtLoopC pmf g k (i + 1) x.1
    return (z.1, x.2 + z.2)

/-- `PDT::run()` and `PDT_R::run()` (pmf.cpp:268-343, pmf_r.cpp:697-771) on a new object. -/
def pdtRunWithC (pmf : ℕ → (ℕ → YPair) → Outcome ((List CSet × List ℚ) × ℕ)) (g : Digraph) :
    Outcome (PSPOut × ℕ) :=
  if g.countNodes = 0 then .ub "node_filter: invalid node"
  else do
    let st ← pdtLoopC pmf g (g.countNodes - 1) 1 ⟨fun _ => (0, none), [({{0}}, none)]⟩
    let cv := st.1.parts.dropLast.map Prod.snd
    if none ∈ cv then .nan
    else return (⟨st.1.parts.map Prod.fst, cv.filterMap id⟩, st.2)

/-- `pdtRun` (pmf.cpp:268-343). -/
def pdtRunC (W : WarmSolver) (ε : ℚ) (g : Digraph) : Outcome (PSPOut × ℕ) := pdtRunWithC (pmfRunC W ε g) g

/-! ### `PDT_R` -/

/-- `pmfrSlice` (pmf_r.cpp:408-571): two flow computations are started, one in each thread, unless `lambda_2` is one
of the ends. -/
def pmfrSliceC (S : FlowSolver) (R : SrcSolver) (ε : ℚ) (arcs : List Arc) (j : ℕ) (y : ℕ → YPair)
    (finish : CSet → CSet → Finish) :
    ℕ → RNet → CSet → CSet → ℚ → ℚ → Bool → Outcome ((List CSet × List ℚ × List NArc) × ℕ)
  | 0, _, _, _, _, _, _ => .fuel
  | k + 1, G, Tl, Tr, lam1, lam3, isContract => do
    let const := getCutValue arcs Tl - getCutValue arcs Tr
    let ps := ((List.range (j + 1)).filter fun i => i ∈ Tl ∧ i ∉ Tr).map y
    let lam2 ← computeLambda ε ps const
    if ¬ tolDifferent ε lam2 lam1 ∨ ¬ tolDifferent ε lam2 lam3 then return (([], [lam2], G.arcs), 0)
    else if lam2 < lam1 ∨ lam3 < lam2 then .exc "lambda value mismatch"
    else
      let H := sliceNet ε arcs j y G Tl Tr lam2 isContract
      let N : Net := ⟨H.verts, H.arcs⟩
      let original := N.cutCap (Tr.erase j)
      let c := finish Tl Tr
      let L := leftResult S j N c
      let r := if L.1.card = 0 then rightResult R j N c else L
      let T := r.1 ∪ Tr
      if T ≠ Tr ∧ T ≠ Tl ∧ r.2 < original - 10 * ε then
        let a ← pmfrSliceC S R ε arcs j y finish k H Tl T lam1 lam2 (L.1.card ≠ 0)
        let b ← pmfrSliceC S R ε arcs j y finish k ⟨H.verts, a.1.2.2, H.base⟩ T Tr lam2 lam3 (L.1.card = 0)
        return ((T :: (a.1.1 ++ b.1.1), a.1.2.1 ++ b.1.2.1, if isContract then G.arcs else b.1.2.2),
          2 + a.2 + b.2)
      else return (([], [lam2], if isContract then G.arcs else H.arcs), 2)

/-- `pmfrRun` (pmf_r.cpp:96-177): one flow computation for the first set (pmf_r.cpp:137-139) and one for the starting
point on the right (pmf_r.cpp:162-164). -/
def pmfrRunC (S : FlowSolver) (R : SrcSolver) (ε : ℚ) (g : Digraph)
    (finish : ℕ → CSet → CSet → Finish) (j : ℕ) (y : ℕ → YPair) : Outcome ((List CSet × List ℚ) × ℕ) :=
  if ¬ (∀ i ∈ List.range (j + 1), i ∈ g.nodes) then .ub "nodeFromId: invalid node"
  else do
    let base := fun i => (0, sinkCapacity g.arcs j i)
    let dig := updateDig y (-1 / 10) base ((pmfArcs ε g.arcs j).map (digArc g.arcs j))
    let T0 := insert j (S.sinkSide ⟨Finset.range j, dig⟩)
    let lam3 := lambda3 g.arcs j y g.countNodes
    let dig3 := updateDig y lam3 base dig
    let s ← pmfrSliceC S R ε g.arcs j y (finish j) (j + 1) ⟨Finset.range j, dig3, base⟩ T0 {j} (-1 / 10)
      lam3 false
    return (((T0 :: {j} :: s.1.1).insertionSort (fun A B => B ⊆ A), s.1.2.1.insertionSort (· ≤ ·)), 2 + s.2)

/-- `pdtrRun` (pmf_r.cpp:697-771). -/
def pdtrRunC (S : FlowSolver) (R : SrcSolver) (ε : ℚ) (finish : ℕ → CSet → CSet → Finish)
    (g : Digraph) : Outcome (PSPOut × ℕ) := pdtRunWithC (pmfrRunC S R ε g finish) g

/-! ### `PSP` -/

/-- `PSP::run(method)` (psp.cpp:35-82) on a new object made from the arcs `E` (psp.cpp:11-16): the two lists and the
number of flow computations. -/
def countOnce (e : Env) (sched : Schedule) (n : ℕ) (E : List Arc) (method : String) : Outcome (PSPOut × ℕ) := do
  let g ← makeDgraph e.eps n E
  if method = "dt" then dtRunC e.S e.eps g
  else if method = "pdt" then pdtRunC e.W e.eps g
  else if method = "pdt_r" then pdtrRunC e.S e.R e.eps sched g
  else if method = "psp_i" then
    let r ← pspiRunC e.S e.eps e.ord g
    return (r.1.2, r.2)
  else if method = "hpsp" then
    let r ← hpspRunC e.S e.eps e.ord g
    return (r.1.2, r.2)
  else .exc (method ++ " not allowed")

end PSP.Model
