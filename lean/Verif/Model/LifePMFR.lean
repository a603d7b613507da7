import Verif.Model.Heap
import Verif.Model.PMFRWarm

/-!
# Lifetimes of the objects of `PMF_R` (`/repo/psp/pmf_r.cpp`)

The same computation as in `Verif.Model.PMFRWarm`, together with the objects that `run` and `slice` create, use and
delete: graphs, arc maps, flow maps, elevators, threads. The parameter `own` says whether the destructor of
`Preflow_HL` (submodule `psp/preflow`, absent from the tree) deletes the elevator that the solver made itself, as
LEMON's `Preflow` does.
-/

namespace PSP.Model

open PSP.Spec (Arc)

/-- A pointer to an elevator made for the nodes in the second component. -/
abbrev EleP := Option (ℕ × Finset ℕ)

/-- The pointers and references `G`, `arcMap`, `update_base`, `leftArcMap`, `rightArcMap` of `slice`. -/
structure RPtr where
  dig : ℕ
  aM : ℕ
  base : ℕ
  left : ℕ
  right : ℕ

/-- The arguments of `slice` the solvers start from, with pointers to the elevators. -/
structure RWarmM where
  left : List ℚ
  right : List ℚ
  leftEle : EleP
  rightEle : EleP

/-- The same without the pointers. -/
def RWarmM.forget (w : RWarmM) : RWarm := ⟨w.left, w.right, w.leftEle.map Prod.snd, w.rightEle.map Prod.snd⟩

/-- What `executePreflow` and `executePreflow_reverse` do with elevators (pmf_r.cpp:314-359, 360-406), on a network with
the nodes `V`. `done`: the thread delivered. `inited`: an interrupted thread had passed `init`. Without a given
elevator, `init` makes one; `elevator()` returns its address, and the solver object ends with the thread's `try` block. A
given elevator is copied, and the copy does not belong to the solver. -/
def threadM (own : Bool) (V : Finset ℕ) (done inited : Bool) : EleP → HM EleP
  | none =>
    if done then do
      let p ← HM.new
      HM.deleteIf own p
      return some (p, V)
    else if inited then do
      let p ← HM.new
      HM.deleteIf own p
      return none
    else return none
  | some e =>
    if done || inited then do
      HM.touch e.1
      let q ← HM.new
      return some (q, e.2)
    else return none

/-- The objects `slice` works on (pmf_r.cpp:451-472). -/
def sliceObjects (isContract : Bool) (p : RPtr) : HM RPtr :=
  if isContract then do
    let dig ← HM.new
    let aM ← HM.new
    HM.touch p.dig
    HM.touch p.aM
    let base ← HM.new
    let left ← HM.new
    HM.touch p.left
    let right ← HM.new
    HM.touch p.right
    return ⟨dig, aM, base, left, right⟩
  else return p

/-- Both threads (pmf_r.cpp:482-521). They use the graph, the capacities and the flow maps; the two `thread` objects are
deleted after `join`. -/
def threadsM (own : Bool) (V : Finset ℕ) (c : Finish × Bool) (p : RPtr) (le re : EleP) : HM (EleP × EleP) := do
  let l ← HM.new
  let r ← HM.new
  HM.touch p.dig
  HM.touch p.aM
  HM.touch p.left
  HM.touch p.right
  let lo ← threadM own V c.1.leftDone c.2 le
  let ro ← threadM own V (c.1 ≠ .left) c.2 re
  HM.delete l
  HM.delete r
  return (lo, ro)

/-- The end of `slice` (pmf_r.cpp:555-568): the objects are deleted in this order. -/
def houseKeeping (isContract : Bool) (p : RPtr) (rev : ℕ) (lo ro : EleP) : HM Unit :=
  HM.deleteAll ((lo.map Prod.fst).toList ++ ((ro.map Prod.fst).toList ++
    (rev :: if isContract then [p.base, p.left, p.right, p.aM, p.dig] else [])))

/-- The objects of a call of `slice` (pmf_r.cpp:442-571) from the creation of the graph to the end; `rest` is what happens
between the end of the threads and the deletions, with the addresses of the two local flow maps, which end with the
call (LEMON's maps may end after their graph). Exceptions inside a thread are not modelled. -/
def sliceFrame {β : Type} (own ic : Bool) (p : RPtr) (V : Finset ℕ) (c : Finish × Bool) (le re : EleP)
    (rest : RPtr → ℕ → ℕ → EleP × EleP → HM β) : HM β := do
  let q ← sliceObjects ic p
  HM.touch q.dig
  HM.touch q.aM
  HM.touch q.base
  let rev ← HM.new
  HM.local_ fun fl => HM.local_ fun fr => do
    let eo ← threadsM own V c q le re
    let res ← rest q fl fr eo
    houseKeeping ic q rev eo.1 eo.2
    return res

/-- `PMF_R::slice` (pmf_r.cpp:408-571), see `pmfrSliceW` and `sliceFrame`. -/
def pmfrSliceM (own : Bool) (W Q : HLSolver) (ε : ℚ) (arcs : List Arc) (j : ℕ) (y : ℕ → YPair)
    (sched : CSet → CSet → Finish × Bool) :
    ℕ → RNet → RPtr → CSet → CSet → RWarmM → ℚ → ℚ → Bool → HM (List CSet × List ℚ × List NArc)
  | 0, _, _, _, _, _, _, _, _ => HM.lift .fuel
  | k + 1, G, p, Tl, Tr, w, lam1, lam3, isContract => do
    let const := getCutValue arcs Tl - getCutValue arcs Tr
    let ps := ((List.range (j + 1)).filter fun i => i ∈ Tl ∧ i ∉ Tr).map y
    let lam2 ← HM.lift (computeLambda ε ps const)
    if ¬ tolDifferent ε lam2 lam1 ∨ ¬ tolDifferent ε lam2 lam3 then return ([], [lam2], G.arcs)
    else if lam2 < lam1 ∨ lam3 < lam2 then HM.lift (.exc "lambda value mismatch")
    else
      let H := sliceNet ε arcs j y G Tl Tr lam2 isContract
      let N : Net := ⟨H.verts, H.arcs⟩
      let original := N.cutCap (Tr.erase j)
      let c := sched Tl Tr
      let sl := leftStart ε j G H Tl Tr isContract w.forget
      let sr := rightStart ε j G H Tl Tr isContract w.forget
      let L : CSet × ℚ := if c.1.leftDone then
        (insert j (W.sinkSide N (some sl)), (W.run N (some sl)).value) else (∅, -1)
      let r : CSet × ℚ := if L.1.card = 0 then
        (if c.1 = .left then (∅, -1)
          else (insert j (Q.srcSide N.rev (some sr)), (Q.run N.rev (some sr)).value))
        else L
      let T := r.1 ∪ Tr
      let f := if L.1.card = 0 then (Q.run N.rev (some sr)).flow else (W.run N (some sl)).flow
      sliceFrame own isContract p H.verts c (if isContract then none else w.leftEle)
        (if isContract then none else w.rightEle) fun q fl fr eo =>
          if T ≠ Tr ∧ T ≠ Tl ∧ r.2 < original - 10 * ε then do
            let fm := if L.1.card = 0 then fr else fl
            let a ← pmfrSliceM own W Q ε arcs j y sched k H ⟨q.dig, q.aM, q.base, q.left, fm⟩ Tl T
              ⟨sliceFlow ε j G Tl Tr isContract w.left, f, w.leftEle, eo.2⟩ lam1 lam2 (L.1.card ≠ 0)
            let b ← pmfrSliceM own W Q ε arcs j y sched k ⟨H.verts, a.2.2, H.base⟩
              ⟨q.dig, q.aM, q.base, fm, q.right⟩ T Tr
              ⟨f, sliceFlow ε j G Tl Tr isContract w.right, eo.1, w.rightEle⟩ lam2 lam3 (L.1.card = 0)
            return (T :: (a.1 ++ b.1), a.2.1 ++ b.2.1, if isContract then G.arcs else b.2.2)
          else return ([], [lam2], if isContract then G.arcs else H.arcs)

/-- The destructors of the two solvers of `run` after an exception; nothing else runs. -/
def unwindSolvers {α : Type} (own : Bool) (e r : ℕ) (m : HM α) : HM α := fun h =>
  match m h with
  | (h', .exc s) => HM.bind (do HM.deleteIf own r; HM.deleteIf own e : HM Unit) (fun _ h'' => (h'', .exc s)) h'
  | o => o

/-- The two elevators made by the solvers of `run` (pmf_r.cpp:133, 160, 168-173). Both solvers are local objects. -/
def withElevators {α : Type} (own : Bool) (m : ℕ → ℕ → HM α) : HM α := do
  let e ← HM.new
  let r ← HM.new
  let x ← unwindSolvers own e r (m e r)
  HM.delete e
  HM.delete r
  HM.deleteIf own r
  HM.deleteIf own e
  return x

/-- `PMF_R::run` for node `j` (pmf_r.cpp:96-177). The graph `dig` and its maps are members. -/
def pmfrRunM (own : Bool) (W Q : HLSolver) (ε : ℚ) (g : Digraph) (sched : ℕ → CSet → CSet → Finish × Bool) (j : ℕ)
    (y : ℕ → YPair) : HM (List CSet × List ℚ) :=
  if ¬ (∀ i ∈ List.range (j + 1), i ∈ g.nodes) then HM.lift (.ub "nodeFromId: invalid node")
  else HM.local_ fun dp => HM.local_ fun ap => HM.local_ fun bp => HM.local_ fun lp => HM.local_ fun rp => do
    let base := fun i => (0, sinkCapacity g.arcs j i)
    let dig := updateDig y (-1 / 10) base ((pmfArcs ε g.arcs j).map (digArc g.arcs j))
    let T0 := insert j (W.sinkSide ⟨Finset.range j, dig⟩ none)
    let lam3 := lambda3 g.arcs j y g.countNodes
    let dig3 := updateDig y lam3 base dig
    let s ← withElevators own fun e r =>
      pmfrSliceM own W Q ε g.arcs j y (sched j) (j + 1) ⟨Finset.range j, dig3, base⟩ ⟨dp, ap, bp, lp, rp⟩ T0 {j}
        ⟨(W.run ⟨Finset.range j, dig⟩ none).flow, (Q.run (Net.rev ⟨Finset.range j, dig3⟩) none).flow,
          some (e, Finset.range j), some (r, Finset.range j)⟩ (-1 / 10) lam3 false
    return ((T0 :: {j} :: s.1).insertionSort (fun A B => B ⊆ A), s.2.1.insertionSort (· ≤ ·))

/-- One iteration of `PDT_R::run()` (pmf_r.cpp:709-768). -/
def pdtStepM (pmf : ℕ → (ℕ → YPair) → HM (List CSet × List ℚ)) (g : Digraph) (j : ℕ) (st : PDTState) :
    HM PDTState := do
  let r ← pmf j st.y
  HM.lift (pdtStep (fun _ _ => .ok r) g j st)

/-- The loop over `j = i, …, i+k-1`. -/
def pdtLoopM (pmf : ℕ → (ℕ → YPair) → HM (List CSet × List ℚ)) (g : Digraph) : ℕ → ℕ → PDTState → HM PDTState
  | 0, _, st => return st
  | k + 1, i, st => do
    let st' ← pdtStepM pmf g i st
    pdtLoopM pmf g k (i + 1) st'

/-- `PDT_R::run()` on a new object (pmf_r.cpp:697-771). -/
def pdtrRunM (own : Bool) (W Q : HLSolver) (ε : ℚ) (sched : ℕ → CSet → CSet → Finish × Bool) (g : Digraph) :
    HM PSPOut :=
  if g.countNodes = 0 then HM.lift (.ub "node_filter: invalid node")
  else do
    let st ← pdtLoopM (pmfrRunM own W Q ε g sched) g (g.countNodes - 1) 1 ⟨fun _ => (0, none), [({{0}}, none)]⟩
    let cv := st.parts.dropLast.map Prod.snd
    if none ∈ cv then HM.lift .nan
    else return ⟨st.parts.map Prod.fst, cv.filterMap id⟩

end PSP.Model
