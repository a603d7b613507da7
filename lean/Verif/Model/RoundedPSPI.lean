import Verif.Model.HPSP
import Verif.Model.Rounded

/-!
# `PSP_I` and `HPSP` with rounded arithmetic

The functions of `Verif.Model.PSPI` and `Verif.Model.HPSP` again, with a rounding `fl` after every operation on `double`
values that may be inexact, see `Verif.Model.Rounded`. `ao` is the order in which `ArcIt` visits the arcs; LEMON's
`ListDigraph` determines it from the order in which they were added. Division by zero is as in the models without
rounding.
-/

namespace PSP.Model

open PSP.Spec (Arc)

/-- `capacity_map[v]` after the loop of `contract` (psp_i.cpp:222-238, hpsp.cpp:139-155), see `capacityTo`. -/
def capacityToF (fl : ℚ → ℚ) (ao : List Arc → List Arc) (arcs : List Arc) (S : CSet) (v : ℕ) : ℚ :=
  flSum fl 0 (((ao arcs).filter fun a =>
    (a.src ∈ S ∧ a.dst ∉ S ∧ a.dst = v) ∨ (a.src ∉ S ∧ a.dst ∈ S ∧ a.src = v)).map (·.cap))

/-- The arc added for `v` (psp_i.cpp:247-258, hpsp.cpp:164-175), see `contractArc`. -/
def contractArcF (fl : ℚ → ℚ) (ao : List Arc → List Arc) (ε : ℚ) (arcs : List Arc) (S : CSet) (i v : ℕ) :
    Option Arc :=
  let c := capacityToF fl ao arcs S v
  if v ∈ S ∨ |c| < ε then none
  else if i < v then some ⟨i, v, |c|⟩ else some ⟨v, i, |c|⟩

/-- `contract(S, i)` (psp_i.cpp:220-259, hpsp.cpp:137-176), see `contract`. -/
def contractF (fl : ℚ → ℚ) (ao : List Arc → List Arc) (ε : ℚ) (g : Digraph) (S : CSet) (i : ℕ) : Digraph where
  nodes := g.nodes.filter fun v => ¬ (v ∈ S ∧ v ≠ i)
  arcs := (g.arcs.filter fun a => ¬ (a.src = i ∨ a.dst = i) ∧
        ¬ (a.src ∈ S ∧ a.src ≠ i) ∧ ¬ (a.dst ∈ S ∧ a.dst ≠ i)) ++
      (g.nodes.insertionSort (· ≤ ·)).filterMap (contractArcF fl ao ε g.arcs S i)

/-- `weight_total` (psp_i.cpp:168-170, hpsp.cpp:97-99). -/
def weightTotalF (fl : ℚ → ℚ) (ao : List Arc → List Arc) (arcs : List Arc) (ns : List ℕ) : ℚ :=
  flSum fl 0 (((ao arcs).filter fun a => a.src ∈ ns ∧ a.dst ∈ ns).map (·.cap))

/-- `gamma_apostrophe` (psp_i.cpp:171, hpsp.cpp:100) for `m` children. -/
def splitGammaF (fl : ℚ → ℚ) (ao : List Arc → List Arc) (arcs : List Arc) (ns : List ℕ) (m : ℕ) : ℚ :=
  fl (weightTotalF fl ao arcs ns / ((m : ℚ) - 1))

/-- The condition of psp_i.cpp:183 / hpsp.cpp:112, see `splitDone`. -/
def splitDoneF (fl : ℚ → ℚ) (ε γ : ℚ) (m : ℕ) (r : ℚ × Partition) : Bool :=
  decide (¬ (r.2.card ≠ 1 ∧ r.2.card ≠ m ∧ r.1 < fl (-γ - ε)))

/-- The loop over the blocks (psp_i.cpp:190-216), see `pspiBlocks`. -/
def pspiBlocksF (fl : ℚ → ℚ) (ao : List Arc → List Arc) (ε : ℚ)
    (split : Digraph → List PTree → Outcome (Digraph × Option ℚ × List PTree)) :
    List CSet → Digraph → List PTree → Outcome (Digraph × List PTree)
  | [], g, ch => .ok (g, ch)
  | B :: Bs, g, ch =>
    if B.card = 1 then pspiBlocksF fl ao ε split Bs g ch
    else do
      let moved := ch.filter fun c => ¬ Disjoint c.K B
      let rest := ch.filter fun c => Disjoint c.K B
      let x ← split g moved.reverse
      let K' : CSet := B ∪ (moved.map PTree.K).foldr (· ∪ ·) ∅
      pspiBlocksF fl ao ε split Bs (contractF fl ao ε x.1 B (firstElem B)) (.node K' x.2.1 x.2.2 :: rest)

/-- `PSP_I::split(i)` (psp_i.cpp:157-219), see `pspiSplit`. -/
def pspiSplitF (fl : ℚ → ℚ) (ao : List Arc → List Arc) (S : FlowSolver) (ε : ℚ) (ord : Partition → List CSet) :
    ℕ → Digraph → List PTree → Outcome (Digraph × Option ℚ × List PTree)
  | 0, _, _ => .fuel
  | k + 1, g, ch =>
    let ids : CSet := (ch.map fun c => firstElem c.K).toFinset
    let ns := subNodes g ids
    if ch.length = 1 then .ok (g, none, ch)
    else
      let γ := splitGammaF fl ao g.arcs ns ch.length
      if ch.length = 2 then .ok (g, some γ, ch)
      else
        let r := dilworthIF fl S g.arcs γ ns
        if splitDoneF fl ε γ ch.length r then .ok (g, some γ, ch)
        else do
          let x ← pspiBlocksF fl ao ε (pspiSplitF fl ao S ε ord k) (ord r.2) g ch
          pspiSplitF fl ao S ε ord k x.1 x.2

/-- `PSP_I::run()` (psp_i.cpp:102-155), see `pspiRun`. The queue only compares values. -/
def pspiRunF (fl : ℚ → ℚ) (ao : List Arc → List Arc) (S : FlowSolver) (ε : ℚ) (ord : Partition → List CSet)
    (g : Digraph) : Outcome (Digraph × PSPOut) :=
  let n := g.countNodes
  if n = 0 then .ub "OutArcIt of the root is INVALID"
  else do
    let x ← pspiSplitF fl ao S ε ord (n + 1) g ((List.range n).reverse.map fun i => PTree.leaf {i})
    let y ← queueLoop (2 * n) [PTree.node (makeDense n) x.2.1 x.2.2]
    return (x.1, ⟨y.1, y.2⟩)

/-- The loop over the blocks (hpsp.cpp:121-132), see `hpspBlocks`. -/
def hpspBlocksF (fl : ℚ → ℚ) (ao : List Arc → List Arc) (ε : ℚ)
    (split : Digraph → HState → ℕ → CSet → Outcome (Digraph × HState)) :
    List CSet → Digraph → HState → CSet → Outcome (Digraph × HState × CSet)
  | [], g, st, newS => .ok (g, st, newS)
  | B :: Bs, g, st, newS =>
    if B.card = 1 then hpspBlocksF fl ao ε split Bs g st (insert (firstElem B) newS)
    else do
      let x ← split g st (firstElem B) B
      hpspBlocksF fl ao ε split Bs (contractF fl ao ε x.1 B (firstElem B)) x.2 (insert (firstElem B) newS)

/-- `HPSP::split(s, children_list)` (hpsp.cpp:90-136), see `hpspSplit`. -/
def hpspSplitF (fl : ℚ → ℚ) (ao : List Arc → List Arc) (S : FlowSolver) (ε : ℚ) (ord : Partition → List CSet) :
    ℕ → Digraph → HState → ℕ → CSet → Outcome (Digraph × HState)
  | 0, _, _, _, _ => .fuel
  | k + 1, g, st, s, children =>
    let ns := subNodes g children
    if children.card = 1 then .nan
    else
      let γ := splitGammaF fl ao g.arcs ns children.card
      if children.card = 2 then .ok (g, st.assign children γ s)
      else
        let r := dilworthIF fl S g.arcs γ ns
        if splitDoneF fl ε γ children.card r then .ok (g, st.assign children γ s)
        else do
          let x ← hpspBlocksF fl ao ε (hpspSplitF fl ao S ε ord k) (ord r.2) g st ∅
          hpspSplitF fl ao S ε ord k x.1 x.2.1 s x.2.2

/-- `HPSP::run()` (hpsp.cpp:11-14), see `hpspRun`. `psp_construct` only compares values. -/
def hpspRunF (fl : ℚ → ℚ) (ao : List Arc → List Arc) (S : FlowSolver) (ε : ℚ) (ord : Partition → List CSet)
    (g : Digraph) : Outcome (Digraph × PSPOut) :=
  let n := g.countNodes
  if n = 1 then .ok (g, ⟨[makeFine 1], []⟩)
  else do
    let x ← hpspSplitF fl ao S ε ord (n + 1) g ⟨fun _ => 0, fun _ => 0⟩ 0 (makeDense n)
    let y ← pspConstruct n x.2
    return (x.1, y)

end PSP.Model
