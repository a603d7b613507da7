import Verif.Model.PSPI

/-!
# Model of `psp::HPSP` (`/repo/psp/hpsp.cpp`)
-/

namespace PSP.Model

open PSP.Spec (Arc)

/-- The members `W` and `K` (hpsp.h, resized to `node_size` zeros in hpsp.cpp:8-9). All indices used
are node ids below `node_size`. -/
structure HState where
  W : ℕ → ℚ
  K : ℕ → ℕ

/-- hpsp.cpp:114-117: `W[n] = gamma_apostrophe; K[n] = s` for all `n` in `children_list`. -/
def HState.assign (st : HState) (children : CSet) (γ : ℚ) (s : ℕ) : HState where
  W n := if n ∈ children then γ else st.W n
  K n := if n ∈ children then s else st.K n

/-- The loop over the blocks (hpsp.cpp:121-132); the last argument is `new_S`, `split` the recursive
call. -/
def hpspBlocks (ε : ℚ) (split : Digraph → HState → ℕ → CSet → Outcome (Digraph × HState)) :
    List CSet → Digraph → HState → CSet → Outcome (Digraph × HState × CSet)
  | [], g, st, newS => .ok (g, st, newS)
  | B :: Bs, g, st, newS =>
    if B.card = 1 then hpspBlocks ε split Bs g st (insert (firstElem B) newS)
    else do
      let x ← split g st (firstElem B) B
      hpspBlocks ε split Bs (contract ε x.1 B (firstElem B)) x.2 (insert (firstElem B) newS)

/-- `HPSP::split(s, children_list)` (hpsp.cpp:90-136). With one child the quotient is `0/0`; this only
happens for the one-node graph, see `hpspRun`. -/
def hpspSplit (S : FlowSolver) (ε : ℚ) (ord : Partition → List CSet) :
    ℕ → Digraph → HState → ℕ → CSet → Outcome (Digraph × HState)
  | 0, _, _, _, _ => .fuel
  | k + 1, g, st, s, children =>
    let ns := subNodes g children
    if children.card = 1 then .nan
    else
      let γ := weightTotal g.arcs ns / ((children.card : ℚ) - 1)
      if children.card = 2 then .ok (g, st.assign children γ s)
      else
        let r := dilworthI S g.arcs γ ns
        if splitDone ε γ children.card r then .ok (g, st.assign children γ s)
        else do
          let x ← hpspBlocks ε (hpspSplit S ε ord k) (ord r.2) g st ∅
          hpspSplit S ε ord k x.1 x.2.1 s x.2.2

/-- The `std::map<int, std::vector<int>> D` of hpsp.cpp:84. -/
abbrev DMap := ℕ → Option (List ℕ)

/-- `D[k] = v`. -/
def DMap.set (D : DMap) (k : ℕ) (v : List ℕ) : DMap := fun i => if i = k then some v else D i
/-- `D.erase(k)`. -/
def DMap.erase (D : DMap) (k : ℕ) : DMap := fun i => if i = k then none else D i

/-- Body of the loop of `merge` for an element `j` with `W[j] == gamma` (hpsp.cpp:31-50). -/
def mergeOne (K : ℕ → ℕ) (D : DMap) (j : ℕ) : DMap :=
  match D j with
  | some Dj =>
    if K j = j then D
    else match D (K j) with
      | none => (D.set (K j) (Dj ++ [K j])).erase j
      | some Dk => (D.set (K j) (Dk ++ Dj)).erase j
  | none => match D (K j) with
    | none => D.set (K j) [j, K j]
    | some Dk => D.set (K j) (Dk ++ [j])

/-- The value `gamma` of `merge` (hpsp.cpp:16-20). -/
def mergeGamma (W : ℕ → ℚ) (C : List ℕ) : ℚ :=
  C.foldl (fun γ j => if γ < W j then W j else γ) (-1)

/-- The loop of `merge` over `C` (hpsp.cpp:21-51): the elements with `W[j] == gamma` leave `C` and are
merged in order. -/
def mergeD (W : ℕ → ℚ) (K : ℕ → ℕ) (γ : ℚ) (C : List ℕ) (D : DMap) : DMap :=
  (C.filter fun j => W j = γ).foldl (mergeOne K) D

/-- The partition built by `merge` from `D` (hpsp.cpp:52-70).  Keys of `D` are node ids. -/
def mergePartition (n : ℕ) (D : DMap) : Partition :=
  let keys := (List.range n).filter fun k => (D k).isSome
  let lists := keys.map fun k => (D k).getD []
  let total : CSet := (lists.flatten).toFinset
  (lists.map List.toFinset).toFinset ∪
    (if total.card < n then (makeDense n \ total).image fun v => {v} else ∅)

/-- The `while` loop of `psp_construct` (hpsp.cpp:85-87) with the `push_front`s of `merge`
(hpsp.cpp:71-72). If no element has `W[j] == gamma` the loop would never end (`fuel`). -/
def mergeLoop (n : ℕ) (st : HState) : ℕ → List ℕ → DMap → List Partition → List ℚ →
    Outcome (List Partition × List ℚ)
  | 0, _, _, _, _ => .fuel
  | k + 1, C, D, psp, cv =>
    if C.length ≤ 1 then .ok (psp, cv)
    else
      let γ := mergeGamma st.W C
      let D' := mergeD st.W st.K γ C D
      mergeLoop n st k (C.filter fun j => ¬ st.W j = γ) D' (mergePartition n D' :: psp) (γ :: cv)

/-- `HPSP::psp_construct()` (hpsp.cpp:74-89). -/
def pspConstruct (n : ℕ) (st : HState) : Outcome PSPOut := do
  let r ← mergeLoop n st (n + 1) (List.range n) (fun _ => none) [] []
  return ⟨r.1 ++ [makeFine n], r.2⟩

/-- `HPSP::run()` (hpsp.cpp:11-14), with the graph afterwards.  For `n = 1` the vector `W` holds a NaN
that is never read, because `psp_construct` does not enter its loop. -/
def hpspRun (S : FlowSolver) (ε : ℚ) (ord : Partition → List CSet) (g : Digraph) :
    Outcome (Digraph × PSPOut) :=
  let n := g.countNodes
  if n = 1 then .ok (g, ⟨[makeFine 1], []⟩)
  else do
    let x ← hpspSplit S ε ord (n + 1) g ⟨fun _ => 0, fun _ => 0⟩ 0 (makeDense n)
    let y ← pspConstruct n x.2
    return (x.1, y)

end PSP.Model
