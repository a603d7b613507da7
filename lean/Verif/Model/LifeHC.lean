import Verif.Model.AIC
import Verif.Model.Heap

/-!
# Lifetimes of the objects of class `HC` (`/repo/IC/src/Core.hpp`, `/repo/IC/src/AIC.hpp`,
`/repo/psp/agglomerative.cpp`)

Only what is created with `new` is counted; vectors and queues delete what they own.
-/

namespace PSP.Model

/-- `n` times `new`. -/
def HM.newN : ℕ → HM (List ℕ)
  | 0 => return []
  | n + 1 => do
    let p ← HM.new
    let ps ← HM.newN n
    return p :: ps

/-- A `LinkList`: its contents and the addresses in `lnode`. -/
structure LinkListMem where
  list : HC.LinkList
  lnode : List ℕ

/-- `LinkList(size, 1)` (Core.hpp:108-131): one `LinkNode` for every index, also in both branches of mode 1.
For `size = 0` there is a write out of range before anything else. -/
def LinkListMem.new (size : ℕ) : HM LinkListMem := do
  let l ← HM.lift (HC.LinkList.new size)
  let ps ← HM.newN size
  return ⟨l, ps⟩

/-- `~LinkList` (Core.hpp:132-136): the loop begins with `i = 1`. -/
def LinkListMem.destroy (l : LinkListMem) : HM Unit := HM.deleteAll (l.lnode.drop 1)

/-- `HC::getPartition` (Core.hpp:228-254): `new LinkList(weight.size(), 1)` for `to_cluster`, and no `delete`. -/
def HC.getPartitionM (h : HC) (gam : WithBot ℚ) : HM (List (List ℕ)) := do
  let _toCluster ← HM.new
  let l ← LinkListMem.new h.n
  HM.lift (h.partitionLoop gam (h.n + 1) l.list [])

/-- `HC::getCoarsestPartition` (Core.hpp:262-264). -/
def HC.getCoarsestPartitionM (h : HC) : HM (List (List ℕ)) := h.getPartitionM ⊥

/-- `AIC::agglomerate` (AIC.hpp:271-296) after its call of `getPartition`. -/
def agglomerateFrom (mnb : SF → Outcome (List ℚ)) (f : SF) (fnTol : ℚ) (h : HC) (P : List (List ℕ)) :
    Outcome (HC × Bool) := do
  if P.length ≤ 1 then return (h, false)
  let xs ← aicPoints mnb (sfContract f P) ((List.range P.length).drop 1)
  match aicGamma xs with
  | none => return (h, true)
  | some g =>
    let h' ← h.mergeAll (aicMerges P xs fnTol g)
    return (h', true)

/-- `AIC::agglomerate` (AIC.hpp:271-296). -/
def agglomerateM (mnb : SF → Outcome (List ℚ)) (f : SF) (fnTol : ℚ) (h : HC) : HM (HC × Bool) := do
  let P ← h.getPartitionM ⊥
  HM.lift (agglomerateFrom mnb f fnTol h P)

/-- The loop of `Agglomerative_PSP::run` (agglomerative.cpp:85-88). -/
def aggLoopM (mnb : SF → Outcome (List ℚ)) (f : SF) (fnTol : ℚ) :
    ℕ → HC → List Partition → List ℚ → HM (List Partition × List ℚ)
  | 0, _, _, _ => HM.lift .fuel
  | k + 1, h, ps, cv => do
    let (h', more) ← agglomerateM mnb f fnTol h
    if more then
      let P ← h'.getCoarsestPartitionM
      match h'.getCriticalValues.getLast? with
      | none => HM.lift (.ub "back() of an empty vector")
      | some c => aggLoopM mnb f fnTol k h' (toPartition P :: ps) (c :: cv)
    else return (ps, cv)

/-- `Agglomerative_PSP::run` (agglomerative.cpp:81-89). -/
def aggRunM (mnb : SF → Outcome (List ℚ)) (f : SF) (fnTol : ℚ) : HM (List Partition × List ℚ) := do
  let h := HC.new f.size
  let P ← h.getCoarsestPartitionM
  aggLoopM mnb f fnTol (f.size + 1) h [toPartition P] []

end PSP.Model
