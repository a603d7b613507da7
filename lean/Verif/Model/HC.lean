import Verif.Model.Basic
import Mathlib.Order.WithBot
import Verif.Spec.HC

/-!
# Model: `IC/src/Core.hpp` (class `HC`) and `IC/src/ChowLiu.hpp` (class `CL`)

Doubles are exact rationals; `-INFINITY` is `⊥ : WithBot ℚ`.  The values passed to `merge` are finite.
The vectors `parent`, `children`, `weight`, `rank` all have length `n`; they are functions here and
an access at `i ≥ n` is the outcome `ub`.
-/

namespace PSP.Model

open PSP.Spec (Link)

/-- Data members of `IC::HC` (Core.hpp:158-162). -/
structure HC where
  n : ℕ
  gamma : List ℚ
  parent : ℕ → ℕ
  children : ℕ → List ℕ
  weight : ℕ → WithBot ℚ
  rank : ℕ → ℕ

namespace HC

/-- `HC::HC` (Core.hpp:208-220). `if (n < 2) std::runtime_error(…)` constructs a temporary and does
not throw. -/
def new (n : ℕ) : HC :=
  { n := n, gamma := [], parent := fun i => i, children := fun _ => [], weight := fun _ => ⊥,
    rank := fun _ => 0 }

/-- `HC::find` (Core.hpp:171-173), cut off after `fuel` calls. -/
def findAux (h : HC) : ℕ → ℕ → Outcome ℕ
  | 0, _ => .fuel
  | f + 1, i =>
    if h.n ≤ i then .ub "parent[i] out of range"
    else if h.parent i = i then .ok i
    else h.findAux f (h.parent i)

/-- `HC::find` (Core.hpp:171-173). -/
def find (h : HC) (i : ℕ) : Outcome ℕ := h.findAux (h.n + 1) i

/-- Making `b` the parent of `a` (Core.hpp:194-196, 200-202). -/
def attach (h : HC) (a b : ℕ) (g : ℚ) : HC :=
  { h with
    parent := Function.update h.parent a b
    children := Function.update h.children b (h.children b ++ [a])
    weight := Function.update h.weight a (g : WithBot ℚ) }

/-- `HC::merge` (Core.hpp:183-205). -/
def merge (h : HC) (i j : ℕ) (g : ℚ) : Outcome (HC × Bool) := do
  let iroot ← h.find i
  let jroot ← h.find j
  if iroot = jroot ∨ ¬ (h.gamma = [] ∨ ∃ b ∈ h.gamma.getLast?, b ≥ g) then
    return (h, false)
  let h1 : HC := if h.gamma = [] ∨ ∃ b ∈ h.gamma.getLast?, b > g then
    { h with gamma := h.gamma ++ [g] } else h
  if h1.rank iroot ≤ h1.rank jroot then
    let h2 := h1.attach iroot jroot g
    if h1.rank iroot = h1.rank jroot then
      return ({ h2 with rank := Function.update h2.rank jroot (h2.rank jroot + 1) }, true)
    else return (h2, true)
  else return (h1.attach jroot iroot g, true)

/-- A sequence of calls of `merge`. -/
def mergeAll (h : HC) : List Link → Outcome HC
  | [] => .ok h
  | c :: cs => do
    let (h', _) ← h.merge c.i c.j c.val
    h'.mergeAll cs

/-- `HC::LinkList` (Core.hpp:97-156); `key` is never read. -/
structure LinkList where
  head : ℕ
  prev : ℕ → ℕ
  next : ℕ → ℕ

/-- `LinkList(size, 1)` (Core.hpp:118-128). For `size = 0` the `else` branch writes `lnode[0]` of an
empty vector. -/
def LinkList.new (size : ℕ) : Outcome LinkList :=
  if 1 < size then
    .ok { head := 0
          prev := fun i => if i = 0 then 0 else i - 1
          next := fun i => if i = size - 1 then size - 1 else i + 1 }
  else if size = 0 then .ub "lnode[0] out of range"
  else .ok { head := 0, prev := fun _ => 0, next := fun _ => 0 }

/-- `LinkList::remove` (Core.hpp:137-150). -/
def LinkList.remove (l : LinkList) (i : ℕ) : LinkList :=
  if l.head ≠ i then
    let prev := l.prev i
    let next := l.next i
    let l1 := if prev ≠ i then
        { l with next := Function.update l.next prev (if next ≠ i then next else prev)
                 prev := Function.update l.prev i i }
      else l
    if next ≠ i then
      { l1 with prev := Function.update l1.prev next (if prev ≠ i then prev else next)
                next := Function.update l1.next i i }
    else l1
  else l

/-- `LinkList::next` (Core.hpp:151-155): `none` is `false`. -/
def LinkList.advance (l : LinkList) : Option LinkList :=
  if l.next l.head = l.head then none else some { l with head := l.next l.head }

/-- What one step of the search pushes on the queue (Core.hpp:237-246, 278-288). -/
def pushes (h : HC) (gam : WithBot ℚ) (p : ℕ × ℕ) : List (ℕ × ℕ) :=
  let i := p.2
  let j := h.parent i
  (if j ≠ i ∧ j ≠ p.1 ∧ gam < h.weight i then [(i, j)] else []) ++
    (h.children i).filterMap fun c => if c ≠ p.1 ∧ gam < h.weight c then some (i, c) else none

/-- The search of `getPartition` (Core.hpp:232-250), cut off after `fuel` steps. -/
def searchRemove (h : HC) (gam : WithBot ℚ) :
    ℕ → List (ℕ × ℕ) → List ℕ → LinkList → Outcome (List ℕ × LinkList)
  | _, [], cluster, l => .ok (cluster, l)
  | 0, _ :: _, _, _ => .fuel
  | f + 1, p :: q, cluster, l =>
    h.searchRemove gam f (q ++ h.pushes gam p) (cluster ++ [p.2]) (l.remove p.2)

/-- The search of `getCluster` (Core.hpp:274-292), cut off after `fuel` steps. -/
def search (h : HC) (gam : WithBot ℚ) : ℕ → List (ℕ × ℕ) → List ℕ → Outcome (List ℕ)
  | _, [], cluster => .ok cluster
  | 0, _ :: _, _ => .fuel
  | f + 1, p :: q, cluster => h.search gam f (q ++ h.pushes gam p) (cluster ++ [p.2])

/-- The `do … while` loop of `getPartition` (Core.hpp:231-252). -/
def partitionLoop (h : HC) (gam : WithBot ℚ) :
    ℕ → LinkList → List (List ℕ) → Outcome (List (List ℕ))
  | 0, _, _ => .fuel
  | f + 1, l, clusters => do
    let (cluster, l') ← h.searchRemove gam (h.n + 1) [(l.head, l.head)] [] l
    match l'.advance with
    | none => return clusters ++ [cluster]
    | some l'' => h.partitionLoop gam f l'' (clusters ++ [cluster])

/-- `HC::getPartition` (Core.hpp:228-254). -/
def getPartition (h : HC) (gam : WithBot ℚ) : Outcome (List (List ℕ)) := do
  let l ← LinkList.new h.n
  h.partitionLoop gam (h.n + 1) l []

/-- `HC::getCoarsestPartition` (Core.hpp:262-264). -/
def getCoarsestPartition (h : HC) : Outcome (List (List ℕ)) := h.getPartition ⊥

/-- `HC::getCluster` (Core.hpp:273-293). -/
def getCluster (h : HC) (i : ℕ) (gam : WithBot ℚ) : Outcome (List ℕ) :=
  if h.n ≤ i then .ub "parent[i] out of range"
  else h.search gam (h.n + 1) [(i, i)] []

/-- `HC::similarity` (Core.hpp:302-321); `⊤` is `INFINITY`. -/
def similarityAux (h : HC) : ℕ → ℕ → ℕ → Outcome (WithTop (WithBot ℚ))
  | 0, _, _ => .fuel
  | f + 1, i, j =>
    if i = j then .ok ⊤
    else if h.n ≤ i ∨ h.n ≤ j then .ub "parent[i] out of range"
    else if h.parent i = i ∧ h.parent j = j then .ok ((0 : ℚ) : WithBot ℚ)
    else if h.parent i = j then .ok (h.weight i)
    else if h.parent j = i then .ok (h.weight j)
    else if h.weight i ≥ h.weight j then h.similarityAux f (h.parent i) j
    else h.similarityAux f (h.parent j) i

/-- `HC::similarity` (Core.hpp:302-321). -/
def similarity (h : HC) (i j : ℕ) : Outcome (WithTop (WithBot ℚ)) :=
  h.similarityAux (2 * h.n + 1) i j

/-- `HC::getCriticalValues()` (Core.hpp:328-330). -/
def getCriticalValues (h : HC) : List ℚ := h.gamma

/-- `if (gamma.empty() || gamma.back() > w) gamma.push_back(w)` (Core.hpp:341-342, 345-346). -/
def pushSmaller (l : List (WithBot ℚ)) (w : WithBot ℚ) : List (WithBot ℚ) :=
  if l = [] ∨ ∃ b ∈ l.getLast?, b > w then l ++ [w] else l

/-- The loop over the ancestors in `getCriticalValues(i)` (Core.hpp:344-348). -/
def ancestorValues (h : HC) : ℕ → ℕ → List (WithBot ℚ) → Outcome (List (WithBot ℚ))
  | 0, _, _ => .fuel
  | f + 1, i, l =>
    if h.parent i ≠ i then h.ancestorValues f (h.parent i) (pushSmaller l (h.weight i)) else .ok l

/-- `HC::getCriticalValues(i)` (Core.hpp:338-350). -/
def getCriticalValuesOf (h : HC) (i : ℕ) : Outcome (List (WithBot ℚ)) :=
  if h.n ≤ i then .ub "children[i] out of range"
  else h.ancestorValues (h.n + 1) i ((h.children i).foldl (fun l j => pushSmaller l (h.weight j)) [])

end HC

/-- Possible results of `sort_indexes(v)` (Core.hpp:31-43): `std::sort` is not stable, so any order of
the indices with descending values may come out. -/
def SortedIndexes (v : List ℚ) (idx : List ℕ) : Prop :=
  idx.Perm (List.range v.length) ∧ (idx.map fun k => v.getD k 0).Pairwise (· ≥ ·)

/-- The loop of `CL::agglomerate` (ChowLiu.hpp:14-25) over the sorted indices `idx`; reading outside
`first_node` or `second_node` is undefined behaviour. -/
def clLoop (first second : List ℕ) (info : List ℚ) : List ℕ → HC → Outcome HC
  | [], h => .ok h
  | k :: ks, h =>
    match first[k]?, second[k]?, info[k]? with
    | some a, some b, some w => do
      let (h', _) ← h.merge a b w
      clLoop first second info ks h'
    | _, _, _ => .ub "vector index out of range"

/-- `CL::CL(n, first_node, second_node, mutual_info)` (ChowLiu.hpp:34-38); `idx` is the result of
`sort_indexes(mutual_info)`. -/
def CL.new (n : ℕ) (first second : List ℕ) (info : List ℚ) (idx : List ℕ) : Outcome HC :=
  clLoop first second info idx (HC.new n)

/-- The pairs listed by `CL::CL(SF&)` (ChowLiu.hpp:46-48). -/
def clPairs (n : ℕ) : List (ℕ × ℕ) :=
  (List.range n).flatMap fun i => (List.range i).map fun j => (i, j)

/-- `CL::CL(SF &h)` (ChowLiu.hpp:45-57): `hf` is `h.operator()`, `n` is `h.size()`. -/
def CL.ofEntropy (hf : List ℕ → ℚ) (n : ℕ) (idx : List ℕ) : Outcome HC :=
  let ps := clPairs n
  CL.new n (ps.map Prod.fst) (ps.map Prod.snd)
    (ps.map fun p => hf [p.1] + hf [p.2] - hf [p.1, p.2]) idx

end PSP.Model
