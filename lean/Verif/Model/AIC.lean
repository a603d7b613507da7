import Verif.Model.HC
import Verif.Spec.SF

/-!
# Model: `IC/src/AIC.hpp`, `IC/src/hypergraph.hpp` and `psp/agglomerative.cpp`

Doubles are exact rationals.  A vector of doubles is a `List ℚ`.
-/

namespace PSP.Model

open PSP.Spec (Arc)

/-- `IC::SF` (Core.hpp:50-91): the size of the ground set and `operator()`. -/
structure SF where
  size : ℕ
  val : List ℕ → ℚ

/-- `SF::mutual_info(B, C)` (Core.hpp:69-76); the overload for two nodes (Core.hpp:84-87) is
`mutualInfo [i] [j]`. -/
def SF.mutualInfo (f : SF) (B C : List ℕ) : ℚ := f.val B + f.val C - f.val (B ++ C)

/-- `DigraphEntropy` (agglomerative.cpp:31-63): for every `b` in `B` the in-arcs, except those from a
smaller node of `B`, and the out-arcs.  `nodeFromId` needs `b` below the number of nodes. -/
def digraphEntropy (g : Digraph) : SF where
  size := g.countNodes
  val B := (B.map fun b =>
    (g.arcs.map fun a => if a.dst = b ∧ ¬ (a.src < b ∧ a.src ∈ B) then a.cap else 0).sum +
    (g.arcs.map fun a => if a.src = b then a.cap else 0).sum).sum

/-- `v.maxCoeff()` of a nonempty vector. -/
def maxCoeff : List ℚ → ℚ
  | [] => 0
  | [a] => a
  | a :: b :: l => max a (maxCoeff (b :: l))

/-- `v.minCoeff()` of a nonempty vector. -/
def minCoeff : List ℚ → ℚ
  | [] => 0
  | [a] => a
  | a :: b :: l => min a (minCoeff (b :: l))

/-- `HypergraphEntropy` (hypergraph.hpp:6-47): rows are nodes, columns hyperedges; sum over the columns
of the largest entry in the rows `B`.  For empty `B` and at least one column `maxCoeff` of an empty
vector is an error of Eigen; the model has value 0 there and theorems exclude it. -/
def hypergraphEntropy (M : List (List ℚ)) (cols : ℕ) : SF where
  size := M.length
  val B := ((List.range cols).map fun c => maxCoeff (B.map fun r => (M.getD r []).getD c 0)).sum

/-- Possible results of sorting the indices by ascending weight (AIC.hpp:19-20); `std::sort` is not
stable. -/
def AscendingIndexes (w : List ℚ) (idx : List ℕ) : Prop :=
  idx.Perm (List.range w.length) ∧ (idx.map fun k => w.getD k 0).Pairwise (· ≤ ·)

/-- The loop of `edmonds_greedy` (AIC.hpp:23-28). `x` starts uninitialised; every entry is written. -/
def greedyLoop (f : List ℕ → ℚ) : List ℕ → List ℕ → ℚ → (ℕ → ℚ) → (ℕ → ℚ)
  | [], _, _, x => x
  | i :: is, B, F, x =>
    let B' := B ++ [i]
    let F' := f B'
    greedyLoop f is B' F' (Function.update x i (-F + F'))

/-- `edmonds_greedy` (AIC.hpp:13-30); `idx` is the result of the sort. -/
def edmondsGreedy (f : SF) (w : List ℚ) (idx : List ℕ) : Outcome (List ℚ) :=
  if f.size ≠ w.length then .exc "w must have the same size as the ground set of f."
  else .ok ((List.range f.size).map (greedyLoop f.val idx [] (f.val []) fun _ => 0))

/-- What the environment supplies to `min_norm_base`: the sort, the solution of the linear system
(AIC.hpp:118, `llt().solve`) for the columns of the corral, and whether the incremental factor `L`
makes the code throw (AIC.hpp:102-107).  `L` depends on the whole history, so `throws` also gets a
counter that is different in every major cycle. -/
structure Numerics where
  sort : List ℚ → List ℕ
  solve : List (List ℚ) → List ℚ
  throws : ℕ → List (List ℚ) → Bool

/-- `x.dot(y)`. -/
def dot (x y : List ℚ) : ℚ := (List.zipWith (· * ·) x y).sum

/-- `Q * w`: the combination of the columns `Q` with coefficients `w`; `n` is the number of rows. -/
def combine (n : ℕ) (Q : List (List ℚ)) (w : List ℚ) : List ℚ :=
  (List.range n).map fun i => (List.zipWith (fun q c => q.getD i 0 * c) Q w).sum

/-- The step length of the minor cycle (AIC.hpp:139-144). -/
def theta (eps : ℚ) (w v : List ℚ) : ℚ :=
  (List.zip w v).foldl (fun t p => if p.1 - p.2 ≥ eps then min t (p.1 / (p.1 - p.2)) else t) 1

/-- The minor cycles (AIC.hpp:112-173): `Q` is the corral, `w` has one entry per column of the whole
matrix (entries beyond the corral are left over from earlier cycles).  Returns the new corral, `w` and
`x`. The values of `L` only matter for the exception and are not modelled; the update of `L` for a
deleted column other than the last reads row `numCorral` of its `n + 1` rows (AIC.hpp:156). -/
def minorCycles (N : Numerics) (n : ℕ) (eps : ℚ) :
    ℕ → List (List ℚ) → List ℚ → Outcome (List (List ℚ) × List ℚ × List ℚ)
  | 0, _, _ => .fuel
  | k + 1, Q, w =>
    let raw := N.solve Q
    if Q ≠ [] ∧ raw.sum = 0 then .nan
    else
      let v := raw.map fun a => a / raw.sum
      let w_ := w.take Q.length
      let rest := w.drop Q.length
      if ¬ ∃ a ∈ v, a ≤ eps then .ok (Q, v ++ rest, combine n Q v)
      else
        let t := theta eps w_ v
        let w1 := List.zipWith (fun a b => (1 - t) * a + t * b) w_ v
        if n < Q.length ∧ ∃ a ∈ w1.dropLast, a ≤ eps then .ub "block outside of L"
        else
        let keep := (List.zip Q w1).filter fun p => ¬ p.2 ≤ eps
        let w2 := keep.map Prod.snd
        minorCycles N n eps k (keep.map Prod.fst) (w2 ++ w1.drop w2.length ++ rest)

/-- `old_first_order_opt <= first_order_opt` (AIC.hpp:79); `none` is infinity. -/
def isStuck : Option ℚ → ℚ → Bool
  | none, _ => false
  | some p, opt => decide (p ≤ opt)

/-- The major cycles (AIC.hpp:69-174); `Q` and `L` have `n + 1` columns.  `prev` is `first_order_opt`
of the cycle before (`none` is infinity); the flag in the result tells whether the loop ended by the
optimality test.  `stuck_count` is uninitialised before the first cycle, which sets it to 0. -/
def majorCycles (N : Numerics) (f : SF) (fnTol eps : ℚ) :
    ℕ → List (List ℚ) → List ℚ → List ℚ → Option ℚ → ℕ → Outcome (List ℚ × Bool)
  | 0, _, _, _, _, _ => .fuel
  | k + 1, Q, w, x, prev, stuck => do
    let q ← edmondsGreedy f x (N.sort x)
    let opt := |dot x q - dot x x|
    if opt < fnTol then return (x, true)
    let stuck' := if isStuck prev opt then stuck + 1 else 0
    if isStuck prev opt ∧ stuck' > 100 then return (x, false)
    if f.size < Q.length then .ub "column outside of Q"
    if N.throws k (Q ++ [q]) then .exc "Try to set a higher functional tolerance."
    let (Q', w', x') ← minorCycles N f.size eps (Q.length + 2) (Q ++ [q]) w
    majorCycles N f fnTol eps k Q' w' x' (some opt) stuck'

/-- `min_norm_base(f, fn_tol, eps)` (AIC.hpp:40-176), cut off after `fuel` major cycles. The flag is as
in `majorCycles`. -/
def minNormBase (N : Numerics) (f : SF) (fnTol eps : ℚ) (fuel : ℕ) : Outcome (List ℚ × Bool) :=
  if f.size < 1 then .ok ([], true)
  else if f.size = 1 then .ok ([f.val [0]], true)
  else do
    let ones := List.replicate f.size 1
    let x ← edmondsGreedy f ones (N.sort ones)
    majorCycles N f fnTol eps fuel [x] (1 :: List.replicate f.size 0) x none 0

/-- `AIC::SF__` (AIC.hpp:195-215): `B ↦ f(B ∪ {j})`; entries of `B` that are not below `j` become 0. -/
def sfJoin (f : SF) (j : ℕ) : SF where
  size := j
  val B := f.val (B.map (fun b => if b < j then b else 0) ++ [j])

/-- `AIC::SF_` (AIC.hpp:219-256): `B ↦ f(⋃ P_i) - ∑ f(P_i)`. -/
def sfContract (f : SF) (P : List (List ℕ)) : SF where
  size := P.length
  val B := f.val (B.flatMap fun i => P.getD i []) - (B.map fun i => f.val (P.getD i [])).sum

/-- `x[j-1] = min_norm_base(SF__(f_, j))` for `j = 1 … k-1` (AIC.hpp:279-282). -/
def aicPoints (mnb : SF → Outcome (List ℚ)) (f : SF) : List ℕ → Outcome (List (List ℚ))
  | [] => .ok []
  | j :: js => do
    let x ← mnb (sfJoin f j)
    let xs ← aicPoints mnb f js
    return x :: xs

/-- `gamma` (AIC.hpp:272, 284). -/
def aicGamma (xs : List (List ℚ)) : WithBot ℚ :=
  xs.foldl (fun g x => max g ((-(minCoeff x) : ℚ) : WithBot ℚ)) ⊥

/-- The pairs for which `merge` is called, in order (AIC.hpp:287-293); `xs[j-1]` belongs to `j`. -/
def aicMerges (P : List (List ℕ)) (xs : List (List ℚ)) (fnTol g : ℚ) : List PSP.Spec.Link :=
  (List.range P.length).flatMap fun j => (List.range j).filterMap fun i =>
    if (xs.getD (j - 1) []).getD i 0 ≤ -g + fnTol then
      some ⟨(P.getD j []).headD 0, (P.getD i []).headD 0, g⟩ else none

/-- `AIC::agglomerate(fn_tol, eps)` (AIC.hpp:271-296); `mnb` is `min_norm_base`. -/
def agglomerate (mnb : SF → Outcome (List ℚ)) (f : SF) (fnTol : ℚ) (h : HC) :
    Outcome (HC × Bool) := do
  let P ← h.getPartition ⊥
  if P.length ≤ 1 then return (h, false)
  let xs ← aicPoints mnb (sfContract f P) ((List.range P.length).drop 1)
  match aicGamma xs with
  | none => return (h, true)
  | some g =>
    let h' ← h.mergeAll (aicMerges P xs fnTol g)
    return (h', true)

/-- `Agglomerative_PSP::add_partition` (agglomerative.cpp:70-80): the partition that is stored. -/
def toPartition (L : List (List ℕ)) : Partition := (L.map List.toFinset).toFinset

/-- The loop of `Agglomerative_PSP::run` (agglomerative.cpp:85-88). -/
def aggLoop (mnb : SF → Outcome (List ℚ)) (f : SF) (fnTol : ℚ) :
    ℕ → HC → List Partition → List ℚ → Outcome (List Partition × List ℚ)
  | 0, _, _, _ => .fuel
  | k + 1, h, ps, cv => do
    let (h', more) ← agglomerate mnb f fnTol h
    if more then
      let P ← h'.getCoarsestPartition
      match h'.getCriticalValues.getLast? with
      | none => .ub "back() of an empty vector"
      | some c => aggLoop mnb f fnTol k h' (toPartition P :: ps) (c :: cv)
    else return (ps, cv)

/-- `Agglomerative_PSP::run` (agglomerative.cpp:81-89) for any `SF`: the lists of partitions and of
critical values. -/
def aggRunSF (mnb : SF → Outcome (List ℚ)) (f : SF) (fnTol : ℚ) :
    Outcome (List Partition × List ℚ) := do
  let h := HC.new f.size
  let P ← h.getCoarsestPartition
  aggLoop mnb f fnTol (f.size + 1) h [toPartition P] []

/-- `Agglomerative_PSP::run` (agglomerative.cpp:81-89). -/
def aggRun (mnb : SF → Outcome (List ℚ)) (g : Digraph) (fnTol : ℚ) :
    Outcome (List Partition × List ℚ) :=
  aggRunSF mnb (digraphEntropy g) fnTol

/-- `min_norm_base` as called by `agglomerate` (AIC.hpp:282). -/
def mnbOf (N : Numerics) (fnTol eps : ℚ) (fuel : ℕ) (f : SF) : Outcome (List ℚ) := do
  let r ← minNormBase N f fnTol eps fuel
  return r.1

end PSP.Model
