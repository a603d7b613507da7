import Verif.Model.AIC
import Verif.Model.Rounded

/-!
# Model: `min_norm_base` in floating-point arithmetic (`IC/src/AIC.hpp`)

As `Model/AIC`, with a rounding `fl` after every operation on numbers. The products of vectors and matrices are
computed by Eigen in an unspecified order; they are parameters, like the solver. Infinite and undefined numbers are not
modelled: a division by zero ends the run with `nan`.
-/

namespace PSP.Model

open PSP.Spec (Arc)

/-- What the environment supplies: the sort, the solution of the linear system (AIC.hpp:118), whether the factor `L`
makes the code throw (AIC.hpp:102-107), `x.dot(y)`, and `Q * w` for `n` rows. -/
structure NumericsF where
  sort : List ℚ → List ℕ
  solve : List (List ℚ) → List ℚ
  throws : ℕ → List (List ℚ) → Bool
  dot : List ℚ → List ℚ → ℚ
  comb : ℕ → List (List ℚ) → List ℚ → List ℚ

/-- `greedyLoop` (AIC.hpp:23-28): `x[i] = -F`, later `x[i] += F`. -/
def greedyLoopF (fl : ℚ → ℚ) (f : List ℕ → ℚ) : List ℕ → List ℕ → ℚ → (ℕ → ℚ) → (ℕ → ℚ)
  | [], _, _, x => x
  | i :: is, B, F, x =>
    let B' := B ++ [i]
    let F' := f B'
    greedyLoopF fl f is B' F' (Function.update x i (fl (-F + F')))

/-- `edmonds_greedy` (AIC.hpp:13-30). -/
def edmondsGreedyF (fl : ℚ → ℚ) (f : SF) (w : List ℚ) (idx : List ℕ) : Outcome (List ℚ) :=
  if f.size ≠ w.length then .exc "w must have the same size as the ground set of f."
  else .ok ((List.range f.size).map (greedyLoopF fl f.val idx [] (f.val []) fun _ => 0))

/-- The step length of the minor cycle (AIC.hpp:139-144). -/
def thetaF (fl : ℚ → ℚ) (eps : ℚ) (w v : List ℚ) : ℚ :=
  (List.zip w v).foldl (fun t p => if fl (p.1 - p.2) ≥ eps then min t (fl (p.1 / fl (p.1 - p.2))) else t) 1

/-- The minor cycles (AIC.hpp:112-173), as in `minorCycles`. -/
def minorCyclesF (fl : ℚ → ℚ) (N : NumericsF) (n : ℕ) (eps : ℚ) :
    ℕ → List (List ℚ) → List ℚ → Outcome (List (List ℚ) × List ℚ × List ℚ)
  | 0, _, _ => .fuel
  | k + 1, Q, w =>
    let raw := N.solve Q
    let s := N.dot (List.replicate Q.length 1) raw
    if Q ≠ [] ∧ s = 0 then .nan
    else
      let v := raw.map fun a => fl (a / s)
      let w_ := w.take Q.length
      let rest := w.drop Q.length
      if ¬ ∃ a ∈ v, a ≤ eps then .ok (Q, v ++ rest, N.comb n Q v)
      else
        let t := thetaF fl eps w_ v
        let w1 := List.zipWith (fun a b => fl (fl (fl (1 - t) * a) + fl (t * b))) w_ v
        if n < Q.length ∧ ∃ a ∈ w1.dropLast, a ≤ eps then .ub "block outside of L"
        else
        let keep := (List.zip Q w1).filter fun p => ¬ p.2 ≤ eps
        let w2 := keep.map Prod.snd
        minorCyclesF fl N n eps k (keep.map Prod.fst) (w2 ++ w1.drop w2.length ++ rest)

/-- The major cycles (AIC.hpp:69-174), as in `majorCycles`. -/
def majorCyclesF (fl : ℚ → ℚ) (N : NumericsF) (f : SF) (fnTol eps : ℚ) :
    ℕ → List (List ℚ) → List ℚ → List ℚ → Option ℚ → ℕ → Outcome (List ℚ × Bool)
  | 0, _, _, _, _, _ => .fuel
  | k + 1, Q, w, x, prev, stuck => do
    let q ← edmondsGreedyF fl f x (N.sort x)
    let opt := |fl (N.dot x q - N.dot x x)|
    if opt < fnTol then return (x, true)
    let stuck' := if isStuck prev opt then stuck + 1 else 0
    if isStuck prev opt ∧ stuck' > 100 then return (x, false)
    if f.size < Q.length then .ub "column outside of Q"
    if N.throws k (Q ++ [q]) then .exc "Try to set a higher functional tolerance."
    let (Q', w', x') ← minorCyclesF fl N f.size eps (Q.length + 2) (Q ++ [q]) w
    majorCyclesF fl N f fnTol eps k Q' w' x' (some opt) stuck'

/-- `min_norm_base(f, fn_tol, eps)` (AIC.hpp:40-176); `f.val` are the values that `f` returns. -/
def minNormBaseF (fl : ℚ → ℚ) (N : NumericsF) (f : SF) (fnTol eps : ℚ) (fuel : ℕ) : Outcome (List ℚ × Bool) :=
  if f.size < 1 then .ok ([], true)
  else if f.size = 1 then .ok ([f.val [0]], true)
  else do
    let ones := List.replicate f.size 1
    let x ← edmondsGreedyF fl f ones (N.sort ones)
    majorCyclesF fl N f fnTol eps fuel [x] (1 :: List.replicate f.size 0) x none 0

/-- `Numerics` without rounding. -/
def Numerics.exactF (N : Numerics) : NumericsF := ⟨N.sort, N.solve, N.throws, dot, combine⟩

/-- Products computed from left to right, with rounding. -/
def Numerics.seqF (fl : ℚ → ℚ) (N : Numerics) : NumericsF where
  sort := N.sort
  solve := N.solve
  throws := N.throws
  dot x y := flSum fl 0 (List.zipWith (fun a b => fl (a * b)) x y)
  comb n Q w := (List.range n).map fun i => flSum fl 0 (List.zipWith (fun q c => fl (q.getD i 0 * c)) Q w)

/-- The weights of the arcs in the order in which `DigraphEntropy::operator()` adds them (agglomerative.cpp:46-59);
`ai` and `ao` are the orders of `InArcIt` and `OutArcIt`. -/
def entropyTerms (ai ao : List Arc → List Arc) (g : Digraph) (B : List ℕ) : List ℚ :=
  B.flatMap fun b =>
    ((ai g.arcs).filter fun a => a.dst = b ∧ ¬ (a.src < b ∧ a.src ∈ B)).map (·.cap) ++
    ((ao g.arcs).filter fun a => a.src = b).map (·.cap)

/-- `DigraphEntropy` (agglomerative.cpp:31-63) with rounding. -/
def digraphEntropyF (fl : ℚ → ℚ) (ai ao : List Arc → List Arc) (g : Digraph) : SF where
  size := g.countNodes
  val B := flSum fl 0 (entropyTerms ai ao g B)

/-- `AIC::SF_` (AIC.hpp:219-256) with rounding. -/
def sfContractF (fl : ℚ → ℚ) (f : SF) (P : List (List ℕ)) : SF where
  size := P.length
  val B := fl (f.val (B.flatMap fun i => P.getD i []) - flSum fl 0 (B.map fun i => f.val (P.getD i [])))

/-- `min_norm_base` as called by `agglomerate` (AIC.hpp:282). -/
def mnbOfF (fl : ℚ → ℚ) (N : NumericsF) (fnTol eps : ℚ) (fuel : ℕ) (f : SF) : Outcome (List ℚ) := do
  let r ← minNormBaseF fl N f fnTol eps fuel
  return r.1

/-- The pairs for which `merge` is called (AIC.hpp:287-293) with rounding. -/
def aicMergesF (fl : ℚ → ℚ) (P : List (List ℕ)) (xs : List (List ℚ)) (fnTol g : ℚ) : List PSP.Spec.Link :=
  (List.range P.length).flatMap fun j => (List.range j).filterMap fun i =>
    if (xs.getD (j - 1) []).getD i 0 ≤ fl (-g + fnTol) then
      some ⟨(P.getD j []).headD 0, (P.getD i []).headD 0, g⟩ else none

/-- `AIC::agglomerate(fn_tol, eps)` (AIC.hpp:271-296) with rounding; `f.val` are the values that `f` returns. -/
def agglomerateF (fl : ℚ → ℚ) (mnb : SF → Outcome (List ℚ)) (f : SF) (fnTol : ℚ) (h : HC) : Outcome (HC × Bool) := do
  let P ← h.getPartition ⊥
  if P.length ≤ 1 then return (h, false)
  let xs ← aicPoints mnb (sfContractF fl f P) ((List.range P.length).drop 1)
  match aicGamma xs with
  | none => return (h, true)
  | some g =>
    let h' ← h.mergeAll (aicMergesF fl P xs fnTol g)
    return (h', true)

/-- The loop of `Agglomerative_PSP::run` (agglomerative.cpp:85-88) with rounding. -/
def aggLoopF (fl : ℚ → ℚ) (mnb : SF → Outcome (List ℚ)) (f : SF) (fnTol : ℚ) :
    ℕ → HC → List Partition → List ℚ → Outcome (List Partition × List ℚ)
  | 0, _, _, _ => .fuel
  | k + 1, h, ps, cv => do
    let (h', more) ← agglomerateF fl mnb f fnTol h
    if more then
      let P ← h'.getCoarsestPartition
      match h'.getCriticalValues.getLast? with
      | none => .ub "back() of an empty vector"
      | some c => aggLoopF fl mnb f fnTol k h' (toPartition P :: ps) (c :: cv)
    else return (ps, cv)

/-- `Agglomerative_PSP::run` (agglomerative.cpp:81-89) with rounding. -/
def aggRunF (fl : ℚ → ℚ) (ai ao : List Arc → List Arc) (mnb : SF → Outcome (List ℚ)) (g : Digraph) (fnTol : ℚ) :
    Outcome (List Partition × List ℚ) := do
  let h := HC.new g.countNodes
  let P ← h.getCoarsestPartition
  aggLoopF fl mnb (digraphEntropyF fl ai ao g) fnTol (g.countNodes + 1) h [toPartition P] []

end PSP.Model
