import Verif.Model.AIC
import Mathlib.Analysis.Real.Sqrt

/-!
# Model: the incremental factor `L` of `min_norm_base` (`IC/src/AIC.hpp`)

`min_norm_base` keeps a lower triangular matrix `L` with `L Lᵀ = e eᵀ + Qᵀ Q` for the columns `Q` of the corral. Its
only effect is the exception of AIC.hpp:102-107, which `Model/AIC` leaves to a parameter. Here `L` is modelled; its
entries are real numbers, because the code takes square roots.
-/

namespace PSP.Model

/-- What the code does with `L`. `init c`: a single column, `c = 1 + x.dot(x)`. `append L k b c`: a column is added to
`k` others, `b = e + Qᵀ q` and `c = 1 + q.dot(q)`. `delete L del`: the columns marked in `del` are removed. -/
structure FactorOps (Λ : Type) where
  init : ℚ → Λ
  append : Λ → ℕ → List ℚ → ℚ → Outcome Λ
  delete : Λ → List Bool → Outcome Λ

/-- `minorCycles` (AIC.hpp:112-173) with the factor. `toDelete` (AIC.hpp:148-159) depends on the new weights. -/
def minorCyclesL {Λ : Type} (F : FactorOps Λ) (N : Numerics) (n : ℕ) (eps : ℚ) :
    ℕ → List (List ℚ) → List ℚ → Λ → Outcome (List (List ℚ) × List ℚ × List ℚ × Λ)
  | 0, _, _, _ => .fuel
  | k + 1, Q, w, L =>
    let raw := N.solve Q
    if Q ≠ [] ∧ raw.sum = 0 then .nan
    else
      let v := raw.map fun a => a / raw.sum
      let w_ := w.take Q.length
      let rest := w.drop Q.length
      if ¬ ∃ a ∈ v, a ≤ eps then .ok (Q, v ++ rest, combine n Q v, L)
      else
        let t := theta eps w_ v
        let w1 := List.zipWith (fun a b => (1 - t) * a + t * b) w_ v
        if n < Q.length ∧ ∃ a ∈ w1.dropLast, a ≤ eps then .ub "block outside of L"
        else
        let keep := (List.zip Q w1).filter fun p => ¬ p.2 ≤ eps
        let w2 := keep.map Prod.snd
        F.delete L (w1.map fun a => decide (a ≤ eps)) >>= fun L' =>
          minorCyclesL F N n eps k (keep.map Prod.fst) (w2 ++ w1.drop w2.length ++ rest) L'

/-- `majorCycles` (AIC.hpp:69-174) with the factor: the exception is thrown by `append` (AIC.hpp:89-109). The solver
and the sort are those of `N`; its parameter `throws` is not used. -/
def majorCyclesL {Λ : Type} (F : FactorOps Λ) (N : Numerics) (f : SF) (fnTol eps : ℚ) :
    ℕ → List (List ℚ) → List ℚ → List ℚ → Option ℚ → ℕ → Λ → Outcome (List ℚ × Bool)
  | 0, _, _, _, _, _, _ => .fuel
  | k + 1, Q, w, x, prev, stuck, L => do
    let q ← edmondsGreedy f x (N.sort x)
    let opt := |dot x q - dot x x|
    if opt < fnTol then return (x, true)
    let stuck' := if isStuck prev opt then stuck + 1 else 0
    if isStuck prev opt ∧ stuck' > 100 then return (x, false)
    if f.size < Q.length then .ub "column outside of Q"
    let L' ← F.append L Q.length (Q.map fun p => 1 + dot p q) (1 + dot q q)
    let (Q', w', x', L'') ← minorCyclesL F N f.size eps (Q.length + 2) (Q ++ [q]) w L'
    majorCyclesL F N f fnTol eps k Q' w' x' (some opt) stuck' L''

/-- `min_norm_base(f, fn_tol, eps)` (AIC.hpp:40-176) with the factor, cut off after `fuel` major cycles. -/
def minNormBaseL {Λ : Type} (F : FactorOps Λ) (N : Numerics) (f : SF) (fnTol eps : ℚ) (fuel : ℕ) :
    Outcome (List ℚ × Bool) :=
  if f.size < 1 then .ok ([], true)
  else if f.size = 1 then .ok ([f.val [0]], true)
  else do
    let ones := List.replicate f.size 1
    let x ← edmondsGreedy f ones (N.sort ones)
    majorCyclesL F N f fnTol eps fuel [x] (1 :: List.replicate f.size 0) x none 0 (F.init (1 + dot x x))

/-- `min_norm_base` with the factor, as called by `agglomerate` (AIC.hpp:282). -/
def mnbOfL {Λ : Type} (F : FactorOps Λ) (N : Numerics) (fnTol eps : ℚ) (fuel : ℕ) (f : SF) : Outcome (List ℚ) := do
  let r ← minNormBaseL F N f fnTol eps fuel
  return r.1

/-- The positions that are not marked. -/
def kept (del : List Bool) : List ℕ := (List.range del.length).filter fun i => !del.getD i false

/-! ### the matrix of the code -/

/-- `L_.solve(b)` for the lower triangle (AIC.hpp:94), forward substitution: the first `k` entries. -/
noncomputable def lowerSolve (L : ℕ → ℕ → ℝ) (b : List ℚ) : ℕ → List ℝ
  | 0 => []
  | k + 1 =>
    let r := lowerSolve L b k
    r ++ [((b.getD k 0 : ℚ) - ((List.range k).map fun t => L k t * r.getD t 0).sum) / L k k]

/-- `L.block(j + 1, j, numCorral - j, 2) *= T` (AIC.hpp:151-156): columns `j` and `j + 1` of the rows `j + 1` to
`numCorral = k`. -/
noncomputable def rotate (k j : ℕ) (L : ℕ → ℕ → ℝ) : ℕ → ℕ → ℝ :=
  let a := L (j + 1) j
  let b := L (j + 1) (j + 1)
  let c := √(a * a + b * b)
  fun r t =>
    if r ≤ j ∨ k < r then L r t
    else if t = j then L r j * (a / c) + L r (j + 1) * (b / c)
    else if t = j + 1 then L r j * (-b / c) + L r (j + 1) * (a / c)
    else L r t

open Classical in
/-- The loop over `j` for a marked column `i` (AIC.hpp:150-157): the steps `j`, …, `j + m - 1`. Where the code divides
by zero the model stops. -/
noncomputable def rotateFrom (k : ℕ) : ℕ → ℕ → (ℕ → ℕ → ℝ) → Outcome (ℕ → ℕ → ℝ)
  | 0, _, L => .ok L
  | m + 1, j, L =>
    if √(L (j + 1) j * L (j + 1) j + L (j + 1) (j + 1) * L (j + 1) (j + 1)) = 0 then .nan
    else rotateFrom k m (j + 1) (rotate k j L)

/-- The loop over the columns (AIC.hpp:148-159). -/
noncomputable def rotateAll (del : List Bool) : List ℕ → (ℕ → ℕ → ℝ) → Outcome (ℕ → ℕ → ℝ)
  | [], L => .ok L
  | i :: is, L =>
    if del.getD i false then
      rotateFrom del.length (del.length - 1 - i) i L >>= fun L' => rotateAll del is L'
    else rotateAll del is L

open Classical in
/-- The operations of the code on `L`. A zero on the diagonal makes `solve` divide by zero: the code goes on with
infinite or undefined entries, the model stops. Rows are moved up for the columns that stay (AIC.hpp:161-170). -/
noncomputable def codeFactor : FactorOps (ℕ → ℕ → ℝ) where
  init c := fun i j => if i = 0 ∧ j = 0 then √(c : ℝ) else 0
  append L k b c :=
    if ∃ i < k, L i i = 0 then .nan
    else
      let r := lowerSolve L b k
      let s := (c : ℝ) - (r.map fun a => a * a).sum
      if s < 0 then .exc "Try to set a higher functional tolerance."
      else .ok fun i j => if i = k then (if j < k then r.getD j 0 else if j = k then √s else L i j) else L i j
  delete L del := do
    let L' ← rotateAll del (List.range del.length) L
    return fun i => L' ((kept del).getD i i)

/-- The same numerical environment, without the exception. -/
def Numerics.quiet (N : Numerics) : Numerics := { N with throws := fun _ _ => false }

/-- A monitor in the place of `L`: stops as soon as a minor cycle marks two columns. -/
def singleFactor : FactorOps Unit where
  init _ := ()
  append _ _ _ _ := .ok ()
  delete _ del := if 2 ≤ del.count true then .exc "two columns" else .ok ()

end PSP.Model
