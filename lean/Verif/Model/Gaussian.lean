import Mathlib.Analysis.SpecialFunctions.Log.Base
import Mathlib.Analysis.Real.Pi.Bounds
import Mathlib.Data.Matrix.Mul
import Verif.Model.Basic

/-!
# Model of `IC/src/gaussian.hpp`: entropy of Gaussian vectors

Numbers are reals here, because of the logarithms. Rounding is not modelled.
-/

namespace PSP.Model

/-- `Eigen::MatrixXd`: numbers of rows and columns, and the entries (read only inside of the bounds). -/
structure EMat where
  rows : ℕ
  cols : ℕ
  e : ℕ → ℕ → ℝ

/-- A square matrix as a function of valid indices. -/
def EMat.square (S : EMat) : Matrix (Fin S.rows) (Fin S.rows) ℝ := fun i j => S.e i j

/-- `Eigen::LLT<Eigen::MatrixXd>`: nothing stands for `info() == Eigen::NumericalIssue`, otherwise `matrixL()`. -/
abbrev LLT := (k : ℕ) → Matrix (Fin k) (Fin k) ℝ → Option (Matrix (Fin k) (Fin k) ℝ)

/-- The loop over the diagonal (gaussian.hpp:44-46 with `log2`, 104-106 with `log`). -/
def addLogs (lg : ℝ → ℝ) {k : ℕ} (L : Matrix (Fin k) (Fin k) ℝ) (det : ℝ) : ℝ :=
  (List.finRange k).foldl (fun d i => d + lg (L i i)) det

/-- Constructor of `ScalarGaussianEntropy` (gaussian.hpp:83-87). -/
def scalarNew (S : EMat) : Outcome EMat :=
  if S.rows ≠ S.cols then .exc "S must be an SPD matrix." else .ok S

/-- `ScalarGaussianEntropy::h` (gaussian.hpp:93-108); the matrix is square when it is called by `operator()`. -/
noncomputable def scalarH (llt : LLT) {k : ℕ} (S : Matrix (Fin k) (Fin k) ℝ) : Outcome ℝ :=
  match llt k S with
  | none => .exc "S must be an SPD matrix."
  | some L => .ok (addLogs Real.log L (Real.log (2 * Real.pi * Real.exp 1) / 2 * k))

/-- `ScalarGaussianEntropy::operator()` (gaussian.hpp:115-124). An index outside of the matrix is an
assertion of Eigen, which is off in release builds. -/
noncomputable def scalarVal (llt : LLT) (Sigma : EMat) (B : List ℕ) : Outcome ℝ :=
  if ∀ b ∈ B, b < Sigma.rows ∧ b < Sigma.cols then
    scalarH llt (k := B.length) (Matrix.of fun i j => Sigma.e B[i] B[j])
  else .ub "index out of bounds"

/-- Constructor of `GaussianEntropy` (gaussian.hpp:19-27). -/
def gaussianNew (M : List EMat) : Outcome (List EMat) :=
  match M with
  | [] => .ok []
  | A :: _ =>
    if ∀ C ∈ M, C.cols = A.cols then .ok M
    else .exc "Linear mappings must have the same number of columns."

/-- The field `n` of `GaussianEntropy` (gaussian.hpp:22). -/
def gaussianCols (M : List EMat) : ℕ :=
  match M with
  | [] => 0
  | A :: _ => A.cols

/-- `GaussianEntropy::h` (gaussian.hpp:33-48). -/
noncomputable def gaussianH (llt : LLT) (A : EMat) : Outcome ℝ :=
  if A.rows = 0 ∨ A.cols = 0 then .ok 0
  else
    match llt A.rows (Matrix.of fun i j => ∑ c ∈ Finset.range A.cols, A.e i c * A.e j c) with
    | none => .exc "Rows must be linearly independent."
    | some L => .ok (addLogs (Real.logb 2) L (Real.logb 2 (2 * Real.pi * Real.exp 1) / 2 * A.rows))

/-- The loop that fills `row_idx` (gaussian.hpp:57-61): the numbers of rows before each block, and the total,
which is `row_idx[k]`. -/
def rowIdx (rows : List ℕ) : List ℕ × ℕ :=
  rows.foldl (fun s r => (s.1 ++ [s.2], s.2 + r)) ([], 0)

/-- The loop that copies the blocks (gaussian.hpp:62-65). The list of pairs gives the first row and the
matrix of each block. `row_idx[i+1] - row_idx[i]` rows are written. -/
def stackBlocks (n : ℕ) (total : ℕ) (blocks : List ((ℕ × ℕ) × EMat)) : EMat where
  rows := total
  cols := n
  e := blocks.foldl (fun f b => fun r c =>
    if b.1.1 ≤ r ∧ r < b.1.2 then b.2.e (r - b.1.1) c else f r c) fun _ _ => 0

/-- `GaussianEntropy::operator()` (gaussian.hpp:55-67). -/
noncomputable def gaussianVal (llt : LLT) (M : List EMat) (B : List ℕ) : Outcome ℝ :=
  if ∀ b ∈ B, b < M.length then
    let Ms := B.map fun b => M.getD b ⟨0, 0, fun _ _ => 0⟩
    let idx := rowIdx (Ms.map EMat.rows)
    let ends := idx.1.tail ++ [idx.2]
    gaussianH llt (stackBlocks (gaussianCols M) idx.2 ((idx.1.zip ends).zip Ms))
  else .ub "M[B[i]] out of bounds"

/-- `SF::mutual_info` (Core.hpp:69-76) for a function with real values. -/
noncomputable def mutualInfoR (h : List ℕ → Outcome ℝ) (B C : List ℕ) : Outcome ℝ :=
  h B >>= fun x => h C >>= fun y => h (B ++ C) >>= fun z => pure (x + y - z)

end PSP.Model
