import Mathlib.Algebra.Field.Defs
import Mathlib.Algebra.Field.ZMod
import Mathlib.Data.Int.Cast.Defs
import Verif.Model.AIC

/-!
# Model of `IC/src/FLS.hpp`: entropy of finite linear sources
-/

namespace PSP.Model

variable {F : Type} [Field F] [DecidableEq F]

/-- The row `r` made zero in the first column by the row `p`. -/
def elimRow (p r : List F) : List F :=
  List.zipWith (fun a b => p.headD 0 * b - r.headD 0 * a) p r

/-- Number of pivots of an elimination in a matrix with the given number of columns; stands for `rank`
of PARI (FLS.hpp:45), which is not part of /repo. -/
def elimRank : ℕ → List (List F) → ℕ
  | 0, _ => 0
  | c + 1, rows =>
    match rows.find? fun r => r.headD 0 ≠ 0 with
    | none => elimRank c (rows.map List.tail)
    | some p => 1 + elimRank c (rows.map fun r => (elimRow p r).tail)

variable (F) in
/-- `grank(A, p, k)` (FLS.hpp:7-46): the rank over the field `F` with `p ^ k` elements of a matrix of
integers (`stoi` takes a long integer) with `cols` columns. -/
def grank (cols : ℕ) (A : List (List ℤ)) : ℕ :=
  elimRank cols (A.map fun r => r.map fun a : ℤ => (a : F))

variable (F) in
/-- `FiniteLinearEntropy` (FLS.hpp:48-98): the rows of the matrices of the elements of `B` are put below
each other (lines 80-91); the value is `k * log2(p)`, here `unit`, times the rank (line 70). All matrices
have `cols` columns; `operator()` on no matrices at all reads `LinearMappings[0]`, outside of the model. -/
def finiteLinear (unit : ℚ) (cols : ℕ) (M : List (List (List ℤ))) : SF where
  size := M.length
  val B := unit * grank F cols (B.flatMap fun b => M.getD b [])

end PSP.Model
