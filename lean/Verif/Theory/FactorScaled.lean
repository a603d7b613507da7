import Verif.Model.Factor
import Mathlib.Data.List.GetD

/-!
# `min_norm_base`: the factor with rational numbers

Column `j` of `L` is kept as a rational column times the square root of a rational number `d j`.
-/

namespace PSP.Theory

open PSP.Model

/-- An entry of a matrix. -/
def ent (U : List (List ℚ)) (i j : ℕ) : ℚ := (U.getD i []).getD j 0

/-- The square matrix with the given entries. -/
def mat (k : ℕ) (f : ℕ → ℕ → ℚ) : List (List ℚ) := (List.range k).map fun i => (List.range k).map (f i)

/-- The vector with the given entries. -/
def table (k : ℕ) (f : ℕ → ℚ) : List ℚ := (List.range k).map f

theorem getD_table {k i : ℕ} (f : ℕ → ℚ) (hi : i < k) : (table k f).getD i 0 = f i := by
  unfold table
  rw [List.getD_eq_getElem _ _ (by simpa using hi)]
  simp

theorem ent_mat {k i j : ℕ} (f : ℕ → ℕ → ℚ) (hi : i < k) (hj : j < k) : ent (mat k f) i j = f i j := by
  unfold ent mat
  rw [List.getD_eq_getElem (l := (List.range k).map _) _ (by simpa using hi)]
  simp only [List.getElem_map, List.getElem_range]
  rw [List.getD_eq_getElem _ _ (by simpa using hj)]
  simp

/-- The representation of `L`: the columns and the squares of their factors. -/
structure Scaled where
  u : List (List ℚ)
  d : List ℚ

/-- Factor of column `j`, squared. -/
def Scaled.dd (S : Scaled) (j : ℕ) : ℚ := S.d.getD j 0

/-- Entry of the rational part. -/
def Scaled.uu (S : Scaled) (i j : ℕ) : ℚ := ent S.u i j

/-- Forward substitution. -/
def solveS (S : Scaled) (b : List ℚ) : ℕ → List ℚ
  | 0 => []
  | k + 1 =>
    let r := solveS S b k
    r ++ [(b.getD k 0 - ((List.range k).map fun t => S.uu k t * S.dd t * r.getD t 0).sum) / (S.uu k k * S.dd k)]

/-- One rotation. -/
def rotateS (k j : ℕ) (S : Scaled) : Scaled :=
  let A := S.uu (j + 1) j
  let B := S.uu (j + 1) (j + 1)
  let x := S.dd j
  let y := S.dd (j + 1)
  let c := A * A * x + B * B * y
  ⟨mat k fun r t =>
      if r ≤ j then S.uu r t
      else if t = j then (S.uu r j * A * x + S.uu r (j + 1) * B * y) / c
      else if t = j + 1 then S.uu r (j + 1) * A - S.uu r j * B
      else S.uu r t,
    table k fun t => if t = j then c else if t = j + 1 then x * y / c else S.dd t⟩

/-- The rotations for one marked column. -/
def rotateFromS (k : ℕ) : ℕ → ℕ → Scaled → Outcome Scaled
  | 0, _, S => .ok S
  | m + 1, j, S =>
    if S.uu (j + 1) j * S.uu (j + 1) j * S.dd j + S.uu (j + 1) (j + 1) * S.uu (j + 1) (j + 1) * S.dd (j + 1) = 0 then .nan
    else rotateFromS k m (j + 1) (rotateS k j S)

/-- The rotations for all marked columns. -/
def rotateAllS (del : List Bool) : List ℕ → Scaled → Outcome Scaled
  | [], S => .ok S
  | i :: is, S =>
    if del.getD i false then
      rotateFromS del.length (del.length - 1 - i) i S >>= fun S' => rotateAllS del is S'
    else rotateAllS del is S

/-- The operations on the rational representation. -/
def scaledFactor : FactorOps Scaled where
  init c := ⟨[[1]], [c]⟩
  append S k b c :=
    if ∃ i ∈ List.range k, S.uu i i * S.dd i = 0 then .nan
    else
      let r := solveS S b k
      let s := c - ((List.range k).map fun t => S.dd t * r.getD t 0 * r.getD t 0).sum
      if s < 0 then .exc "Try to set a higher functional tolerance."
      else .ok ⟨mat (k + 1) fun i j => if i < k then S.uu i j else if j < k then r.getD j 0 else 1,
        table (k + 1) fun j => if j < k then S.dd j else s⟩
  delete S del := do
    let S' ← rotateAllS del (List.range del.length) S
    return ⟨(kept del).map fun i => S'.u.getD i [], S'.d⟩

end PSP.Theory
