import Mathlib.Analysis.SpecialFunctions.Log.Base
import Mathlib.Analysis.SpecialFunctions.Trigonometric.Basic
import Mathlib.LinearAlgebra.Matrix.Determinant.Basic
import Mathlib.LinearAlgebra.Matrix.PosDef

/-!
# Specification: differential entropy of Gaussian vectors
-/

namespace PSP.Spec

variable {V : Type} [DecidableEq V]

/-- Differential entropy (in nats) of the components in `S` of a Gaussian vector with covariance matrix `A`:
half the logarithm of the determinant of `2πe A_S`. -/
noncomputable def gaussEntropy (A : Matrix V V ℝ) (S : Finset V) : ℝ :=
  Real.log (((2 * Real.pi * Real.exp 1) • A.submatrix (fun v : S => v.1) fun v : S => v.1).det) / 2

/-- Covariance matrix of linear combinations of independent standard normal variables. -/
def gramMatrix {n : ℕ} (rows : V → Fin n → ℝ) : Matrix V V ℝ := fun x y => ∑ c, rows x c * rows y c

/-- An exact Cholesky decomposition that reads the lower triangle only, as `Eigen::LLT` does. -/
structure ExactLLT (llt : (k : ℕ) → Matrix (Fin k) (Fin k) ℝ → Option (Matrix (Fin k) (Fin k) ℝ)) : Prop where
  some : ∀ (k : ℕ) (S T : Matrix (Fin k) (Fin k) ℝ), T.PosDef → (∀ i j, j ≤ i → S i j = T i j) →
    ∃ L, llt k S = .some L ∧ (∀ i j, i < j → L i j = 0) ∧ (∀ i, 0 < L i i) ∧ L * L.transpose = T
  none : ∀ (k : ℕ) (S T : Matrix (Fin k) (Fin k) ℝ), T.IsSymm → ¬ T.PosDef →
    (∀ i j, j ≤ i → S i j = T i j) → llt k S = .none

end PSP.Spec
