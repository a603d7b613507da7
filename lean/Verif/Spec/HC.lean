import Mathlib.Logic.Relation
import Mathlib.Data.List.Basic
import Mathlib.Order.WithBot
import Mathlib.Data.Rat.Defs
import Mathlib.Algebra.Order.Field.Rat

/-!
# Specification: hierarchical clusterings built by merging points

Nothing in this file mentions the model of the code.
-/

namespace PSP.Spec

/-- A request to put points `i` and `j` together for all thresholds below `val`. -/
structure Link where
  i : ℕ
  j : ℕ
  val : ℚ
deriving DecidableEq, Repr

/-- `x` and `y` are connected by links whose value exceeds the threshold `gam` (`⊥` is `-∞`). -/
def Joined (A : List Link) (gam : WithBot ℚ) : ℕ → ℕ → Prop :=
  Relation.EqvGen fun x y => ∃ a ∈ A, a.i = x ∧ a.j = y ∧ gam < (a.val : WithBot ℚ)

/-- A request is accepted if its points are not yet connected and its value does not exceed the
value of an accepted request. -/
def Accepts (A : List Link) (c : Link) : Prop :=
  ¬ Joined A ⊥ c.i c.j ∧ ∀ a ∈ A, c.val ≤ a.val

open Classical in
/-- The accepted ones among a sequence of requests. -/
noncomputable def accepted (cs : List Link) : List Link :=
  cs.foldl (fun A c => if Accepts A c then A ++ [c] else A) []

/-- The lists in `L` are nonempty, list every point below `n` exactly once, and put two points
together exactly if `R` relates them. -/
structure IsClustering (n : ℕ) (R : ℕ → ℕ → Prop) (L : List (List ℕ)) : Prop where
  nonempty : ∀ B ∈ L, B ≠ []
  once : L.flatten.Nodup
  all : ∀ v, v ∈ L.flatten ↔ v < n
  together : ∀ u v, u < n → v < n → ((∃ B ∈ L, u ∈ B ∧ v ∈ B) ↔ R u v)

/-- All points of the requests are below `n`. -/
def InRange (n : ℕ) (cs : List Link) : Prop := ∀ c ∈ cs, c.i < n ∧ c.j < n

instance (n : ℕ) (cs : List Link) : Decidable (InRange n cs) := by unfold InRange; infer_instance

end PSP.Spec
