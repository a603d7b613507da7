import Verif.Spec.PSP
import Mathlib.Algebra.BigOperators.Group.Finset.Basic
import Mathlib.Data.Finset.Lattice.Fold

/-!
# Specification: submodular functions, base polytopes, principal sequences of set functions

Nothing in this file mentions the model of the code.
-/

namespace PSP.Spec

/-- `f` is submodular on all pairs of subsets of `V` that intersect. -/
def Intersecting (V : Finset ℕ) (f : Finset ℕ → ℚ) : Prop :=
  ∀ S T, S ⊆ V → T ⊆ V → (S ∩ T).Nonempty → f (S ∪ T) + f (S ∩ T) ≤ f S + f T

/-- `f` is submodular on the subsets of `V`. -/
def Submodular (V : Finset ℕ) (f : Finset ℕ → ℚ) : Prop :=
  ∀ S T, S ⊆ V → T ⊆ V → f (S ∪ T) + f (S ∩ T) ≤ f S + f T

/-- `f` is monotone on the subsets of `V`. -/
def MonotoneOn (V : Finset ℕ) (f : Finset ℕ → ℚ) : Prop := ∀ S T, S ⊆ T → T ⊆ V → f S ≤ f T

/-- `x` lies in the base polytope of `f - f(∅)`. -/
def InBase (V : Finset ℕ) (f : Finset ℕ → ℚ) (x : ℕ → ℚ) : Prop :=
  ∑ i ∈ V, x i = f V - f ∅ ∧ ∀ S, S ⊆ V → ∑ i ∈ S, x i ≤ f S - f ∅

/-- Inner product over `V`. -/
def inner (V : Finset ℕ) (x y : ℕ → ℚ) : ℚ := ∑ i ∈ V, x i * y i

/-- `x` is the point of least norm of the base polytope, by the variational inequality. -/
def IsMinNorm (V : Finset ℕ) (f : Finset ℕ → ℚ) (x : ℕ → ℚ) : Prop :=
  InBase V f x ∧ ∀ y, InBase V f y → inner V x x ≤ inner V x y

/-- `g` is the gap of `x`: by how much the inner product of `x` with a base can be smaller than with `x`. -/
def IsGap (V : Finset ℕ) (f : Finset ℕ → ℚ) (x : ℕ → ℚ) (g : ℚ) : Prop :=
  (∃ q, InBase V f q ∧ g = inner V x x - inner V x q) ∧
    ∀ y, InBase V f y → inner V x x - inner V x y ≤ g

/-- Cost of a partition under a set function: `∑ (h(C) - λ)`. -/
def costSF (h : Finset ℕ → ℚ) (lam : ℚ) (P : Finset (Finset ℕ)) : ℚ := ∑ C ∈ P, (h C - lam)

/-- `P` is a cheapest partition of `V`. -/
def IsOptimalSF (h : Finset ℕ → ℚ) (V : Finset ℕ) (lam : ℚ) (P : Finset (Finset ℕ)) : Prop :=
  IsPartition V P ∧ ∀ R, IsPartition V R → costSF h lam P ≤ costSF h lam R

/-- `Ps` and `cv` are the principal sequence of partitions of the set function `h` and its critical
values (same shape as `IsPrincipalSequence`). -/
structure IsPrincipalSequenceSF (h : Finset ℕ → ℚ) (V : Finset ℕ)
    (Ps : List (Finset (Finset ℕ))) (cv : List ℚ) : Prop where
  length : Ps.length = cv.length + 1
  first : Ps.head? = some {V}
  last : Ps.getLast? = some (singletons V)
  refine : Ps.Pairwise fun P Q => Refines Q P ∧ Q ≠ P
  increasing : cv.Pairwise (· < ·)
  optimal : ∀ (i : ℕ) (P : Finset (Finset ℕ)) (lam : ℚ), Ps[i]? = some P →
    (∀ j c, cv[j]? = some c → j < i → c ≤ lam) →
    (∀ j c, cv[j]? = some c → i ≤ j → lam ≤ c) →
    IsOptimalSF h V lam P
  unique : ∀ (i : ℕ) (P : Finset (Finset ℕ)) (lam : ℚ), Ps[i]? = some P →
    (∀ j c, cv[j]? = some c → j < i → c < lam) →
    (∀ j c, cv[j]? = some c → i ≤ j → lam < c) →
    ∀ R, IsOptimalSF h V lam R → R = P

/-- Total weight of the edges that touch `B`. -/
def incident (E : List Arc) (B : Finset ℕ) : ℚ :=
  (E.map fun e => if e.src ∈ B ∨ e.dst ∈ B then e.cap else 0).sum

/-- Sum over the columns (hyperedges) of the largest entry in the rows (nodes) `B`; 0 for no rows. -/
def weightMax (M : List (List ℚ)) (cols : ℕ) (B : Finset ℕ) : ℚ :=
  if hB : B.Nonempty then
    ∑ c ∈ Finset.range cols, B.sup' hB fun r => (M.getD r []).getD c 0
  else 0

/-- From the parameter `g` on, and not before, no partition coarser than `P` is cheaper than `P`: the critical value at
which blocks of `P` are merged. -/
def IsMergeValue (E : List Arc) (V : Finset ℕ) (P : Finset (Finset ℕ)) (g : ℚ) : Prop :=
  ∀ lam, g ≤ lam ↔ ∀ R, IsPartition V R → Refines P R → cost E lam P ≤ cost E lam R

end PSP.Spec
