import Mathlib.Data.Finset.Basic
import Mathlib.Data.Finset.Card
import Mathlib.Data.Finset.Image
import Mathlib.Data.Rat.Defs
import Mathlib.Algebra.Order.Field.Rat

/-!
# Specification: the principal sequence of partitions of a weighted graph

Nothing in this file mentions the model of the code.  The notions are those of
`/repo/docs/source/index.rst` and `/repo/README.md`.
-/

namespace PSP.Spec

/-- A weighted edge between node `src` and node `dst`.  The specification never looks at the
direction. -/
structure Arc where
  src : ℕ
  dst : ℕ
  cap : ℚ
deriving DecidableEq, Repr

/-- `P` is a partition of the finite set `V`. -/
def IsPartition (V : Finset ℕ) (P : Finset (Finset ℕ)) : Prop :=
  (∀ B ∈ P, B.Nonempty ∧ B ⊆ V) ∧ ∀ v ∈ V, ∃! B, B ∈ P ∧ v ∈ B

/-- `u` and `v` lie in a common block of `P`. -/
def Same (P : Finset (Finset ℕ)) (u v : ℕ) : Prop := ∃ B ∈ P, u ∈ B ∧ v ∈ B

instance (P : Finset (Finset ℕ)) (u v : ℕ) : Decidable (Same P u v) := by
  unfold Same; infer_instance

/-- Total weight of the edges whose end points lie in different blocks. -/
def crossWeight (E : List Arc) (P : Finset (Finset ℕ)) : ℚ :=
  (E.map fun e => if Same P e.src e.dst then 0 else e.cap).sum

/-- The cost `h_λ(P) = f(P) - λ |P|` of a partition at parameter `lam`. -/
def cost (E : List Arc) (lam : ℚ) (P : Finset (Finset ℕ)) : ℚ :=
  crossWeight E P - lam * P.card

/-- `P` is a cheapest partition of `V` at parameter `lam`. -/
def IsOptimal (E : List Arc) (V : Finset ℕ) (lam : ℚ) (P : Finset (Finset ℕ)) : Prop :=
  IsPartition V P ∧ ∀ R, IsPartition V R → cost E lam P ≤ cost E lam R

/-- Every block of `P` is contained in a block of `Q`. -/
def Refines (P Q : Finset (Finset ℕ)) : Prop := ∀ B ∈ P, ∃ C ∈ Q, B ⊆ C

/-- The partition of `V` into singletons. -/
def singletons (V : Finset ℕ) : Finset (Finset ℕ) := V.image fun v => {v}

/-- `Ps` and `cv` are the principal sequence of partitions of the weighted graph `(V, E)` and its
critical values: the partitions go from the one-block partition to the singletons, each strictly
finer than the one before, the critical values strictly increase, and the `i`-th partition is
optimal exactly between the critical values number `i-1` and `i`, being the *only* optimal
partition strictly between them. -/
structure IsPrincipalSequence (E : List Arc) (V : Finset ℕ)
    (Ps : List (Finset (Finset ℕ))) (cv : List ℚ) : Prop where
  length : Ps.length = cv.length + 1
  first : Ps.head? = some {V}
  last : Ps.getLast? = some (singletons V)
  refine : Ps.Pairwise fun P Q => Refines Q P ∧ Q ≠ P
  increasing : cv.Pairwise (· < ·)
  optimal : ∀ (i : ℕ) (P : Finset (Finset ℕ)) (lam : ℚ), Ps[i]? = some P →
    (∀ j c, cv[j]? = some c → j < i → c ≤ lam) →
    (∀ j c, cv[j]? = some c → i ≤ j → lam ≤ c) →
    IsOptimal E V lam P
  unique : ∀ (i : ℕ) (P : Finset (Finset ℕ)) (lam : ℚ), Ps[i]? = some P →
    (∀ j c, cv[j]? = some c → j < i → c < lam) →
    (∀ j c, cv[j]? = some c → i ≤ j → lam < c) →
    ∀ R, IsOptimal E V lam R → R = P

/-- Like `IsPrincipalSequence` but critical values may repeat (non-strictly increasing) and nothing
is said about uniqueness. -/
structure IsWeakPrincipalSequence (E : List Arc) (V : Finset ℕ)
    (Ps : List (Finset (Finset ℕ))) (cv : List ℚ) : Prop where
  length : Ps.length = cv.length + 1
  first : Ps.head? = some {V}
  last : Ps.getLast? = some (singletons V)
  refine : Ps.Pairwise fun P Q => Refines Q P ∧ Q ≠ P
  nondecreasing : cv.Pairwise (· ≤ ·)
  optimal : ∀ (i : ℕ) (P : Finset (Finset ℕ)) (lam : ℚ), Ps[i]? = some P →
    (∀ j c, cv[j]? = some c → j < i → c ≤ lam) →
    (∀ j c, cv[j]? = some c → i ≤ j → lam ≤ c) →
    IsOptimal E V lam P

/-- Remove repeated critical values: of several equal neighbouring critical values only one is kept,
and the partitions between them are dropped. -/
def dropTies : List (Finset (Finset ℕ)) → List ℚ → List (Finset (Finset ℕ)) × List ℚ
  | P :: Q :: Ps, a :: b :: cv =>
    if a = b then dropTies (P :: Ps) (b :: cv)
    else (P :: (dropTies (Q :: Ps) (b :: cv)).1, a :: (dropTies (Q :: Ps) (b :: cv)).2)
  | Ps, cv => (Ps, cv)

/-- A parameter is critical if two different partitions are optimal at it. -/
def IsCritical (E : List Arc) (V : Finset ℕ) (lam : ℚ) : Prop :=
  ∃ P Q, IsOptimal E V lam P ∧ IsOptimal E V lam Q ∧ P ≠ Q

/-- At every parameter, each optimal partition refines all of them or is refined by all of them: no two parts of the graph
break at the same critical value independently of each other. -/
def NoBetween (E : List Arc) (V : Finset ℕ) : Prop := ∀ lam P, IsOptimal E V lam P →
  (∀ R, IsOptimal E V lam R → Refines P R) ∨ ∀ R, IsOptimal E V lam R → Refines R P

/-- The inputs the algorithms are made for: nodes `0..n-1`, every edge is given once, from its lower
to its higher end point, with a nonnegative weight. -/
structure ValidInput (n : ℕ) (E : List Arc) : Prop where
  lowHigh : ∀ e ∈ E, e.src < e.dst ∧ e.dst < n
  simple : E.Pairwise fun a b => ¬ (a.src = b.src ∧ a.dst = b.dst)
  nonneg : ∀ e ∈ E, 0 ≤ e.cap

instance (n : ℕ) (E : List Arc) : Decidable (ValidInput n E) :=
  decidable_of_iff ((∀ e ∈ E, e.src < e.dst ∧ e.dst < n) ∧
    (E.Pairwise fun a b => ¬ (a.src = b.src ∧ a.dst = b.dst)) ∧ ∀ e ∈ E, 0 ≤ e.cap)
    ⟨fun h => ⟨h.1, h.2.1, h.2.2⟩, fun h => ⟨h.lowHigh, h.simple, h.nonneg⟩⟩

/-- The tolerance `eps` is positive and below the resolution of the weights: the weights are integer
multiples of some `u > 0` and `eps * (n-1) < u`. For integer weights (`u = 1`) and the tolerance
`1e-10` of LEMON this holds for all `n ≤ 10^10`. -/
def FineTolerance (eps : ℚ) (n : ℕ) (E : List Arc) : Prop :=
  ∃ u : ℚ, 0 < u ∧ (∀ e ∈ E, ∃ k : ℤ, e.cap = k * u) ∧ 0 < eps ∧ eps * ((n : ℚ) - 1) < u

end PSP.Spec
