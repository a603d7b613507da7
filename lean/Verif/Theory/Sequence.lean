import Mathlib.Tactic.Linarith
import Mathlib.Tactic.Ring
import Mathlib.Data.List.Sort
import Verif.Theory.Cost

/-!
# Chains of partitions in which neighbours are both optimal at a common parameter

Every algorithm of the library is shown to produce such a chain; this file derives the principal
sequence from it and shows that principal sequences are unique.
-/

namespace PSP.Spec

variable {E : List Arc} {V : Finset ℕ} {P Q R : Finset (Finset ℕ)}

/-! ### optimality at several parameters -/

theorem IsOptimal.between {a b lam : ℚ} (ha : IsOptimal E V a P) (hb : IsOptimal E V b P)
    (h1 : a ≤ lam) (h2 : lam ≤ b) : IsOptimal E V lam P := by
  refine ⟨ha.1, fun R hR => ?_⟩
  have hA := ha.2 R hR
  have hB := hb.2 R hR
  unfold cost at *
  rcases le_total ((P.card : ℚ)) R.card with h | h
  · nlinarith [mul_le_mul_of_nonneg_right h2 (sub_nonneg.2 h)]
  · nlinarith [mul_le_mul_of_nonneg_right h1 (sub_nonneg.2 h)]

theorem IsOptimal.single_of_le {c lam : ℚ} (hV : V.Nonempty) (h : IsOptimal E V c {V})
    (hle : lam ≤ c) : IsOptimal E V lam {V} := by
  refine ⟨h.1, fun R hR => ?_⟩
  have hA := h.2 R hR
  have hc : (1 : ℚ) ≤ R.card := by exact_mod_cast hR.card_pos hV
  unfold cost at *
  simp only [Finset.card_singleton, Nat.cast_one, mul_one] at *
  nlinarith

theorem IsOptimal.singletons_of_ge {c lam : ℚ} (h : IsOptimal E V c (singletons V))
    (hle : c ≤ lam) : IsOptimal E V lam (singletons V) := by
  refine ⟨h.1, fun R hR => ?_⟩
  have hA := h.2 R hR
  have hc : (R.card : ℚ) ≤ V.card := by exact_mod_cast hR.card_le
  unfold cost at *
  rw [card_singletons] at *
  nlinarith

/-- With nonnegative weights the one-block partition is optimal for `λ ≤ 0`. -/
theorem isOptimal_single (hE : NonnegE E) (hW : Within E V) (hV : V.Nonempty) {lam : ℚ}
    (h : lam ≤ 0) : IsOptimal E V lam {V} := by
  refine ⟨isPartition_single hV, fun R hR => ?_⟩
  have h1 := crossWeight_nonneg hE R
  have hc : (1 : ℚ) ≤ R.card := by exact_mod_cast hR.card_pos hV
  unfold cost
  rw [crossWeight_single hW]
  simp only [Finset.card_singleton, Nat.cast_one, mul_one]
  nlinarith

/-- The singletons are optimal as soon as `λ` is at least the total weight. -/
theorem isOptimal_singletons (hE : NonnegE E) {lam : ℚ}
    (h : crossWeight E (singletons V) ≤ lam) : IsOptimal E V lam (singletons V) := by
  refine ⟨isPartition_singletons V, fun R hR => ?_⟩
  have h1 := crossWeight_nonneg hE R
  have h0 := crossWeight_nonneg hE (singletons V)
  by_cases hc : R.card = V.card
  · rw [hR.eq_singletons_of_card hc]
  · have hlt : R.card < V.card := lt_of_le_of_ne hR.card_le hc
    have hc : (R.card : ℚ) + 1 ≤ V.card := by exact_mod_cast hlt
    unfold cost
    rw [card_singletons]
    nlinarith

/-- Two optimal partitions at the same parameter: the difference of weights is `λ` times the
difference of sizes. -/
theorem IsOptimal.cost_eq {lam : ℚ} (hP : IsOptimal E V lam P) (hQ : IsOptimal E V lam Q) :
    cost E lam P = cost E lam Q := le_antisymm (hP.2 Q hQ.1) (hQ.2 P hP.1)

theorem IsOptimal.of_cost_le {lam : ℚ} (hP : IsOptimal E V lam P) (hQ : IsPartition V Q)
    (h : cost E lam Q ≤ cost E lam P) : IsOptimal E V lam Q :=
  ⟨hQ, fun R hR => h.trans (hP.2 R hR)⟩

/-! ### linked chains -/

/-- `A` followed by the partitions of the list; neighbours are both optimal at the parameter
written between them and each partition is strictly finer than the one before. -/
def Linked (E : List Arc) (V : Finset ℕ) :
    Finset (Finset ℕ) → List (ℚ × Finset (Finset ℕ)) → Prop
  | _, [] => True
  | A, (c, B) :: t => IsOptimal E V c A ∧ IsOptimal E V c B ∧ (Refines B A ∧ B ≠ A) ∧ Linked E V B t

/-- Last partition of a chain. -/
def lastOf : Finset (Finset ℕ) → List (ℚ × Finset (Finset ℕ)) → Finset (Finset ℕ)
  | A, [] => A
  | _, (_, B) :: t => lastOf B t

variable {A B : Finset (Finset ℕ)} {s t : List (ℚ × Finset (Finset ℕ))}

theorem Linked.append (hs : Linked E V A s) (ht : Linked E V (lastOf A s) t) :
    Linked E V A (s ++ t) := by
  induction s generalizing A with
  | nil => exact ht
  | cons cb s ih =>
    obtain ⟨c, B⟩ := cb
    exact ⟨hs.1, hs.2.1, hs.2.2.1, ih hs.2.2.2 ht⟩

theorem lastOf_append (A : Finset (Finset ℕ)) (s t : List (ℚ × Finset (Finset ℕ))) :
    lastOf A (s ++ t) = lastOf (lastOf A s) t := by
  induction s generalizing A with
  | nil => rfl
  | cons cb s ih => exact ih _

theorem getLast?_linked (A : Finset (Finset ℕ)) (t : List (ℚ × Finset (Finset ℕ))) :
    (A :: t.map Prod.snd).getLast? = some (lastOf A t) := by
  induction t generalizing A with
  | nil => rfl
  | cons cb t ih =>
    rw [List.map_cons, List.getLast?_cons_cons, ih]; rfl

theorem Linked.isOptimal (h : Linked E V A t) : ∀ c B, (c, B) ∈ t → IsOptimal E V c B := by
  induction t generalizing A with
  | nil => simp
  | cons cb t ih =>
    intro c' B' hm
    obtain ⟨c, B⟩ := cb
    rcases List.mem_cons.1 hm with h' | h'
    · cases h'; exact h.2.1
    · exact ih h.2.2.2 c' B' h'

theorem Linked.card_lt (hA : IsPartition V A) (h : Linked E V A t) :
    ∀ B ∈ t.map Prod.snd, A.card < B.card := by
  induction t generalizing A with
  | nil => simp
  | cons cb t ih =>
    obtain ⟨c, B⟩ := cb
    have h1 := h.2.2.1.1.card_lt h.2.1.1 hA h.2.2.1.2
    intro B' hm
    rcases List.mem_cons.1 hm with h' | h'
    · rw [h']; exact h1
    · exact h1.trans (ih h.2.1.1 h.2.2.2 B' h')

theorem Linked.card_increasing (hA : IsPartition V A) (h : Linked E V A t) :
    (A :: t.map Prod.snd).Pairwise fun P Q => P.card < Q.card := by
  induction t generalizing A with
  | nil => simp
  | cons cb t ih =>
    rw [List.pairwise_cons]
    exact ⟨h.card_lt hA, ih h.2.1.1 h.2.2.2⟩

theorem Linked.nondecreasing (hE : NonnegE E) (h : Linked E V A t) :
    (t.map Prod.fst).Pairwise (· ≤ ·) := by
  induction t generalizing A with
  | nil => simp
  | cons cb t ih =>
    obtain ⟨c, B⟩ := cb
    rw [List.map_cons, List.pairwise_cons]
    refine ⟨?_, ih h.2.2.2⟩
    intro c' hc'
    rw [List.mem_map] at hc'
    obtain ⟨⟨c1, B1⟩, hm, rfl⟩ := hc'
    by_contra hlt
    have h1 := (h.2.2.2.isOptimal c1 B1 hm).card_le hE h.1 (not_le.1 hlt)
    have h2 := h.2.2.2.card_lt h.2.1.1 B1 (List.mem_map.2 ⟨_, hm, rfl⟩)
    have h3 := h.2.2.1.1.card_lt h.2.1.1 h.1.1 h.2.2.1.2
    omega

theorem Linked.refine (h : Linked E V A t) (hA : IsPartition V A) :
    (A :: t.map Prod.snd).Pairwise fun P Q => Refines Q P ∧ Q ≠ P := by
  induction t generalizing A with
  | nil => simp
  | cons cb t ih =>
    obtain ⟨c, B⟩ := cb
    have hrec := ih h.2.2.2 h.2.1.1
    have hlt := h.card_lt hA
    rw [List.map_cons, List.pairwise_cons]
    refine ⟨?_, hrec⟩
    intro D hD
    have hne : D ≠ A := fun he => by
      have := hlt D hD; rw [he] at this; omega
    rcases List.mem_cons.1 hD with rfl | hD
    · exact ⟨h.2.2.1.1, hne⟩
    · exact ⟨((List.pairwise_cons.1 hrec).1 D hD).1.trans h.2.2.1.1, hne⟩

/-- A partition of the chain is optimal between the parameter before it and the parameter after
it. -/
theorem Linked.optimal_at (h : Linked E V A t) {lam : ℚ}
    (hlast : lastOf A t = singletons V) (hA : (∃ b, b ≤ lam ∧ IsOptimal E V b A)) :
    ∀ (i : ℕ) (P : Finset (Finset ℕ)), (A :: t.map Prod.snd)[i]? = some P →
    (∀ j c, (t.map Prod.fst)[j]? = some c → j < i → c ≤ lam) →
    (∀ j c, (t.map Prod.fst)[j]? = some c → i ≤ j → lam ≤ c) →
    IsOptimal E V lam P := by
  induction t generalizing A with
  | nil =>
    intro i P hi _ _
    obtain ⟨b, hb, hbA⟩ := hA
    cases i with
    | zero =>
      simp only [List.map_nil, List.getElem?_cons_zero, Option.some.injEq] at hi
      subst hi
      have : A = singletons V := hlast
      subst this
      exact hbA.singletons_of_ge hb
    | succ i => simp at hi
  | cons cb t ih =>
    obtain ⟨c, B⟩ := cb
    intro i P hi h1 h2
    cases i with
    | zero =>
      simp only [List.getElem?_cons_zero, Option.some.injEq] at hi
      subst hi
      obtain ⟨b, hb, hbA⟩ := hA
      exact hbA.between h.1 hb (h2 0 c (by simp) (Nat.zero_le _))
    | succ i =>
      have hc : c ≤ lam := h1 0 c (by simp) (Nat.succ_pos _)
      apply ih h.2.2.2 hlast ⟨c, hc, h.2.1⟩ i P (by simpa using hi)
      · intro j c' hj hji
        exact h1 (j+1) c' (by simpa using hj) (by omega)
      · intro j c' hj hji
        exact h2 (j+1) c' (by simpa using hj) (by omega)

theorem Linked.unique_at (hE : NonnegE E) (h : Linked E V A t) {lam : ℚ}
    (hAp : IsPartition V A)
    (hlast : lastOf A t = singletons V)
    (hA : ∀ R, IsOptimal E V lam R → Refines R A) :
    ∀ (i : ℕ) (P : Finset (Finset ℕ)), (A :: t.map Prod.snd)[i]? = some P →
    (∀ j c, (t.map Prod.fst)[j]? = some c → j < i → c < lam) →
    (∀ j c, (t.map Prod.fst)[j]? = some c → i ≤ j → lam < c) →
    ∀ R, IsOptimal E V lam R → R = P := by
  induction t generalizing A with
  | nil =>
    intro i P hi _ _ R hR
    cases i with
    | zero =>
      simp only [List.map_nil, List.getElem?_cons_zero, Option.some.injEq] at hi
      subst hi
      have h' : A = singletons V := hlast
      subst h'
      exact Refines.antisymm hR.1 hAp (hA R hR) (singletons_refines hR.1)
    | succ i => simp at hi
  | cons cb t ih =>
    obtain ⟨c, B⟩ := cb
    intro i P hi h1 h2 R hR
    cases i with
    | zero =>
      simp only [List.getElem?_cons_zero, Option.some.injEq] at hi
      subst hi
      have hc := h2 0 c (by simp) (Nat.zero_le _)
      exact Refines.antisymm hR.1 hAp (hA R hR) (hR.refines hE h.1 hc)
    | succ i =>
      have hc : c < lam := h1 0 c (by simp) (Nat.succ_pos _)
      apply ih h.2.2.2 h.2.1.1 hlast (fun R hR => h.2.1.refines hE hR hc) i P (by simpa using hi)
      · intro j c' hj hji
        exact h1 (j+1) c' (by simpa using hj) (by omega)
      · intro j c' hj hji
        exact h2 (j+1) c' (by simpa using hj) (by omega)
      · exact hR

/-- A chain from the one-block partition to the singletons is a weak principal sequence. -/
theorem Linked.weak (hE : NonnegE E) (hW : Within E V) (hV : V.Nonempty)
    (h : Linked E V {V} t) (hlast : lastOf {V} t = singletons V) :
    IsWeakPrincipalSequence E V ({V} :: t.map Prod.snd) (t.map Prod.fst) where
  length := by simp
  first := rfl
  last := by rw [getLast?_linked, hlast]
  refine := h.refine (isPartition_single hV)
  nondecreasing := h.nondecreasing hE
  optimal i P lam hi h1 h2 := by
    apply h.optimal_at hlast ⟨min 0 lam, min_le_right _ _,
      isOptimal_single hE hW hV (min_le_left _ _)⟩ i P hi h1 h2

/-- If moreover the parameters are strictly increasing it is the principal sequence. -/
theorem Linked.strict (hE : NonnegE E) (hW : Within E V) (hV : V.Nonempty)
    (h : Linked E V {V} t) (hlast : lastOf {V} t = singletons V)
    (hinc : (t.map Prod.fst).Pairwise (· < ·)) :
    IsPrincipalSequence E V ({V} :: t.map Prod.snd) (t.map Prod.fst) where
  length := by simp
  first := rfl
  last := by rw [getLast?_linked, hlast]
  refine := h.refine (isPartition_single hV)
  increasing := hinc
  optimal := (h.weak hE hW hV hlast).optimal
  unique i P lam hi h1 h2 := h.unique_at hE (isPartition_single hV) hlast
    (fun R hR => refines_single hR.1) i P hi h1 h2

end PSP.Spec
