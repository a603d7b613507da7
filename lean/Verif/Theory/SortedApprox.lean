import Verif.Theory.ApproxSeq
import Mathlib.Data.List.Sort

/-!
# Chains of near optimal partitions whose values are sorted afterwards
-/

namespace PSP.Theory

open PSP.Spec PSP.Model

variable {E : List Arc} {V : Finset ℕ}

/-! ### sorting does not enlarge differences -/

theorem orderedInsert_le {x y : ℚ} (hxy : x ≤ y) : ∀ {s t : List ℚ}, s.Pairwise (· ≤ ·) → t.Pairwise (· ≤ ·) →
    List.Forall₂ (· ≤ ·) s t → List.Forall₂ (· ≤ ·) (s.orderedInsert (· ≤ ·) x) (t.orderedInsert (· ≤ ·) y) := by
  intro s t hs ht h
  induction h generalizing x y with
  | nil => exact .cons hxy .nil
  | @cons a b s t hab hst ih =>
    have hs' := List.pairwise_cons.1 hs
    have ht' := List.pairwise_cons.1 ht
    rw [List.orderedInsert_cons, List.orderedInsert_cons]
    by_cases h1 : x ≤ a
    · by_cases h2 : y ≤ b
      · rw [if_pos h1, if_pos h2]
        exact .cons hxy (.cons hab hst)
      · rw [if_pos h1, if_neg h2]
        refine .cons (h1.trans hab) ?_
        have hst' := ih (x := a) (y := y) (by linarith) hs'.2 ht'.2
        rwa [show s.orderedInsert (· ≤ ·) a = a :: s by
          cases s with
          | nil => rfl
          | cons c s => rw [List.orderedInsert_cons, if_pos (hs'.1 c (by simp))]] at hst'
    · by_cases h2 : y ≤ b
      · rw [if_neg h1, if_pos h2]
        refine .cons (by linarith) ?_
        have hst' := ih (x := x) (y := b) (by linarith) hs'.2 ht'.2
        rwa [show t.orderedInsert (· ≤ ·) b = b :: t by
          cases t with
          | nil => rfl
          | cons c t => rw [List.orderedInsert_cons, if_pos (ht'.1 c (by simp))]] at hst'
      · rw [if_neg h1, if_neg h2]
        exact .cons hab (ih hxy hs'.2 ht'.2)

theorem insertionSort_le {s t : List ℚ} (h : List.Forall₂ (· ≤ ·) s t) :
    List.Forall₂ (· ≤ ·) (s.insertionSort (· ≤ ·)) (t.insertionSort (· ≤ ·)) := by
  induction h with
  | nil => exact .nil
  | cons hab _ ih => exact orderedInsert_le hab (List.pairwise_insertionSort _ _) (List.pairwise_insertionSort _ _) ih

/-- A list within `σ` of a sorted list stays within `σ` of it when it is sorted. -/
theorem insertionSort_close {σ : ℚ} {s t : List ℚ} (h : List.Forall₂ (fun x y => |x - y| ≤ σ) s t)
    (ht : t.Pairwise (· ≤ ·)) : List.Forall₂ (fun x y => |x - y| ≤ σ) (s.insertionSort (· ≤ ·)) t := by
  have shift : ∀ d : ℚ, (t.map (· + d)).insertionSort (· ≤ ·) = t.map (· + d) := fun d =>
    (List.Pairwise.map (· + d) (fun a b (hab : a ≤ b) => by show a + d ≤ b + d; linarith) ht).insertionSort_eq
  have h1 : List.Forall₂ (· ≤ ·) s (t.map (· + σ)) := by
    rw [List.forall₂_map_right_iff]
    exact h.imp fun x y hxy => by have := (abs_le.1 hxy).2; linarith
  have h2 : List.Forall₂ (· ≤ ·) (t.map (· + -σ)) s := by
    rw [List.forall₂_map_left_iff]
    exact (List.forall₂_iff_get.2 ⟨h.length_eq.symm, fun i h1 h2 => by
      have := (abs_le.1 ((List.forall₂_iff_get.1 h).2 i h2 h1)).1
      linarith⟩)
  have h3 := insertionSort_le h1
  have h4 := insertionSort_le h2
  rw [shift, List.forall₂_map_right_iff] at h3
  rw [shift, List.forall₂_map_left_iff] at h4
  refine List.forall₂_iff_get.2 ⟨h3.length_eq, fun i a b => ?_⟩
  have h5 := (List.forall₂_iff_get.1 h3).2 i a b
  have h6 := (List.forall₂_iff_get.1 h4).2 i b a
  rw [abs_le]
  constructor <;> linarith

/-! ### near optimal partitions -/

theorem near_refines (hE : NonnegE E) {l1 l2 C1 C2 : ℚ} {P Q : Partition} (hP : IsNearOptimal E V C1 l1 P)
    (hQ : IsNearOptimal E V C2 l2 Q) (hlt : C1 + C2 < l2 - l1) : Refines Q P := by
  intro B hB
  have hBne := hQ.1.nonempty hB
  have hBV := hQ.1.subset hB
  have e1 := hP.2 _ (expand_isPartition' hP.1 hBne hBV)
  have e2 := hQ.2 _ (splitBlock_isPartition hQ.1 hP.1 hB)
  have c1 := card_expand (P := P) hBne
  have c2 := card_splitBlock hQ.1 hP.1 hB
  have hu := crossWeight_uncross (P := P) (Q := Q) hE hB
  have h0 : 0 ≤ C1 := by have := hP.2 P hP.1; linarith
  have h0' : 0 ≤ C2 := by have := hQ.2 Q hQ.1; linarith
  unfold cost at e1 e2
  have c1' : ((expand P B).card : ℚ) = P.card + 1 - (meeting P B).card := by
    have : ((expand P B).card : ℚ) + (meeting P B).card = P.card + 1 := by exact_mod_cast c1
    linarith
  have c2' : ((splitBlock Q P B).card : ℚ) = Q.card + (meeting P B).card - 1 := by
    have : ((splitBlock Q P B).card : ℚ) + 1 = Q.card + (meeting P B).card := by exact_mod_cast c2
    linarith
  rw [c1'] at e1
  rw [c2'] at e2
  have key : (l2 - l1) * ((meeting P B).card - 1 : ℚ) ≤ C1 + C2 := by nlinarith
  have hm : (meeting P B).card ≤ 1 := by
    by_contra hcon
    have h2 : (2 : ℚ) ≤ (meeting P B).card := by
      have : 2 ≤ (meeting P B).card := by omega
      exact_mod_cast this
    nlinarith
  obtain ⟨v, hv⟩ := hBne
  obtain ⟨A, hA, hvA⟩ := hP.1.exists_block (hBV hv)
  refine ⟨A, hA, fun w hw => ?_⟩
  obtain ⟨A', hA', hwA'⟩ := hP.1.exists_block (hBV hw)
  have m1 : A ∈ meeting P B := mem_meeting.2 ⟨hA, Finset.not_disjoint_iff.2 ⟨v, hvA, hv⟩⟩
  have m2 : A' ∈ meeting P B := mem_meeting.2 ⟨hA', Finset.not_disjoint_iff.2 ⟨w, hwA', hw⟩⟩
  rw [Finset.card_le_one.1 hm A m1 A' m2]
  exact hwA'

theorem near_mono {C C' l : ℚ} {P : Partition} (h : IsNearOptimal E V C l P) (hC : C ≤ C') :
    IsNearOptimal E V C' l P := ⟨h.1, fun R hR => (h.2 R hR).trans (by linarith)⟩

theorem cost_shift {l m : ℚ} (P R : Partition) :
    cost E m P - cost E m R = cost E l P - cost E l R - (m - l) * (P.card - R.card) := by
  unfold cost; ring

/-- A small change of the parameter. -/
theorem near_shift {C l m σ : ℚ} {P : Partition} (h : IsNearOptimal E V C l P) (hm : |m - l| ≤ σ) :
    IsNearOptimal E V (C + σ * V.card) m P := by
  refine ⟨h.1, fun R hR => ?_⟩
  have h1 := h.2 R hR
  have h2 := cost_shift (E := E) (l := l) (m := m) P R
  have hP : (P.card : ℚ) ≤ V.card := by exact_mod_cast h.1.card_le
  have hR' : (R.card : ℚ) ≤ V.card := by exact_mod_cast hR.card_le
  have hP0 : (0 : ℚ) ≤ P.card := Nat.cast_nonneg _
  have hR0 : (0 : ℚ) ≤ R.card := Nat.cast_nonneg _
  have h3 : |(m - l) * ((P.card : ℚ) - R.card)| ≤ σ * V.card := by
    rw [abs_mul]
    apply mul_le_mul hm _ (abs_nonneg _) ((abs_nonneg _).trans hm)
    rw [abs_le]
    constructor <;> linarith
  have h4 := (abs_le.1 h3).1
  linarith

/-- Near optimality at two parameters gives near optimality between them. -/
theorem near_between {C l m x : ℚ} {P : Partition} (hl : IsNearOptimal E V C l P)
    (hm : IsNearOptimal E V C m P) (h1 : l ≤ x) (h2 : x ≤ m) : IsNearOptimal E V C x P := by
  refine ⟨hl.1, fun R hR => ?_⟩
  rcases le_total (P.card : ℚ) R.card with h | h
  · have := hm.2 R hR
    have e := cost_shift (E := E) (l := m) (m := x) P R
    nlinarith
  · have := hl.2 R hR
    have e := cost_shift (E := E) (l := l) (m := x) P R
    nlinarith

theorem near_below {C l x : ℚ} (hV : V.Nonempty) (hl : IsNearOptimal E V C l {V}) (h : x ≤ l) :
    IsNearOptimal E V C x {V} := by
  refine ⟨hl.1, fun R hR => ?_⟩
  have := hl.2 R hR
  have e := cost_shift (E := E) (l := l) (m := x) {V} R
  have h1 : (1 : ℚ) ≤ R.card := by exact_mod_cast hR.card_pos hV
  rw [Finset.card_singleton] at e
  push_cast at e
  nlinarith

theorem near_above {C l x : ℚ} (hl : IsNearOptimal E V C l (singletons V)) (h : l ≤ x) :
    IsNearOptimal E V C x (singletons V) := by
  refine ⟨hl.1, fun R hR => ?_⟩
  have := hl.2 R hR
  have e := cost_shift (E := E) (l := l) (m := x) (singletons V) R
  have h1 : (R.card : ℚ) ≤ V.card := by exact_mod_cast hR.card_le
  rw [card_singletons] at e
  nlinarith

/-! ### chains -/

/-- Entries are a computed value, a parameter, and the next partition. The computed values are near the interval given
by the parameters; there both neighbours are nearly optimal. -/
def NChain (E : List Arc) (V : Finset ℕ) (C σ : ℚ) : ℚ → Partition → List (ℚ × ℚ × Partition) → Prop
  | _, _, [] => True
  | a, Q, (c, b, P) :: t => a ≤ b ∧ a - σ ≤ c ∧ c ≤ b + σ ∧ IsNearOptimal E V C c Q ∧ IsNearOptimal E V C c P ∧
      Finer Q P ∧ NChain E V C σ b P t

variable {C σ : ℚ}

theorem NChain.append {s t : List (ℚ × ℚ × Partition)} {c b : ℚ} {P : Partition} : ∀ {a : ℚ} {Q : Partition},
    NChain E V C σ a Q (s ++ [(c, b, P)]) → NChain E V C σ b P t → NChain E V C σ a Q (s ++ (c, b, P) :: t) := by
  induction s with
  | nil =>
    intro a Q h1 h2
    obtain ⟨k1, k2, k3, k4, k5, k6, _⟩ := h1
    exact ⟨k1, k2, k3, k4, k5, k6, h2⟩
  | cons x s ih =>
    intro a Q h1 h2
    obtain ⟨k1, k2, k3, k4, k5, k6, k7⟩ := h1
    exact ⟨k1, k2, k3, k4, k5, k6, ih k7 h2⟩

theorem NChain.partition {t : List (ℚ × ℚ × Partition)} : ∀ {a : ℚ} {Q : Partition}, IsPartition V Q →
    NChain E V C σ a Q t → ∀ P ∈ Q :: t.map (·.2.2), IsPartition V P := by
  induction t with
  | nil => intro a Q hQ _ P hP; simp at hP; rwa [hP]
  | cons x t ih =>
    intro a Q hQ h P hP
    obtain ⟨k1, k2, k3, k4, k5, k6, k7⟩ := h
    rcases List.mem_cons.1 hP with rfl | hP
    · exact hQ
    · exact ih k5.1 k7 P hP

theorem NChain.finer {t : List (ℚ × ℚ × Partition)} : ∀ {a : ℚ} {Q : Partition}, NChain E V C σ a Q t →
    (Q :: t.map (·.2.2)).IsChain Finer := by
  induction t with
  | nil => intro a Q _; simp
  | cons x t ih =>
    intro a Q h
    obtain ⟨k1, k2, k3, k4, k5, k6, k7⟩ := h
    rw [List.map_cons, List.isChain_cons_cons]
    exact ⟨k6, ih k7⟩

/-- The computed values, moved into their intervals. -/
def clamped : ℚ → List (ℚ × ℚ × Partition) → List ℚ
  | _, [] => []
  | a, (c, b, _) :: t => max a (min c b) :: clamped b t

theorem NChain.clamped_sorted {t : List (ℚ × ℚ × Partition)} : ∀ {a : ℚ} {Q : Partition}, NChain E V C σ a Q t →
    (clamped a t).Pairwise (· ≤ ·) ∧ ∀ x ∈ clamped a t, a ≤ x := by
  induction t with
  | nil => intro a Q _; simp [clamped]
  | cons y t ih =>
    intro a Q h
    obtain ⟨k1, k2, k3, k4, k5, k6, k7⟩ := h
    obtain ⟨h1, h2⟩ := ih k7
    constructor
    · rw [clamped, List.pairwise_cons]
      exact ⟨fun x hx => (max_le k1 (min_le_right _ _)).trans (h2 x hx), h1⟩
    · intro x hx
      rcases List.mem_cons.1 hx with rfl | hx
      · exact le_max_left _ _
      · exact k1.trans (h2 x hx)

theorem NChain.clamped_close {t : List (ℚ × ℚ × Partition)} (hσ : 0 ≤ σ) : ∀ {a : ℚ} {Q : Partition},
    NChain E V C σ a Q t → List.Forall₂ (fun x y => |x - y| ≤ σ) (t.map (·.1)) (clamped a t) := by
  induction t with
  | nil => intro a Q _; exact .nil
  | cons y t ih =>
    intro a Q h
    obtain ⟨k1, k2, k3, k4, k5, k6, k7⟩ := h
    refine .cons ?_ (ih k7)
    show |y.1 - max a (min y.1 y.2.1)| ≤ σ
    rw [abs_le]
    rcases le_total y.1 y.2.1 with h | h
    · rw [min_eq_left h]
      rcases le_total a y.1 with h' | h'
      · rw [max_eq_right h']; constructor <;> linarith
      · rw [max_eq_left h']; constructor <;> linarith
    · rw [min_eq_right h, max_eq_right k1]
      constructor <;> linarith

theorem NChain.near {t : List (ℚ × ℚ × Partition)} : ∀ {a : ℚ} {Q : Partition}, NChain E V C σ a Q t →
    ∀ (i : ℕ) (c : ℚ), (t.map (·.1))[i]? = some c →
      (∀ P, (Q :: t.map (·.2.2))[i]? = some P → IsNearOptimal E V C c P) ∧
      (∀ P, (Q :: t.map (·.2.2))[i + 1]? = some P → IsNearOptimal E V C c P) := by
  induction t with
  | nil => intro a Q _ i c hi; simp at hi
  | cons y t ih =>
    intro a Q h i c hi
    obtain ⟨k1, k2, k3, k4, k5, k6, k7⟩ := h
    cases i with
    | zero =>
      have hc : y.1 = c := by simpa using hi
      subst hc
      constructor
      · intro P hP
        have : Q = P := by simpa using hP
        subst this; exact k4
      · intro P hP
        have : y.2.2 = P := by simpa using hP
        subst this; exact k5
    | succ i =>
      obtain ⟨h1, h2⟩ := ih k7 i c (by simpa using hi)
      exact ⟨fun P hP => h1 P (by simpa using hP), fun P hP => h2 P (by simpa using hP)⟩

/-- From a chain to the specification. -/
theorem NChain.approx {t : List (ℚ × ℚ × Partition)} {a : ℚ} (hV : V.Nonempty) (hσ : 0 ≤ σ) (ht : t ≠ [])
    (h : NChain E V C σ a {V} t) (hlast : (t.map (·.2.2)).getLast? = some (singletons V)) :
    IsApproximateSequence E V (C + 2 * σ * V.card) ({V} :: t.map (·.2.2)) ((t.map (·.1)).insertionSort (· ≤ ·)) := by
  set cv := (t.map (·.1)).insertionSort (· ≤ ·) with hcv
  set Ps := ({V} : Partition) :: t.map (·.2.2) with hPs
  have hpart := h.partition (isPartition_single hV)
  have hlen : cv.length = t.length := by rw [hcv, List.length_insertionSort, List.length_map]
  have hclose := insertionSort_close (h.clamped_close hσ) h.clamped_sorted.1
  rw [← hcv] at hclose
  have hlc : (clamped a t).length = t.length := by rw [← hclose.length_eq, hlen]
  have hPl : Ps.length = t.length + 1 := by simp [hPs]
  have hinc : cv.Pairwise (· ≤ ·) := List.pairwise_insertionSort _ _
  -- both neighbours of a value
  have hnear : ∀ (i : ℕ) (c : ℚ), cv[i]? = some c →
      (∀ P, Ps[i]? = some P → IsNearOptimal E V (C + 2 * σ * V.card) c P) ∧
      (∀ P, Ps[i + 1]? = some P → IsNearOptimal E V (C + 2 * σ * V.card) c P) := by
    intro i c hi
    obtain ⟨hil, rfl⟩ := List.getElem?_eq_some_iff.1 hi
    have hit : i < t.length := by omega
    have e1 : (t.map (·.1))[i]? = some ((t.map (·.1))[i]'(by simpa using hit)) := List.getElem?_eq_getElem _
    have d1 := (List.forall₂_iff_get.1 (h.clamped_close hσ)).2 i (by simpa using hit) (by omega)
    have d2 := (List.forall₂_iff_get.1 hclose).2 i (by omega) (by omega)
    simp only [List.get_eq_getElem] at d1 d2
    have hd : |cv[i] - (t.map (·.1))[i]'(by simpa using hit)| ≤ 2 * σ := by
      have d1 := abs_le.1 d1
      have d2 := abs_le.1 d2
      rw [abs_le]
      constructor <;> linarith
    obtain ⟨n1, n2⟩ := h.near i _ e1
    exact ⟨fun P hP => near_shift (n1 P hP) hd, fun P hP => near_shift (n2 P hP) hd⟩
  refine ⟨by omega, rfl, ?_, finer_pairwise hpart h.finer, hinc, ?_⟩
  · rw [hPs, List.getLast?_cons, hlast]; rfl
  · intro i P lam hi h1 h2
    have hiP := (List.getElem?_eq_some_iff.1 hi).1
    have ht' : 0 < t.length := List.length_pos_of_ne_nil ht
    rcases Nat.eq_zero_or_pos i with rfl | hpos
    · have hP : P = {V} := by rw [hPs] at hi; simpa using hi.symm
      have hc0 : cv[0]? = some (cv[0]'(by omega)) := List.getElem?_eq_getElem _
      have := (hnear 0 _ hc0).1 P hi
      rw [hP] at this ⊢
      exact near_below hV this (h2 0 _ hc0 le_rfl)
    · have hcl : cv[i - 1]? = some (cv[i - 1]'(by omega)) := List.getElem?_eq_getElem _
      have hl := (hnear (i - 1) _ hcl).2 P (by rw [Nat.sub_add_cancel hpos]; exact hi)
      have hle := h1 (i - 1) _ hcl (by omega)
      rcases Nat.lt_or_ge i t.length with hit | hit
      · have hcr : cv[i]? = some (cv[i]'(by omega)) := List.getElem?_eq_getElem _
        exact near_between hl ((hnear i _ hcr).1 P hi) hle (h2 i _ hcr le_rfl)
      · have hit : i = t.length := by omega
        have hP : P = singletons V := by
          rw [List.getLast?_eq_getElem?, List.length_map] at hlast
          rw [hPs, hit, show t.length = t.length - 1 + 1 by omega, List.getElem?_cons_succ, hlast] at hi
          simpa using hi.symm
        rw [hP] at hl ⊢
        exact near_above hl hle

end PSP.Theory
