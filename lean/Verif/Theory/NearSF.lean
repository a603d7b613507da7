import Verif.Spec.ApproxSF
import Verif.Theory.SortedApprox
import Verif.Theory.SFSeq

/-!
# Chains of near optimal partitions of a set function

The same facts as in `Theory/SortedApprox.lean`, for set functions.
-/

namespace PSP.Theory

open PSP.Spec PSP.Model

variable {φ : Finset ℕ → ℚ} {V : Finset ℕ}

theorem near_monoSF {C C' l : ℚ} {P : Partition} (h : IsNearOptimalSF φ V C l P) (hC : C ≤ C') :
    IsNearOptimalSF φ V C' l P := ⟨h.1, fun R hR => (h.2 R hR).trans (by linarith)⟩

theorem cost_shiftSF {l m : ℚ} (P R : Partition) :
    costSF φ m P - costSF φ m R = costSF φ l P - costSF φ l R - (m - l) * (P.card - R.card) := by
  rw [costSF_eq, costSF_eq, costSF_eq, costSF_eq]; ring

/-- A small change of the parameter. -/
theorem near_shiftSF {C l m σ : ℚ} {P : Partition} (h : IsNearOptimalSF φ V C l P) (hm : |m - l| ≤ σ) :
    IsNearOptimalSF φ V (C + σ * V.card) m P := by
  refine ⟨h.1, fun R hR => ?_⟩
  have h1 := h.2 R hR
  have h2 := cost_shiftSF (φ := φ) (l := l) (m := m) P R
  have hP : (P.card : ℚ) ≤ V.card := by exact_mod_cast h.1.card_le
  have hR' : (R.card : ℚ) ≤ V.card := by exact_mod_cast hR.card_le
  have hP0 : (0 : ℚ) ≤ P.card := Nat.cast_nonneg _
  have hR0 : (0 : ℚ) ≤ R.card := Nat.cast_nonneg _
  have h3 : |(m - l) * ((P.card : ℚ) - R.card)| ≤ σ * V.card := by
    rw [abs_mul]
    apply mul_le_mul hm _ (abs_nonneg _) ((abs_nonneg _).trans hm)
    rw [abs_le]
    constructor <;> linarith
  have h4 := (abs_le.1 h3).1
  linarith

/-- Near optimality at two parameters gives near optimality between them. -/
theorem near_betweenSF {C l m x : ℚ} {P : Partition} (hl : IsNearOptimalSF φ V C l P)
    (hm : IsNearOptimalSF φ V C m P) (h1 : l ≤ x) (h2 : x ≤ m) : IsNearOptimalSF φ V C x P := by
  refine ⟨hl.1, fun R hR => ?_⟩
  rcases le_total (P.card : ℚ) R.card with h | h
  · have := hm.2 R hR
    have e := cost_shiftSF (φ := φ) (l := m) (m := x) P R
    nlinarith
  · have := hl.2 R hR
    have e := cost_shiftSF (φ := φ) (l := l) (m := x) P R
    nlinarith

theorem near_belowSF {C l x : ℚ} (hV : V.Nonempty) (hl : IsNearOptimalSF φ V C l {V}) (h : x ≤ l) :
    IsNearOptimalSF φ V C x {V} := by
  refine ⟨hl.1, fun R hR => ?_⟩
  have := hl.2 R hR
  have e := cost_shiftSF (φ := φ) (l := l) (m := x) {V} R
  have h1 : (1 : ℚ) ≤ R.card := by exact_mod_cast hR.card_pos hV
  rw [Finset.card_singleton] at e
  push_cast at e
  nlinarith

theorem near_aboveSF {C l x : ℚ} (hl : IsNearOptimalSF φ V C l (singletons V)) (h : l ≤ x) :
    IsNearOptimalSF φ V C x (singletons V) := by
  refine ⟨hl.1, fun R hR => ?_⟩
  have := hl.2 R hR
  have e := cost_shiftSF (φ := φ) (l := l) (m := x) (singletons V) R
  have h1 : (R.card : ℚ) ≤ V.card := by exact_mod_cast hR.card_le
  rw [card_singletons] at e
  nlinarith

/-! ### chains -/

/-- Entries are a computed value, a parameter, and the next partition. The computed values are near the interval given
by the parameters; there both neighbours are nearly optimal. -/
def NChainSF (φ : Finset ℕ → ℚ) (V : Finset ℕ) (C σ : ℚ) : ℚ → Partition → List (ℚ × ℚ × Partition) → Prop
  | _, _, [] => True
  | a, Q, (c, b, P) :: t => a ≤ b ∧ a - σ ≤ c ∧ c ≤ b + σ ∧ IsNearOptimalSF φ V C c Q ∧ IsNearOptimalSF φ V C c P ∧
      Finer Q P ∧ NChainSF φ V C σ b P t

variable {C σ : ℚ}

theorem NChainSF.append {s t : List (ℚ × ℚ × Partition)} {c b : ℚ} {P : Partition} : ∀ {a : ℚ} {Q : Partition},
    NChainSF φ V C σ a Q (s ++ [(c, b, P)]) → NChainSF φ V C σ b P t → NChainSF φ V C σ a Q (s ++ (c, b, P) :: t) := by
  induction s with
  | nil =>
    intro a Q h1 h2
    obtain ⟨k1, k2, k3, k4, k5, k6, _⟩ := h1
    exact ⟨k1, k2, k3, k4, k5, k6, h2⟩
  | cons x s ih =>
    intro a Q h1 h2
    obtain ⟨k1, k2, k3, k4, k5, k6, k7⟩ := h1
    exact ⟨k1, k2, k3, k4, k5, k6, ih k7 h2⟩

theorem NChainSF.partition {t : List (ℚ × ℚ × Partition)} : ∀ {a : ℚ} {Q : Partition}, IsPartition V Q →
    NChainSF φ V C σ a Q t → ∀ P ∈ Q :: t.map (·.2.2), IsPartition V P := by
  induction t with
  | nil => intro a Q hQ _ P hP; simp at hP; rwa [hP]
  | cons x t ih =>
    intro a Q hQ h P hP
    obtain ⟨k1, k2, k3, k4, k5, k6, k7⟩ := h
    rcases List.mem_cons.1 hP with rfl | hP
    · exact hQ
    · exact ih k5.1 k7 P hP

theorem NChainSF.finer {t : List (ℚ × ℚ × Partition)} : ∀ {a : ℚ} {Q : Partition}, NChainSF φ V C σ a Q t →
    (Q :: t.map (·.2.2)).IsChain Finer := by
  induction t with
  | nil => intro a Q _; simp
  | cons x t ih =>
    intro a Q h
    obtain ⟨k1, k2, k3, k4, k5, k6, k7⟩ := h
    rw [List.map_cons, List.isChain_cons_cons]
    exact ⟨k6, ih k7⟩

theorem NChainSF.clamped_sorted {t : List (ℚ × ℚ × Partition)} : ∀ {a : ℚ} {Q : Partition}, NChainSF φ V C σ a Q t →
    (clamped a t).Pairwise (· ≤ ·) ∧ ∀ x ∈ clamped a t, a ≤ x := by
  induction t with
  | nil => intro a Q _; simp [clamped]
  | cons y t ih =>
    intro a Q h
    obtain ⟨k1, k2, k3, k4, k5, k6, k7⟩ := h
    obtain ⟨h1, h2⟩ := ih k7
    constructor
    · rw [clamped, List.pairwise_cons]
      exact ⟨fun x hx => (max_le k1 (min_le_right _ _)).trans (h2 x hx), h1⟩
    · intro x hx
      rcases List.mem_cons.1 hx with rfl | hx
      · exact le_max_left _ _
      · exact k1.trans (h2 x hx)

theorem NChainSF.clamped_close {t : List (ℚ × ℚ × Partition)} (hσ : 0 ≤ σ) : ∀ {a : ℚ} {Q : Partition},
    NChainSF φ V C σ a Q t → List.Forall₂ (fun x y => |x - y| ≤ σ) (t.map (·.1)) (clamped a t) := by
  induction t with
  | nil => intro a Q _; exact .nil
  | cons y t ih =>
    intro a Q h
    obtain ⟨k1, k2, k3, k4, k5, k6, k7⟩ := h
    refine .cons ?_ (ih k7)
    show |y.1 - max a (min y.1 y.2.1)| ≤ σ
    rw [abs_le]
    rcases le_total y.1 y.2.1 with h | h
    · rw [min_eq_left h]
      rcases le_total a y.1 with h' | h'
      · rw [max_eq_right h']; constructor <;> linarith
      · rw [max_eq_left h']; constructor <;> linarith
    · rw [min_eq_right h, max_eq_right k1]
      constructor <;> linarith

theorem NChainSF.near {t : List (ℚ × ℚ × Partition)} : ∀ {a : ℚ} {Q : Partition}, NChainSF φ V C σ a Q t →
    ∀ (i : ℕ) (c : ℚ), (t.map (·.1))[i]? = some c →
      (∀ P, (Q :: t.map (·.2.2))[i]? = some P → IsNearOptimalSF φ V C c P) ∧
      (∀ P, (Q :: t.map (·.2.2))[i + 1]? = some P → IsNearOptimalSF φ V C c P) := by
  induction t with
  | nil => intro a Q _ i c hi; simp at hi
  | cons y t ih =>
    intro a Q h i c hi
    obtain ⟨k1, k2, k3, k4, k5, k6, k7⟩ := h
    cases i with
    | zero =>
      have hc : y.1 = c := by simpa using hi
      subst hc
      constructor
      · intro P hP
        have : Q = P := by simpa using hP
        subst this; exact k4
      · intro P hP
        have : y.2.2 = P := by simpa using hP
        subst this; exact k5
    | succ i =>
      obtain ⟨h1, h2⟩ := ih k7 i c (by simpa using hi)
      exact ⟨fun P hP => h1 P (by simpa using hP), fun P hP => h2 P (by simpa using hP)⟩

/-- From a chain to the specification. -/
theorem NChainSF.approx {t : List (ℚ × ℚ × Partition)} {a : ℚ} (hV : V.Nonempty) (hσ : 0 ≤ σ) (ht : t ≠ [])
    (h : NChainSF φ V C σ a {V} t) (hlast : (t.map (·.2.2)).getLast? = some (singletons V)) :
    IsApproximateSequenceSF φ V (C + 2 * σ * V.card) ({V} :: t.map (·.2.2)) ((t.map (·.1)).insertionSort (· ≤ ·)) := by
  set cv := (t.map (·.1)).insertionSort (· ≤ ·) with hcv
  set Ps := ({V} : Partition) :: t.map (·.2.2) with hPs
  have hpart := h.partition (isPartition_single hV)
  have hlen : cv.length = t.length := by rw [hcv, List.length_insertionSort, List.length_map]
  have hclose := insertionSort_close (h.clamped_close hσ) h.clamped_sorted.1
  rw [← hcv] at hclose
  have hlc : (clamped a t).length = t.length := by rw [← hclose.length_eq, hlen]
  have hPl : Ps.length = t.length + 1 := by simp [hPs]
  have hinc : cv.Pairwise (· ≤ ·) := List.pairwise_insertionSort _ _
  -- both neighbours of a value
  have hnear : ∀ (i : ℕ) (c : ℚ), cv[i]? = some c →
      (∀ P, Ps[i]? = some P → IsNearOptimalSF φ V (C + 2 * σ * V.card) c P) ∧
      (∀ P, Ps[i + 1]? = some P → IsNearOptimalSF φ V (C + 2 * σ * V.card) c P) := by
    intro i c hi
    obtain ⟨hil, rfl⟩ := List.getElem?_eq_some_iff.1 hi
    have hit : i < t.length := by omega
    have e1 : (t.map (·.1))[i]? = some ((t.map (·.1))[i]'(by simpa using hit)) := List.getElem?_eq_getElem _
    have d1 := (List.forall₂_iff_get.1 (h.clamped_close hσ)).2 i (by simpa using hit) (by omega)
    have d2 := (List.forall₂_iff_get.1 hclose).2 i (by omega) (by omega)
    simp only [List.get_eq_getElem] at d1 d2
    have hd : |cv[i] - (t.map (·.1))[i]'(by simpa using hit)| ≤ 2 * σ := by
      have d1 := abs_le.1 d1
      have d2 := abs_le.1 d2
      rw [abs_le]
      constructor <;> linarith
    obtain ⟨n1, n2⟩ := h.near i _ e1
    exact ⟨fun P hP => near_shiftSF (n1 P hP) hd, fun P hP => near_shiftSF (n2 P hP) hd⟩
  refine ⟨by omega, rfl, ?_, finer_pairwise hpart h.finer, hinc, ?_⟩
  · rw [hPs, List.getLast?_cons, hlast]; rfl
  · intro i P lam hi h1 h2
    have hiP := (List.getElem?_eq_some_iff.1 hi).1
    have ht' : 0 < t.length := List.length_pos_of_ne_nil ht
    rcases Nat.eq_zero_or_pos i with rfl | hpos
    · have hP : P = {V} := by rw [hPs] at hi; simpa using hi.symm
      have hc0 : cv[0]? = some (cv[0]'(by omega)) := List.getElem?_eq_getElem _
      have := (hnear 0 _ hc0).1 P hi
      rw [hP] at this ⊢
      exact near_belowSF hV this (h2 0 _ hc0 le_rfl)
    · have hcl : cv[i - 1]? = some (cv[i - 1]'(by omega)) := List.getElem?_eq_getElem _
      have hl := (hnear (i - 1) _ hcl).2 P (by rw [Nat.sub_add_cancel hpos]; exact hi)
      have hle := h1 (i - 1) _ hcl (by omega)
      rcases Nat.lt_or_ge i t.length with hit | hit
      · have hcr : cv[i]? = some (cv[i]'(by omega)) := List.getElem?_eq_getElem _
        exact near_betweenSF hl ((hnear i _ hcr).1 P hi) hle (h2 i _ hcr le_rfl)
      · have hit : i = t.length := by omega
        have hP : P = singletons V := by
          rw [List.getLast?_eq_getElem?, List.length_map] at hlast
          rw [hPs, hit, show t.length = t.length - 1 + 1 by omega, List.getElem?_cons_succ, hlast] at hi
          simpa using hi.symm
        rw [hP] at hl ⊢
        exact near_aboveSF hl hle

end PSP.Theory
