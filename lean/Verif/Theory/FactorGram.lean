import Verif.Theory.FactorReal
import Verif.Theory.Wolfe
import Mathlib.Algebra.BigOperators.Ring.Finset
import Mathlib.Tactic.LinearCombination
import Mathlib.Tactic.FieldSimp

/-!
# `min_norm_base`: the factor `L` while columns are deleted one at a time
-/

namespace PSP.Theory

open PSP.Model

/-- The lower triangle. -/
def lo (S : Scaled) (i t : ℕ) : ℚ := if t ≤ i then S.uu i t else 0

/-- `L Lᵀ = e eᵀ + Qᵀ Q` (AIC.hpp:65), with an invertible `L`. -/
structure Gram (Q : List (List ℚ)) (S : Scaled) : Prop where
  pos : ∀ t < Q.length, 0 < S.dd t
  diag : ∀ i < Q.length, S.uu i i ≠ 0
  gram : ∀ i < Q.length, ∀ j < Q.length, ∑ t ∈ Finset.range Q.length, lo S i t * lo S j t * S.dd t =
    1 + dot (Q.getD i []) (Q.getD j [])

theorem sum_range_list {α : Type} [AddCommMonoid α] (g : ℕ → α) (k : ℕ) :
    ((List.range k).map g).sum = ∑ t ∈ Finset.range k, g t := by
  induction k with
  | zero => simp
  | succ k ih => rw [List.range_succ, List.map_append, List.sum_append, ih, Finset.sum_range_succ]; simp

/-! ### adding a column -/

theorem back_subst (l : ℕ → ℕ → ℚ) : ∀ (k : ℕ), (∀ i t, i < t → l i t = 0) → (∀ i < k, l i i ≠ 0) →
    ∀ ρ : ℕ → ℚ, ∃ y : ℕ → ℚ, ∀ t < k, ∑ i ∈ Finset.range k, y i * l i t = ρ t := by
  intro k
  induction k with
  | zero => intro _ _ ρ; exact ⟨fun _ => 0, by simp⟩
  | succ k ih =>
    intro hlow hd ρ
    obtain ⟨y, hy⟩ := ih hlow (fun i hi => hd i (by omega)) fun t => ρ t - ρ k / l k k * l k t
    refine ⟨fun i => if i = k then ρ k / l k k else y i, ?_⟩
    have hsum : ∀ t, ∑ i ∈ Finset.range k, (if i = k then ρ k / l k k else y i) * l i t =
        ∑ i ∈ Finset.range k, y i * l i t := fun t =>
      Finset.sum_congr rfl fun i hi => by rw [if_neg (by have := Finset.mem_range.1 hi; omega)]
    intro t ht
    rw [Finset.sum_range_succ, hsum]
    simp only [if_true]
    rcases Nat.lt_succ_iff_lt_or_eq.1 ht with h | rfl
    · rw [hy t h]; ring
    · rw [Finset.sum_eq_zero, zero_add]
      · have := hd t (by omega)
        field_simp
      · intro i hi
        rw [hlow i t (Finset.mem_range.1 hi), mul_zero]

theorem quad_form (l : ℕ → ℕ → ℚ) (d y : ℕ → ℚ) (k : ℕ) :
    ∑ i ∈ Finset.range k, ∑ j ∈ Finset.range k, y i * y j * ∑ t ∈ Finset.range k, l i t * l j t * d t =
      ∑ t ∈ Finset.range k, d t * (∑ i ∈ Finset.range k, y i * l i t) * ∑ i ∈ Finset.range k, y i * l i t := by
  have : ∀ t, d t * (∑ i ∈ Finset.range k, y i * l i t) * ∑ i ∈ Finset.range k, y i * l i t =
      ∑ i ∈ Finset.range k, ∑ j ∈ Finset.range k, y i * y j * (l i t * l j t * d t) := by
    intro t
    rw [mul_assoc, Finset.sum_mul_sum, Finset.mul_sum]
    refine Finset.sum_congr rfl fun i _ => ?_
    rw [Finset.mul_sum]
    exact Finset.sum_congr rfl fun j _ => by ring
  rw [Finset.sum_congr rfl fun t _ => this t]
  simp only [Finset.mul_sum]
  conv_rhs => rw [Finset.sum_comm]
  refine Finset.sum_congr rfl fun i _ => ?_
  rw [Finset.sum_comm]

theorem lin_form (l : ℕ → ℕ → ℚ) (d y ρ b : ℕ → ℚ) (k : ℕ)
    (h1 : ∀ i < k, ∑ t ∈ Finset.range k, l i t * d t * ρ t = b i)
    (h2 : ∀ t < k, ∑ i ∈ Finset.range k, y i * l i t = ρ t) :
    ∑ t ∈ Finset.range k, d t * ρ t * ρ t = ∑ i ∈ Finset.range k, y i * b i := by
  have e1 : ∀ i ∈ Finset.range k, y i * b i = ∑ t ∈ Finset.range k, y i * (l i t * d t * ρ t) := fun i hi => by
    rw [← h1 i (Finset.mem_range.1 hi), Finset.mul_sum]
  rw [Finset.sum_congr rfl e1, Finset.sum_comm]
  refine Finset.sum_congr rfl fun t ht => ?_
  rw [← h2 t (Finset.mem_range.1 ht), Finset.mul_sum]
  exact Finset.sum_congr rfl fun i _ => by ring

theorem solveS_length (S : Scaled) (b : List ℚ) (k : ℕ) : (solveS S b k).length = k := by
  induction k with
  | zero => rfl
  | succ k ih => simp [solveS, ih]

theorem solveS_getD (S : Scaled) (b : List ℚ) {k t : ℕ} (ht : t < k) :
    (solveS S b k).getD t 0 = (solveS S b (t + 1)).getD t 0 := by
  induction k with
  | zero => omega
  | succ k ih =>
    rcases Nat.lt_succ_iff_lt_or_eq.1 ht with h | rfl
    · rw [← ih h]
      show (solveS S b k ++ _).getD t 0 = _
      rw [List.getD_append _ _ _ _ (by rw [solveS_length]; exact h)]
    · rfl

theorem solveS_spec {S : Scaled} (b : List ℚ) {k : ℕ} (hd : ∀ i < k, S.uu i i * S.dd i ≠ 0) {i : ℕ} (hi : i < k) :
    ∑ t ∈ Finset.range k, lo S i t * S.dd t * (solveS S b k).getD t 0 = b.getD i 0 := by
  have e : ∑ t ∈ Finset.range k, lo S i t * S.dd t * (solveS S b k).getD t 0 =
      ∑ t ∈ Finset.range (i + 1), S.uu i t * S.dd t * (solveS S b (i + 1)).getD t 0 := by
    rw [← Finset.sum_subset (s₁ := Finset.range (i + 1)) (s₂ := Finset.range k)]
    · refine Finset.sum_congr rfl fun t ht => ?_
      have ht' := Finset.mem_range.1 ht
      rw [lo, if_pos (by omega), solveS_getD S b (show t < k by omega), solveS_getD S b ht']
    · intro t ht; rw [Finset.mem_range] at ht ⊢; omega
    · intro t _ ht
      rw [Finset.mem_range] at ht
      rw [lo, if_neg (by omega)]; ring
  rw [e, Finset.sum_range_succ]
  have e2 : (solveS S b (i + 1)).getD i 0 = (b.getD i 0 - ∑ t ∈ Finset.range i,
      S.uu i t * S.dd t * (solveS S b i).getD t 0) / (S.uu i i * S.dd i) := by
    rw [← sum_range_list]
    show (solveS S b i ++ [_]).getD i 0 = _
    rw [List.getD_append_right _ _ _ _ (by rw [solveS_length])]
    simp [solveS_length]
  have e3 : ∑ t ∈ Finset.range i, S.uu i t * S.dd t * (solveS S b (i + 1)).getD t 0 =
      ∑ t ∈ Finset.range i, S.uu i t * S.dd t * (solveS S b i).getD t 0 := by
    refine Finset.sum_congr rfl fun t ht => ?_
    have ht' := Finset.mem_range.1 ht
    rw [solveS_getD S b (show t < i + 1 by omega), solveS_getD S b ht']
  rw [e2, e3, mul_div_cancel₀ _ (hd i hi)]
  ring

theorem cmb_table (y : ℕ → ℚ) (z : List ℚ) : ∀ (Q : List (List ℚ)), cmb Q (table Q.length y) z =
    ∑ i ∈ Finset.range Q.length, y i * dot (Q.getD i []) z := by
  intro Q
  induction Q using List.reverseRecOn with
  | nil => simp [cmb]
  | append_singleton Q q ih =>
    have hv : table (Q ++ [q]).length y = table Q.length y ++ [y Q.length] := by
      simp [table, List.range_succ]
    rw [hv, cmb_append (by simp [table]), ih, List.length_append, List.length_singleton, Finset.sum_range_succ]
    congr 1
    · refine Finset.sum_congr rfl fun i hi => ?_
      rw [List.getD_append _ _ _ _ (Finset.mem_range.1 hi)]
    · rw [List.getD_append_right _ _ _ _ le_rfl]
      simp [cmb, mul_comm]

theorem pvec_combine {n : ℕ} (Q : List (List ℚ)) (y : ℕ → ℚ)
    (hs : ∑ i ∈ Finset.range Q.length, y i = 1) :
    pvec n (combine n Q (table Q.length y)) = ∑ i ∈ Finset.range Q.length, y i • pvec n (Q.getD i []) := by
  funext c
  rw [Finset.sum_apply]
  simp only [Pi.smul_apply, smul_eq_mul, pvec]
  by_cases hc : (c : ℕ) = 0
  · simp [hc, hs]
  · simp only [hc, if_false]
    rw [combine_getD _ _ c.2]
    clear hs
    induction Q using List.reverseRecOn with
    | nil => simp
    | append_singleton Q q ih =>
      have hv : table (Q ++ [q]).length y = table Q.length y ++ [y Q.length] := by
        simp [table, List.range_succ]
      rw [hv, List.zipWith_append (by simp [table]), List.sum_append, ih, List.length_append, List.length_singleton,
        Finset.sum_range_succ]
      congr 1
      · refine Finset.sum_congr rfl fun i hi => ?_
        rw [List.getD_append _ _ _ _ (Finset.mem_range.1 hi)]
      · rw [List.getD_append_right _ _ _ _ le_rfl]
        simp [mul_comm]

/-- The Schur complement is positive. -/
theorem schur_pos {n : ℕ} {Q : List (List ℚ)} {S : Scaled} (hG : Gram Q S) {q : List ℚ}
    (hlen : ∀ p ∈ Q ++ [q], p.length = n) (hI : Indep n (Q ++ [q])) :
    0 < 1 + dot q q - ∑ t ∈ Finset.range Q.length, S.dd t *
      (solveS S (Q.map fun p => 1 + dot p q) Q.length).getD t 0 *
      (solveS S (Q.map fun p => 1 + dot p q) Q.length).getD t 0 := by
  set b := Q.map fun p => 1 + dot p q with hb
  set k := Q.length with hk
  set ρ : ℕ → ℚ := fun t => (solveS S b k).getD t 0 with hρ
  have hbi : ∀ i < k, b.getD i 0 = 1 + dot (Q.getD i []) q := by
    intro i hi
    rw [hb, List.getD_eq_getElem _ _ (by simpa using hi), List.getD_eq_getElem _ _ hi]
    simp
  have h1 : ∀ i < k, ∑ t ∈ Finset.range k, lo S i t * S.dd t * ρ t = 1 + dot (Q.getD i []) q := by
    intro i hi
    rw [← hbi i hi]
    exact solveS_spec b (fun i hi => mul_ne_zero (hG.diag i hi) (hG.pos i hi).ne') hi
  obtain ⟨y, h2⟩ := back_subst (lo S) k (fun i t h => if_neg (by omega))
    (fun i hi => by rw [lo, if_pos le_rfl]; exact hG.diag i hi) ρ
  have e1 := lin_form (lo S) S.dd y ρ _ k h1 h2
  have e2 := quad_form (lo S) S.dd y k
  have hql : q.length = n := hlen q (by simp)
  have hQl : ∀ p ∈ Q, p.length = n := fun p hp => hlen p (by simp [hp])
  have hgl : ∀ i < k, (Q.getD i []).length = n := by
    intro i hi
    rw [List.getD_eq_getElem _ _ hi]
    exact hQl _ (List.getElem_mem _)
  set p := combine n Q (table k y) with hp
  have hpl : p.length = n := combine_length _ _ _
  have e3 : dot p q = ∑ i ∈ Finset.range k, y i * dot (Q.getD i []) q := by
    rw [hp, dot_combine Q _ q hQl hql, cmb_table]
  have e4 : dot p p = ∑ i ∈ Finset.range k, ∑ j ∈ Finset.range k, y i * y j * dot (Q.getD i []) (Q.getD j []) := by
    conv_lhs => rw [hp, dot_combine Q _ _ hQl (combine_length _ _ _), cmb_table]
    refine Finset.sum_congr rfl fun i hi => ?_
    rw [dot_comm, dot_combine Q _ _ hQl (hgl i (Finset.mem_range.1 hi)), cmb_table, Finset.mul_sum]
    refine Finset.sum_congr rfl fun j _ => ?_
    rw [dot_comm]; ring
  set σ := ∑ i ∈ Finset.range k, y i with hσ
  have e5 : ∑ t ∈ Finset.range k, S.dd t * ρ t * ρ t = σ + dot p q := by
    rw [e1, e3, hσ, ← Finset.sum_add_distrib]
    exact Finset.sum_congr rfl fun i _ => by ring
  have e6 : ∑ t ∈ Finset.range k, S.dd t * ρ t * ρ t = σ * σ + dot p p := by
    have : ∑ t ∈ Finset.range k, S.dd t * (∑ i ∈ Finset.range k, y i * lo S i t) *
        ∑ i ∈ Finset.range k, y i * lo S i t = ∑ t ∈ Finset.range k, S.dd t * ρ t * ρ t :=
      Finset.sum_congr rfl fun t ht => by rw [h2 t (Finset.mem_range.1 ht)]
    rw [← this, ← e2, e4, hσ, Finset.sum_mul_sum, ← Finset.sum_add_distrib]
    refine Finset.sum_congr rfl fun i hi => ?_
    rw [← Finset.sum_add_distrib]
    refine Finset.sum_congr rfl fun j hj => ?_
    rw [hG.gram i (Finset.mem_range.1 hi) j (Finset.mem_range.1 hj)]
    ring
  have e7 := dot_sub_nonneg hpl hql
  have e8 : 1 + dot q q - ∑ t ∈ Finset.range k, S.dd t * ρ t * ρ t =
      (1 - σ) ^ 2 + (dot p p - 2 * dot p q + dot q q) := by
    linear_combination e6 - 2 * e5
  rw [e8]
  rcases lt_or_eq_of_le (add_nonneg (sq_nonneg (1 - σ)) e7) with h | h
  · exact h
  exfalso
  have hs1 : (1 - σ) ^ 2 = 0 := le_antisymm (by linarith [sq_nonneg (1 - σ)]) (sq_nonneg _)
  have hs2 : dot p p - 2 * dot p q + dot q q = 0 := by linarith
  have hσ1 : σ = 1 := by have := pow_eq_zero_iff (two_ne_zero) |>.1 hs1; linarith
  have hpq : p = q := by
    rw [dot_sub_sq hpl hql] at hs2
    have h0 := (Finset.sum_eq_zero_iff_of_nonneg fun i _ => sq_nonneg (p.getD i 0 - q.getD i 0)).1 hs2
    apply List.ext_getElem (by rw [hpl, hql])
    intro i hi1 hi2
    have := h0 i (Finset.mem_range.2 (by omega))
    rw [List.getD_eq_getElem _ _ hi1, List.getD_eq_getElem _ _ hi2] at this
    have := pow_eq_zero_iff (two_ne_zero) |>.1 this
    linarith
  have hpv := pvec_combine (n := n) Q y hσ1
  rw [← hk, ← hp, hpq] at hpv
  have hnd := hI.1
  rw [List.nodup_append] at hnd
  have hset : {p | p ∈ Q ++ [q]} = insert q {p | p ∈ Q} := by ext; simp [or_comm]
  have hli := hI.2
  rw [hset] at hli
  have hnot := ((linearIndepOn_insert (s := {p | p ∈ Q}) (fun hq => hnd.2.2 q hq q (by simp) rfl)).1 hli).2
  apply hnot
  rw [hpv]
  refine Submodule.sum_mem _ fun i hi => Submodule.smul_mem _ _ (Submodule.subset_span ⟨_, ?_, rfl⟩)
  rw [List.getD_eq_getElem _ _ (Finset.mem_range.1 hi)]
  exact List.getElem_mem _

theorem Gram.init (x : List ℚ) : Gram [x] (scaledFactor.init (1 + dot x x)) where
  pos t ht := by
    have : t = 0 := by simpa using ht
    subst this
    show 0 < 1 + dot x x
    linarith [dot_self_nonneg x]
  diag i hi := by
    have : i = 0 := by simpa using hi
    subst this
    show (1 : ℚ) ≠ 0
    norm_num
  gram i hi j hj := by
    have h1 : i = 0 := by simpa using hi
    have h2 : j = 0 := by simpa using hj
    subst h1 h2
    show ∑ t ∈ Finset.range 1, _ = 1 + dot x x
    rw [Finset.sum_range_one]
    show 1 * 1 * (1 + dot x x) = _
    ring

/-- A column that is independent of the others can be added. -/
theorem Gram.append {n : ℕ} {Q : List (List ℚ)} {S : Scaled} (hG : Gram Q S) {q : List ℚ}
    (hlen : ∀ p ∈ Q ++ [q], p.length = n) (hI : Indep n (Q ++ [q])) :
    ∃ S', scaledFactor.append S Q.length (Q.map fun p => 1 + dot p q) (1 + dot q q) = .ok S' ∧
      Gram (Q ++ [q]) S' := by
  have hpos := schur_pos hG hlen hI
  set b := Q.map fun p => 1 + dot p q with hb
  set k := Q.length with hk
  set s := 1 + dot q q - ∑ t ∈ Finset.range k, S.dd t * (solveS S b k).getD t 0 * (solveS S b k).getD t 0 with hs
  set S' : Scaled := ⟨mat (k + 1) fun i j => if i < k then S.uu i j else if j < k then (solveS S b k).getD j 0 else 1,
    table (k + 1) fun j => if j < k then S.dd j else s⟩ with hS'
  have hd : ∀ i < k, S.uu i i * S.dd i ≠ 0 := fun i hi => mul_ne_zero (hG.diag i hi) (hG.pos i hi).ne'
  have hdd : ∀ t < k + 1, S'.dd t = if t < k then S.dd t else s := fun t ht => getD_table _ ht
  have huu : ∀ i < k + 1, ∀ t < k + 1, S'.uu i t =
      if i < k then S.uu i t else if t < k then (solveS S b k).getD t 0 else 1 := fun i hi t ht => ent_mat _ hi ht
  have hlo : ∀ i < k, ∀ t < k + 1, lo S' i t = lo S i t := by
    intro i hi t ht
    unfold lo
    split
    · rw [huu i (by omega) t ht, if_pos hi]
    · rfl
  have hlok : ∀ t < k, lo S' k t = (solveS S b k).getD t 0 := by
    intro t ht
    rw [lo, if_pos (by omega), huu k (by omega) t (by omega), if_neg (by omega), if_pos ht]
  have hlokk : lo S' k k = 1 := by
    rw [lo, if_pos le_rfl, huu k (by omega) k (by omega), if_neg (by omega), if_neg (by omega)]
  have hlz : ∀ i < k, lo S' i k = 0 := fun i hi => by rw [lo, if_neg (by omega)]
  have hddk : S'.dd k = s := by rw [hdd k (by omega), if_neg (by omega)]
  have hlen1 : (Q ++ [q]).length = k + 1 := by simp [hk]
  have hgetq : (Q ++ [q]).getD k [] = q := by
    rw [List.getD_append_right _ _ _ _ le_rfl]; simp [hk]
  have hget : ∀ i < k, (Q ++ [q]).getD i [] = Q.getD i [] := fun i hi => List.getD_append _ _ _ _ hi
  have hbi : ∀ i < k, b.getD i 0 = 1 + dot (Q.getD i []) q := by
    intro i hi
    rw [hb, List.getD_eq_getElem _ _ (by simpa using hi), List.getD_eq_getElem _ _ hi]
    simp
  have hrow : ∀ i < k, ∑ t ∈ Finset.range (k + 1), lo S' i t * lo S' k t * S'.dd t = 1 + dot (Q.getD i []) q := by
    intro i hi
    rw [Finset.sum_range_succ, hlz i hi, zero_mul, zero_mul, add_zero, ← hbi i hi, ← solveS_spec b hd hi]
    refine Finset.sum_congr rfl fun t ht => ?_
    have ht' := Finset.mem_range.1 ht
    rw [hlo i hi t (by omega), hlok t ht', hdd t (by omega), if_pos ht']
    ring
  refine ⟨S', ?_, ?_⟩
  · show (if ∃ i ∈ List.range k, S.uu i i * S.dd i = 0 then Outcome.nan else _) = _
    rw [if_neg (by
      rintro ⟨i, hi, h0⟩
      exact hd i (List.mem_range.1 hi) h0)]
    show (if 1 + dot q q - ((List.range k).map fun t => S.dd t * (solveS S b k).getD t 0 *
      (solveS S b k).getD t 0).sum < 0 then _ else _) = _
    rw [sum_range_list, ← hs, if_neg (not_lt.2 hpos.le)]
  · constructor
    · rw [hlen1]
      intro t ht
      rw [hdd t ht]
      split
      · next h => exact hG.pos t h
      · exact hpos
    · rw [hlen1]
      intro i hi
      rw [huu i hi i hi]
      split
      · next h => exact hG.diag i h
      · norm_num
    · rw [hlen1]
      intro i hi j hj
      rcases Nat.lt_succ_iff_lt_or_eq.1 hi with h1 | rfl
      · rcases Nat.lt_succ_iff_lt_or_eq.1 hj with h2 | rfl
        · rw [hget i h1, hget j h2, Finset.sum_range_succ, hlz i h1, zero_mul, zero_mul, add_zero,
            ← hG.gram i h1 j h2]
          refine Finset.sum_congr rfl fun t ht => ?_
          have ht' := Finset.mem_range.1 ht
          rw [hlo i h1 t (by omega), hlo j h2 t (by omega), hdd t (by omega), if_pos ht']
        · rw [hgetq, hget i h1]
          exact hrow i h1
      · rcases Nat.lt_succ_iff_lt_or_eq.1 hj with h2 | rfl
        · rw [hgetq, hget j h2, dot_comm, ← hrow j h2]
          exact Finset.sum_congr rfl fun t _ => by ring
        · rw [hgetq, Finset.sum_range_succ, hlokk, hddk, one_mul, one_mul]
          have : ∑ t ∈ Finset.range k, lo S' k t * lo S' k t * S'.dd t =
              ∑ t ∈ Finset.range k, S.dd t * (solveS S b k).getD t 0 * (solveS S b k).getD t 0 := by
            refine Finset.sum_congr rfl fun t ht => ?_
            have ht' := Finset.mem_range.1 ht
            rw [hlok t ht', hdd t (by omega), if_pos ht']
            ring
          rw [this, hs]
          ring

end PSP.Theory
