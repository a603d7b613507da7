import Verif.Theory.FactorSim
import Mathlib.Tactic.LinearCombination
import Mathlib.Tactic.FieldSimp

/-!
# `min_norm_base`: the matrix `L` of the code and its rational representation
-/

namespace PSP.Theory

open PSP.Model

theorem cast_sum_list (l : List ℚ) : ((l.sum : ℚ) : ℝ) = (l.map fun a : ℚ => (a : ℝ)).sum := by
  induction l with
  | nil => simp
  | cons a l ih => rw [List.sum_cons, List.map_cons, List.sum_cons, ← ih]; push_cast; rfl

/-- The rows below `k` that are not in `D` agree below and on the diagonal. -/
structure RelD (k : ℕ) (D : ℕ → Prop) (L : ℕ → ℕ → ℝ) (S : Scaled) : Prop where
  nonneg : ∀ i < k, 0 ≤ S.dd i
  entry : ∀ i < k, ¬ D i → ∀ j ≤ i, L i j = S.uu i j * √(S.dd j : ℝ)

/-- `S` represents the first `k` rows of `L`. -/
def Represented (k : ℕ) (L : ℕ → ℕ → ℝ) (S : Scaled) : Prop := RelD k (fun _ => False) L S

theorem rotateS_uu {k j : ℕ} (S : Scaled) {r t : ℕ} (hr : r < k) (ht : t < k) : (rotateS k j S).uu r t =
    if r ≤ j then S.uu r t
    else if t = j then (S.uu r j * S.uu (j + 1) j * S.dd j + S.uu r (j + 1) * S.uu (j + 1) (j + 1) * S.dd (j + 1)) /
      (S.uu (j + 1) j * S.uu (j + 1) j * S.dd j + S.uu (j + 1) (j + 1) * S.uu (j + 1) (j + 1) * S.dd (j + 1))
    else if t = j + 1 then S.uu r (j + 1) * S.uu (j + 1) j - S.uu r j * S.uu (j + 1) (j + 1)
    else S.uu r t := by
  unfold rotateS
  exact ent_mat _ hr ht

theorem rotateS_dd {k j : ℕ} (S : Scaled) {t : ℕ} (ht : t < k) : (rotateS k j S).dd t =
    if t = j then S.uu (j + 1) j * S.uu (j + 1) j * S.dd j + S.uu (j + 1) (j + 1) * S.uu (j + 1) (j + 1) * S.dd (j + 1)
    else if t = j + 1 then S.dd j * S.dd (j + 1) /
      (S.uu (j + 1) j * S.uu (j + 1) j * S.dd j + S.uu (j + 1) (j + 1) * S.uu (j + 1) (j + 1) * S.dd (j + 1))
    else S.dd t := by
  unfold rotateS
  exact getD_table _ ht

theorem norm_sq {A B x y : ℚ} (hx : 0 ≤ x) (hy : 0 ≤ y) :
    A * √(x : ℝ) * (A * √(x : ℝ)) + B * √(y : ℝ) * (B * √(y : ℝ)) = ((A * A * x + B * B * y : ℚ) : ℝ) := by
  have h1 : √(x : ℝ) * √(x : ℝ) = x := Real.mul_self_sqrt (by exact_mod_cast hx)
  have h2 : √(y : ℝ) * √(y : ℝ) = y := Real.mul_self_sqrt (by exact_mod_cast hy)
  push_cast
  linear_combination (A : ℝ) * A * h1 + (B : ℝ) * B * h2

theorem RelD.sqrt_eq {k : ℕ} {D : ℕ → Prop} {L : ℕ → ℕ → ℝ} {S : Scaled} (h : RelD k D L S) {j : ℕ} (hj : j + 1 < k)
    (hD : ¬ D (j + 1)) :
    √(L (j + 1) j * L (j + 1) j + L (j + 1) (j + 1) * L (j + 1) (j + 1)) = √((S.uu (j + 1) j * S.uu (j + 1) j * S.dd j +
      S.uu (j + 1) (j + 1) * S.uu (j + 1) (j + 1) * S.dd (j + 1) : ℚ) : ℝ) := by
  rw [h.entry (j + 1) hj hD j (by omega), h.entry (j + 1) hj hD (j + 1) le_rfl,
    norm_sq (h.nonneg j (by omega)) (h.nonneg (j + 1) hj)]

theorem RelD.rotate {k : ℕ} {D : ℕ → Prop} {L : ℕ → ℕ → ℝ} {S : Scaled} (h : RelD k D L S) {j : ℕ} (hj : j + 1 < k)
    (hD : ¬ D (j + 1)) (hdiag : D j ∨ (L j j = 0 ∧ S.uu j j = 0))
    (hc : S.uu (j + 1) j * S.uu (j + 1) j * S.dd j +
      S.uu (j + 1) (j + 1) * S.uu (j + 1) (j + 1) * S.dd (j + 1) ≠ 0) :
    RelD k D (rotate k j L) (rotateS k j S) ∧ rotate k j L (j + 1) (j + 1) = 0 ∧
      (rotateS k j S).uu (j + 1) (j + 1) = 0 := by
  have hx := h.nonneg j (by omega)
  have hy := h.nonneg (j + 1) hj
  have hsq := h.sqrt_eq hj hD
  set A := S.uu (j + 1) j with hA
  set B := S.uu (j + 1) (j + 1) with hB
  set x := S.dd j with hxd
  set y := S.dd (j + 1) with hyd
  set c := A * A * x + B * B * y with hcd
  have hc0 : 0 < c := lt_of_le_of_ne
    (add_nonneg (mul_nonneg (mul_self_nonneg _) hx) (mul_nonneg (mul_self_nonneg _) hy)) (Ne.symm hc)
  have hcR : (0 : ℝ) < (c : ℝ) := by exact_mod_cast hc0
  have hs : 0 < √(c : ℝ) := Real.sqrt_pos.2 hcR
  have hss : √(c : ℝ) * √(c : ℝ) = c := Real.mul_self_sqrt hcR.le
  have hxx : √(x : ℝ) * √(x : ℝ) = x := Real.mul_self_sqrt (by exact_mod_cast hx)
  have hyy : √(y : ℝ) * √(y : ℝ) = y := Real.mul_self_sqrt (by exact_mod_cast hy)
  have ha : L (j + 1) j = A * √(x : ℝ) := h.entry (j + 1) hj hD j (by omega)
  have hb : L (j + 1) (j + 1) = B * √(y : ℝ) := h.entry (j + 1) hj hD (j + 1) le_rfl
  refine ⟨⟨fun i hi => ?_, fun r hr hrD t ht => ?_⟩, ?_, ?_⟩
  · rw [rotateS_dd S hi, ← hA, ← hB, ← hxd, ← hyd, ← hcd]
    split
    · exact hc0.le
    split
    · positivity
    · exact h.nonneg i hi
  · rw [rotateS_uu S hr (by omega), rotateS_dd S (by omega : t < k), ← hA, ← hB, ← hxd, ← hyd, ← hcd]
    show (if r ≤ j ∨ k < r then L r t else if t = j then _ else if t = j + 1 then _ else L r t) = _
    rw [hsq, ha, hb]
    by_cases hrj : r ≤ j
    · rw [if_pos (Or.inl hrj), if_pos hrj]
      by_cases htj : t = j
      · have : r = j := by omega
        subst this
        rcases hdiag with hd | ⟨hd, hd'⟩
        · exact absurd hd hrD
        · rw [htj, hd, hd']; simp
      · rw [if_neg htj, if_neg (by omega)]
        exact h.entry r hr hrD t ht
    rw [if_neg (by omega), if_neg hrj]
    have hr1 : L r j = S.uu r j * √(x : ℝ) := h.entry r hr hrD j (by omega)
    have hr2 : L r (j + 1) = S.uu r (j + 1) * √(y : ℝ) := h.entry r hr hrD (j + 1) (by omega)
    by_cases htj : t = j
    · simp only [if_pos htj]
      rw [hr1, hr2]
      push_cast
      rw [mul_div_assoc', mul_div_assoc', ← add_div, div_mul_eq_mul_div, div_eq_div_iff hs.ne' hcR.ne']
      linear_combination ((S.uu r j : ℝ) * A * x + S.uu r (j + 1) * B * y) * (-hss) +
        (c : ℝ) * S.uu r j * A * hxx + (c : ℝ) * S.uu r (j + 1) * B * hyy
    · rw [if_neg htj, if_neg htj, if_neg htj]
      by_cases htj1 : t = j + 1
      · simp only [if_pos htj1]
        rw [hr1, hr2]
        push_cast
        rw [Real.sqrt_div' _ hcR.le, Real.sqrt_mul (by exact_mod_cast hx)]
        field_simp
        ring
      · simp only [if_neg htj1]
        exact h.entry r hr hrD t ht
  · show (if j + 1 ≤ j ∨ k < j + 1 then _ else if j + 1 = j then _ else if j + 1 = j + 1 then _ else _) = (0 : ℝ)
    rw [if_neg (by omega), if_neg (by omega), if_pos rfl]
    ring
  · rw [rotateS_uu S hj hj, if_neg (by omega), if_neg (by omega), if_pos rfl]
    ring

theorem rotateFrom_sim {k : ℕ} {D : ℕ → Prop} : ∀ (m j : ℕ) (L : ℕ → ℕ → ℝ) (S : Scaled), RelD k D L S →
    j + m + 1 = k ∨ m = 0 → (∀ i, j < i → ¬ D i) → (D j ∨ (L j j = 0 ∧ S.uu j j = 0)) →
    OutRel (RelD k D) (rotateFrom k m j L) (rotateFromS k m j S) := by
  intro m
  induction m with
  | zero => intro j L S h _ _ _; exact .ok h
  | succ m ih =>
    intro j L S h hm hD hd
    have hj : j + 1 < k := by omega
    unfold rotateFrom rotateFromS
    have hsq := h.sqrt_eq hj (hD _ (by omega))
    have hx := h.nonneg j (by omega)
    have hy := h.nonneg (j + 1) hj
    by_cases hc : S.uu (j + 1) j * S.uu (j + 1) j * S.dd j +
      S.uu (j + 1) (j + 1) * S.uu (j + 1) (j + 1) * S.dd (j + 1) = 0
    · rw [if_pos hc, if_pos (by rw [hsq, hc]; simp)]
      exact .nan
    · have hc0 : 0 < S.uu (j + 1) j * S.uu (j + 1) j * S.dd j +
          S.uu (j + 1) (j + 1) * S.uu (j + 1) (j + 1) * S.dd (j + 1) :=
        lt_of_le_of_ne (add_nonneg (mul_nonneg (mul_self_nonneg _) hx) (mul_nonneg (mul_self_nonneg _) hy)) (Ne.symm hc)
      rw [if_neg hc, if_neg (by rw [hsq]; exact (Real.sqrt_pos.2 (by exact_mod_cast hc0)).ne')]
      obtain ⟨h1, h2, h3⟩ := h.rotate hj (hD _ (by omega)) hd hc
      exact ih (j + 1) _ _ h1 (by omega) (fun i hi => hD i (by omega)) (Or.inr ⟨h2, h3⟩)

theorem rotateAll_sim (del : List Bool) : ∀ (m i : ℕ) (L : ℕ → ℕ → ℝ) (S : Scaled), i + m = del.length →
    RelD del.length (fun r => r < i ∧ del.getD r false = true) L S →
    OutRel (RelD del.length fun r => del.getD r false = true) (rotateAll del (List.range' i m) L)
      (rotateAllS del (List.range' i m) S) := by
  intro m
  induction m with
  | zero =>
    intro i L S hi h
    refine .ok ⟨h.nonneg, fun r hr hD => h.entry r hr fun hc => hD hc.2⟩
  | succ m ih =>
    intro i L S hi h
    rw [List.range'_succ]
    unfold rotateAll rotateAllS
    by_cases hd : del.getD i false = true
    · rw [if_pos hd, if_pos hd]
      have h' : RelD del.length (fun r => r < i + 1 ∧ del.getD r false = true) L S :=
        ⟨h.nonneg, fun r hr hD => h.entry r hr fun hc => hD ⟨by omega, hc.2⟩⟩
      refine (rotateFrom_sim _ _ _ _ h' (by omega) (fun r hr hc => by omega)
        (Or.inl ⟨by omega, hd⟩)).bind fun L' S' h1 => ?_
      exact ih (i + 1) L' S' (by omega) h1
    · rw [if_neg hd, if_neg hd]
      refine ih (i + 1) L S (by omega) ⟨h.nonneg, fun r hr hD => h.entry r hr fun hc => hD ⟨by omega, hc.2⟩⟩

theorem kept_spec (del : List Bool) {i : ℕ} (hi : i < (kept del).length) : i ≤ (kept del).getD i 0 ∧
    (kept del).getD i 0 < del.length ∧ del.getD ((kept del).getD i 0) false = false := by
  rw [List.getD_eq_getElem _ _ hi]
  have hm' : (kept del)[i] < del.length ∧ (!del.getD (kept del)[i] false) = true := by
    have hm := List.getElem_mem hi
    generalize (kept del)[i] = a at hm
    unfold kept at hm
    rwa [List.mem_filter, List.mem_range] at hm
  refine ⟨?_, hm'.1, by simpa using hm'.2⟩
  have hsorted : (kept del).Pairwise (· < ·) := List.Pairwise.filter _ List.pairwise_lt_range
  clear hm'
  induction i with
  | zero => exact Nat.zero_le _
  | succ i ih =>
    have := ih (by omega)
    have := List.pairwise_iff_getElem.1 hsorted i (i + 1) (by omega) hi (by omega)
    omega

theorem solve_sim {L : ℕ → ℕ → ℝ} {S : Scaled} (b : List ℚ) : ∀ k : ℕ, Represented k L S →
    (∀ i < k, S.uu i i * S.dd i ≠ 0) → (lowerSolve L b k).length = k ∧ (solveS S b k).length = k ∧
      ∀ t < k, (lowerSolve L b k).getD t 0 = (solveS S b k).getD t 0 * √(S.dd t : ℝ) := by
  intro k
  induction k with
  | zero => intro _ _; exact ⟨rfl, rfl, by simp⟩
  | succ k ih =>
    intro h hd
    obtain ⟨h1, h2, h3⟩ := ih ⟨fun i hi => h.nonneg i (by omega), fun i hi => h.entry i (by omega)⟩
      fun i hi => hd i (by omega)
    unfold lowerSolve solveS
    refine ⟨by simp [h1], by simp [h2], fun t ht => ?_⟩
    rcases Nat.lt_succ_iff_lt_or_eq.1 ht with ht | rfl
    · rw [List.getD_append _ _ _ _ (by omega), List.getD_append _ _ _ _ (by omega)]
      exact h3 t ht
    · dsimp only
      rw [List.getD_append_right _ _ _ _ (by omega), List.getD_append_right _ _ _ _ (by omega), h1, h2]
      simp only [Nat.sub_self, List.getD_cons_zero]
      have hk := hd t (by omega)
      have hdk : (0 : ℝ) < S.dd t := by
        have := h.nonneg t (by omega)
        exact_mod_cast lt_of_le_of_ne this fun hc => hk (by rw [← hc, mul_zero])
      have hs := Real.sqrt_pos.2 hdk
      have hss : √(S.dd t : ℝ) * √(S.dd t : ℝ) = S.dd t := Real.mul_self_sqrt hdk.le
      have huk : (S.uu t t : ℝ) ≠ 0 := by
        have : S.uu t t ≠ 0 := fun hc => hk (by rw [hc, zero_mul])
        exact_mod_cast this
      have hsum : ((List.range t).map fun i => L t i * (lowerSolve L b t).getD i 0).sum =
          ((((List.range t).map fun i => S.uu t i * S.dd i * (solveS S b t).getD i 0).sum : ℚ) : ℝ) := by
        rw [cast_sum_list, List.map_map]
        congr 1
        apply List.map_congr_left
        intro i hi
        rw [List.mem_range] at hi
        have hi0 : (0 : ℝ) ≤ S.dd i := by exact_mod_cast h.nonneg i (by omega)
        have hii : √(S.dd i : ℝ) * √(S.dd i : ℝ) = S.dd i := Real.mul_self_sqrt hi0
        rw [h.entry t (by omega) id i (by omega), h3 i hi]
        simp only [Function.comp_apply]
        push_cast
        linear_combination (S.uu t i : ℝ) * ((solveS S b t).getD i 0 : ℚ) * hii
      rw [hsum, h.entry t (by omega) id t le_rfl]
      push_cast
      rw [div_mul_eq_mul_div, div_eq_div_iff (by positivity) (by positivity)]
      linear_combination (((b.getD t 0 : ℚ) : ℝ) -
        ((List.range t).map fun i => S.uu t i * S.dd i * (solveS S b t).getD i 0).sum) * (S.uu t t : ℝ) * (-hss)

theorem codeFactor_sim : FactorSim codeFactor scaledFactor Represented where
  init c hc := by
    refine ⟨fun i hi => ?_, fun i hi _ j hj => ?_⟩
    · have : i = 0 := by omega
      subst this
      exact hc
    · have h1 : i = 0 := by omega
      have h2 : j = 0 := by omega
      subst h1 h2
      show (if 0 = 0 ∧ 0 = 0 then √(c : ℝ) else 0) = ((1 : ℚ) : ℝ) * √(c : ℝ)
      rw [if_pos ⟨rfl, rfl⟩]
      simp
  mono hm h := ⟨fun i hi => h.nonneg i (by omega), fun i hi => h.entry i (by omega)⟩
  append {k L S} b c h := by
    have hiff : (∃ i < k, L i i = 0) ↔ ∃ i ∈ List.range k, S.uu i i * S.dd i = 0 := by
      constructor
      · rintro ⟨i, hi, h0⟩
        refine ⟨i, List.mem_range.2 hi, ?_⟩
        rw [h.entry i hi id i le_rfl, mul_eq_zero, Real.sqrt_eq_zero (by exact_mod_cast h.nonneg i hi)] at h0
        rw [mul_eq_zero]
        exact_mod_cast h0
      · rintro ⟨i, hi, h0⟩
        rw [List.mem_range] at hi
        refine ⟨i, hi, ?_⟩
        rw [h.entry i hi id i le_rfl, mul_eq_zero, Real.sqrt_eq_zero (by exact_mod_cast h.nonneg i hi)]
        rw [mul_eq_zero] at h0
        exact_mod_cast h0
    show OutRel _ (if ∃ i < k, L i i = 0 then _ else _) (if ∃ i ∈ List.range k, S.uu i i * S.dd i = 0 then _ else _)
    by_cases hz : ∃ i < k, L i i = 0
    · rw [if_pos hz, if_pos (hiff.1 hz)]
      exact .nan
    rw [if_neg hz, if_neg fun hc => hz (hiff.2 hc)]
    have hd : ∀ i < k, S.uu i i * S.dd i ≠ 0 := fun i hi h0 => hz (hiff.2 ⟨i, List.mem_range.2 hi, h0⟩)
    obtain ⟨h1, h2, h3⟩ := solve_sim b k h hd
    have hs : (c : ℝ) - ((lowerSolve L b k).map fun a => a * a).sum =
        ((c - ((List.range k).map fun t => S.dd t * (solveS S b k).getD t 0 * (solveS S b k).getD t 0).sum : ℚ) : ℝ) := by
      push_cast
      congr 1
      rw [cast_sum_list, List.map_map]
      congr 1
      apply List.ext_getElem
      · simp [h1]
      · intro i hi hi'
        have hik : i < k := by simpa [h1] using hi
        have hi0 : (0 : ℝ) ≤ S.dd i := by exact_mod_cast h.nonneg i hik
        have hii : √(S.dd i : ℝ) * √(S.dd i : ℝ) = S.dd i := Real.mul_self_sqrt hi0
        rw [List.getElem_map, List.getElem_map, List.getElem_range, ← List.getD_eq_getElem _ 0, h3 i hik]
        simp only [Function.comp_apply]
        push_cast
        linear_combination (((solveS S b k).getD i 0 : ℚ) : ℝ) * ((solveS S b k).getD i 0 : ℚ) * hii
    rw [hs]
    set s := c - ((List.range k).map fun t => S.dd t * (solveS S b k).getD t 0 * (solveS S b k).getD t 0).sum
    by_cases hneg : s < 0
    · rw [if_pos hneg, if_pos (by exact_mod_cast hneg)]
      exact .exc _
    rw [if_neg hneg, if_neg (by exact_mod_cast hneg)]
    refine .ok ⟨fun i hi => ?_, fun i hi _ j hj => ?_⟩
    · show 0 ≤ (table (k + 1) _).getD i 0
      rw [getD_table _ hi]
      split
      · exact h.nonneg i ‹_›
      · exact not_lt.1 hneg
    · show _ = ((ent (mat (k + 1) _) i j : ℚ) : ℝ) * √(((table (k + 1) _).getD j 0 : ℚ) : ℝ)
      rw [ent_mat _ hi (by omega), getD_table _ (by omega)]
      by_cases hik : i < k
      · simp only [if_neg (by omega : ¬ i = k), if_pos hik, if_pos (by omega : j < k)]
        exact h.entry i hik id j hj
      · simp only [if_pos (by omega : i = k), if_neg hik]
        by_cases hjk : j < k
        · simp only [if_pos hjk]
          exact h3 j hjk
        · simp only [if_neg hjk, if_pos (by omega : j = k)]
          simp
  delete {L S} del h := by
    show OutRel _ (rotateAll del (List.range del.length) L >>= _) (rotateAllS del (List.range del.length) S >>= _)
    rw [List.range_eq_range']
    refine (rotateAll_sim del del.length 0 L S (by omega) ⟨h.nonneg, fun r hr _ => h.entry r hr id⟩).bind
      fun L' S' h' => .ok ⟨fun i hi => ?_, fun i hi _ j hj => ?_⟩
    · obtain ⟨h1, h2, -⟩ := kept_spec del hi
      exact h'.nonneg i (by omega)
    · obtain ⟨h1, h2, h3⟩ := kept_spec del hi
      have e1 : (kept del).getD i i = (kept del).getD i 0 := by
        rw [List.getD_eq_getElem _ _ hi, List.getD_eq_getElem _ _ hi]
      have e2 : (⟨(kept del).map fun i => S'.u.getD i [], S'.d⟩ : Scaled).uu i j = S'.uu ((kept del).getD i 0) j := by
        unfold Scaled.uu ent
        congr 1
        rw [List.getD_eq_getElem _ _ (by simpa using hi), List.getElem_map, List.getD_eq_getElem _ _ hi]
      rw [e2, e1]
      exact h'.entry _ h2 (by rw [h3]; simp) j (by omega)

end PSP.Theory
