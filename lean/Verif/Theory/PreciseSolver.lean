import Verif.Theory.AggRounded

/-!
# The point computed from a corral when the linear solver is precise
-/

namespace PSP.Theory

open PSP.Model PSP.Spec

/-- For corrals of integral vectors for which all the entries returned have the same sign, the solver is within `κ` of a
solution of the linear equations, relative to the sum of its entries. -/
def SolvesClosely (solve : List (List ℚ) → List ℚ) (κ W : ℚ) (n : ℕ) : Prop :=
  ∀ Q : List (List ℚ), Q ≠ [] → (∀ q ∈ Q, IntVec n W q) → Q.length ≤ n + 1 →
    (∀ a ∈ solve Q, ∀ b ∈ solve Q, 0 < a * b) →
    ∃ r, Solves n Q r ∧ (List.zipWith (fun a b => |a - b|) (solve Q) r).sum ≤ κ * r.sum

theorem zipWith_sum_getD {α β : Type} (f : α → β → ℚ) (a0 : α) (b0 : β) : ∀ (x : List α) (y : List β), x.length = y.length →
    (List.zipWith f x y).sum = ∑ k ∈ Finset.range x.length, f (x.getD k a0) (y.getD k b0) := by
  intro x
  induction x with
  | nil => intro y _; simp
  | cons a x ih =>
    intro y hy
    cases y with
    | nil => simp at hy
    | cons b y =>
      rw [List.zipWith_cons_cons, List.sum_cons, ih y (by simpa using hy), List.length_cons, Finset.sum_range_succ', add_comm]
      simp

theorem Solves.dot_self {n : ℕ} {Q : List (List ℚ)} {r : List ℚ} (h : Solves n Q r) (hlen : ∀ q ∈ Q, q.length = n) :
    dot (combine n Q r) (combine n Q r) = (1 - r.sum) * r.sum := by
  rw [dot_combine Q r _ hlen (combine_length _ _ _)]
  refine cmb_const Q r h.1.symm fun q hq => ?_
  have := h.2 q hq
  rw [dot_comm]
  linarith

theorem Solves.sum_pos {n : ℕ} {Q : List (List ℚ)} {r : List ℚ} (h : Solves n Q r) (hQ : Q ≠ [])
    (hlen : ∀ q ∈ Q, q.length = n) : 0 < r.sum := by
  have h1 := h.dot_self hlen
  have h2 : 0 ≤ dot (combine n Q r) (combine n Q r) := by
    rw [dot_eq _ _ n (combine_length _ _ _) (combine_length _ _ _)]
    exact Finset.sum_nonneg fun i _ => mul_self_nonneg _
  have h3 := h.sum_ne hQ hlen
  rcases lt_or_gt_of_ne h3 with h4 | h4
  · nlinarith
  · exact h4

/-- The weights. -/
theorem solver_weights_close {m : ℕ} {a r z : ℕ → ℚ} {S s κ g u : ℚ} (hS : ∑ k ∈ Finset.range m, r k = S) (hS0 : 0 < S)
    (ha : ∀ k < m, 0 < a k) (har : ∑ k ∈ Finset.range m, |a k - r k| ≤ κ * S)
    (hs : |s - ∑ k ∈ Finset.range m, a k| ≤ g * ∑ k ∈ Finset.range m, a k)
    (hz : ∀ k < m, |a k / s| ≤ 2 → |z k - a k / s| ≤ g * |a k / s| + u) (hg0 : 0 ≤ g) (hmu : m * u ≤ g)
    (hκ : κ ≤ 1 / 8) (hg : g ≤ 1 / 16) :
    ∑ k ∈ Finset.range m, |z k - r k / S| ≤ 3 * κ + 5 * g ∧ ∑ k ∈ Finset.range m, |z k| ≤ 2 := by
  set T := ∑ k ∈ Finset.range m, a k with hT
  have hTS : |T - S| ≤ κ * S := by
    rw [hT, ← hS, ← Finset.sum_sub_distrib, hS]
    exact (Finset.abs_sum_le_sum_abs _ _).trans har
  have hκ0 : 0 ≤ κ := by
    have : 0 ≤ κ * S := (abs_nonneg _).trans hTS
    exact nonneg_of_mul_nonneg_left this hS0
  have hκS : κ * S ≤ 1 / 8 * S := mul_le_mul_of_nonneg_right hκ hS0.le
  rw [abs_le] at hTS
  have hT0 : 0 < T := by linarith [hTS.1]
  have hgT : g * T ≤ 1 / 16 * T := mul_le_mul_of_nonneg_right hg hT0.le
  have hs' := abs_le.1 hs
  have hs0 : 0 < s := by linarith [hs'.1]
  have hTs : T / s ≤ 16 / 15 := by
    rw [div_le_iff₀ hs0]
    linarith [hs'.1]
  have hak : ∀ k < m, a k / s ≤ T / s := fun k hk => by
    refine div_le_div_of_nonneg_right ?_ hs0.le
    exact Finset.single_le_sum (f := a) (fun i hi => (ha i (Finset.mem_range.1 hi)).le) (Finset.mem_range.2 hk)
  have habs : ∀ k < m, |a k / s| = a k / s := fun k hk => abs_of_pos (div_pos (ha k hk) hs0)
  have h1 : ∑ k ∈ Finset.range m, |z k - a k / s| ≤ g * (T / s) + m * u := by
    calc ∑ k ∈ Finset.range m, |z k - a k / s| ≤ ∑ k ∈ Finset.range m, (g * (a k / s) + u) := by
          refine Finset.sum_le_sum fun k hk => ?_
          have hk := Finset.mem_range.1 hk
          have := hz k hk (by rw [habs k hk]; exact ((hak k hk).trans hTs).trans (by norm_num))
          rwa [habs k hk] at this
      _ = _ := by
          rw [Finset.sum_add_distrib, ← Finset.mul_sum, ← Finset.sum_div, Finset.sum_const, Finset.card_range,
            nsmul_eq_mul]
  have hgTs : g * (T / s) ≤ g * (16 / 15) := mul_le_mul_of_nonneg_left hTs hg0
  have hsS : |S - s| ≤ κ * S + g * T := by
    rw [abs_le]
    constructor <;> linarith [hs'.1, hs'.2, hTS.1, hTS.2]
  have h2 : ∑ k ∈ Finset.range m, |a k / s - r k / S| ≤ κ + T / s * (|S - s| / S) := by
    calc ∑ k ∈ Finset.range m, |a k / s - r k / S|
        ≤ ∑ k ∈ Finset.range m, (|a k - r k| / S + a k / s * (|S - s| / S)) := by
          refine Finset.sum_le_sum fun k hk => ?_
          have hk := Finset.mem_range.1 hk
          have e : a k / s - r k / S = (a k - r k) / S + a k / s * ((S - s) / S) := by
            field_simp
            ring
          rw [e]
          refine (abs_add_le _ _).trans (le_of_eq ?_)
          rw [abs_div, abs_mul, abs_div (S - s), habs k hk, abs_of_pos hS0]
      _ = (∑ k ∈ Finset.range m, |a k - r k|) / S + T / s * (|S - s| / S) := by
          rw [Finset.sum_add_distrib, ← Finset.sum_div, ← Finset.sum_mul, ← Finset.sum_div]
      _ ≤ _ := by
          have : (∑ k ∈ Finset.range m, |a k - r k|) / S ≤ κ := by rwa [div_le_iff₀ hS0]
          linarith
  have h3 : |S - s| / S ≤ κ + 9 / 8 * g := by
    rw [div_le_iff₀ hS0]
    have : g * T ≤ g * (9 / 8 * S) := mul_le_mul_of_nonneg_left (by linarith [hTS.2]) hg0
    nlinarith
  have h4 : T / s * (|S - s| / S) ≤ 16 / 15 * (κ + 9 / 8 * g) :=
    mul_le_mul hTs h3 (by positivity) (by norm_num)
  constructor
  · calc ∑ k ∈ Finset.range m, |z k - r k / S|
        ≤ ∑ k ∈ Finset.range m, (|z k - a k / s| + |a k / s - r k / S|) :=
          Finset.sum_le_sum fun k _ => abs_sub_le _ _ _
      _ ≤ _ := by
          rw [Finset.sum_add_distrib]
          linarith
  · calc ∑ k ∈ Finset.range m, |z k| ≤ ∑ k ∈ Finset.range m, (|z k - a k / s| + a k / s) := by
          refine Finset.sum_le_sum fun k hk => ?_
          have hk := Finset.mem_range.1 hk
          have := abs_add_le (z k - a k / s) (a k / s)
          rwa [sub_add_cancel, habs k hk] at this
      _ ≤ _ := by
          rw [Finset.sum_add_distrib, ← Finset.sum_div]
          linarith

/-- A solver close to the solutions makes the points close to the projections. -/
theorem preciseFor_of_solver {fl : ℚ → ℚ} {N : NumericsF} {n : ℕ} {g u R κ W eps : ℚ} (hN : CloseNumerics fl N g u R n)
    (hs : SolvesClosely N.solve κ W n) (hκ : κ ≤ 1 / 8) (hW : 1 ≤ W) (hR : 2 * W ≤ R) (hu : (n + 1) * u ≤ g)
    (heps : 0 ≤ eps) : PreciseFor fl N eps ((3 * κ + 8 * g) * W) W n := by
  intro Q hQ hint hl h0 hv v hp i hi
  have hlen : ∀ q ∈ Q, q.length = n := fun q hq => (hint q hq).1
  have hg0 := hN.nonneg
  set s := N.dot (List.replicate Q.length 1) (N.solve Q) with hs_def
  have hpos : ∀ a ∈ N.solve Q, 0 < a / s := fun a ha => by
    by_contra hc
    have := hN.mono (not_lt.1 hc)
    rw [hN.zero] at this
    linarith [hv a ha]
  have hsl := hN.solve Q
  obtain ⟨r, hr, hr2⟩ := hs Q hQ hint hl fun a ha b hb => by
    have := mul_pos (hpos a ha) (hpos b hb)
    have e : a / s * (b / s) = a * b / (s * s) := by field_simp
    rw [e] at this
    exact (div_pos_iff_of_pos_right (mul_self_pos.2 h0)).1 this
  have hS0 := hr.sum_pos hQ hlen
  have hm : 0 < Q.length := List.length_pos_iff.2 hQ
  rw [zipWith_sum_getD _ 0 0 _ _ (hsl.trans hr.1.symm), hsl] at hr2
  have hS : ∑ k ∈ Finset.range Q.length, r.getD k 0 = r.sum := by rw [list_sum_getD, hr.1]
  have ht := hN.total Q hl
  have hmem : ∀ k < Q.length, (N.solve Q).getD k 0 ∈ N.solve Q := fun k hk => by
    rw [List.getD_eq_getElem _ 0 (by rw [hsl]; exact hk)]
    exact List.getElem_mem _
  have hs0 : 0 < s := by
    by_contra hc
    have hneg : ∀ k < Q.length, (N.solve Q).getD k 0 < 0 := fun k hk => by
      by_contra hc2
      have := div_nonpos_of_nonneg_of_nonpos (not_lt.1 hc2) (not_lt.1 hc)
      linarith [hpos _ (hmem k hk)]
    have : r.sum ≤ ∑ k ∈ Finset.range Q.length, |(N.solve Q).getD k 0 - r.getD k 0| := by
      rw [← hS]
      refine Finset.sum_le_sum fun k hk => ?_
      have := hneg k (Finset.mem_range.1 hk)
      have := neg_le_abs ((N.solve Q).getD k 0 - r.getD k 0)
      linarith
    have : κ * r.sum ≤ 1 / 8 * r.sum := mul_le_mul_of_nonneg_right hκ hS0.le
    linarith
  have ha : ∀ k < Q.length, 0 < (N.solve Q).getD k 0 := fun k hk =>
    (div_pos_iff_of_pos_right hs0).1 (hpos _ (hmem k hk))
  have habs : (N.solve Q).map abs = N.solve Q := by
    conv_rhs => rw [← List.map_id (N.solve Q)]
    refine List.map_congr_left fun a hk => ?_
    exact abs_of_pos ((div_pos_iff_of_pos_right hs0).1 (hpos a hk))
  rw [habs, list_sum_getD, hsl] at ht
  have hmu : (Q.length : ℚ) * u ≤ g := by
    refine le_trans (mul_le_mul_of_nonneg_right ?_ hN.abs_nonneg) hu
    exact_mod_cast hl
  set z := (N.solve Q).map fun a => fl (a / s) with hz
  have hzl : z.length = Q.length := by rw [hz, List.length_map, hsl]
  have hzk : ∀ k < Q.length, z.getD k 0 = fl ((N.solve Q).getD k 0 / s) := fun k hk => by
    rw [List.getD_eq_getElem _ 0 (by rw [hzl]; exact hk), List.getD_eq_getElem _ 0 (by rw [hsl]; exact hk)]
    simp [hz]
  obtain ⟨w1, w2⟩ := solver_weights_close (z := fun k => z.getD k 0) hS hS0 ha hr2 ht (fun k hk h2 => by
    rw [hzk k hk]
    exact hN.round _ h2) hg0 hmu hκ hN.small
  have hq : ∀ k < Q.length, |(Q.getD k []).getD i 0| ≤ W := fun k hk => by
    rw [List.getD_eq_getElem _ _ hk]
    exact ((hint _ (List.getElem_mem _)).2 i hi).2
  have hsum : (List.zipWith (fun q c => |q.getD i 0 * c|) Q z).sum ≤ W * 2 := by
    rw [zipWith_sum_getD _ [] 0 _ _ hzl.symm]
    refine le_trans ?_ (mul_le_mul_of_nonneg_left w2 (by linarith : 0 ≤ W))
    rw [Finset.mul_sum]
    refine Finset.sum_le_sum fun k hk => ?_
    rw [abs_mul]
    exact mul_le_mul_of_nonneg_right (hq k (Finset.mem_range.1 hk)) (abs_nonneg _)
  have hcomb := hN.comb Q z i hi hzl hl (by linarith)
  rw [hp.unique (hr.proj hQ hlen) hlen hi, combine_getD _ _ hi]
  have hnl : (normalised r).length = Q.length := by rw [normalised, List.length_map, hr.1]
  have hnk : ∀ k < Q.length, (normalised r).getD k 0 = r.getD k 0 / r.sum := fun k hk => by
    rw [List.getD_eq_getElem _ 0 (by rw [hnl]; exact hk), List.getD_eq_getElem _ 0 (by rw [hr.1]; exact hk)]
    simp [normalised]
  have hdiff : |(List.zipWith (fun q c => q.getD i 0 * c) Q z).sum -
      (List.zipWith (fun q c => q.getD i 0 * c) Q (normalised r)).sum| ≤ W * (3 * κ + 5 * g) := by
    rw [zipWith_sum_getD _ [] 0 _ _ hzl.symm, zipWith_sum_getD _ [] 0 _ _ hnl.symm, ← Finset.sum_sub_distrib]
    refine (Finset.abs_sum_le_sum_abs _ _).trans (le_trans ?_ (mul_le_mul_of_nonneg_left w1 (by linarith : 0 ≤ W)))
    rw [Finset.mul_sum]
    refine Finset.sum_le_sum fun k hk => ?_
    have hk := Finset.mem_range.1 hk
    rw [hnk k hk, ← mul_sub, abs_mul]
    exact mul_le_mul_of_nonneg_right (hq k hk) (abs_nonneg _)
  have hsmall : g * (List.zipWith (fun q c => |q.getD i 0 * c|) Q z).sum + u ≤ g * (W * 2) + g * W := by
    have h1 := mul_le_mul_of_nonneg_left hsum hg0
    have h2 : u ≤ (n + 1) * u := le_mul_of_one_le_left hN.abs_nonneg (by have := n.cast_nonneg (α := ℚ); linarith)
    have h3 : g ≤ g * W := le_mul_of_one_le_right hg0 hW
    linarith
  have := abs_sub_le ((N.comb n Q z).getD i 0) (List.zipWith (fun q c => q.getD i 0 * c) Q z).sum
    (List.zipWith (fun q c => q.getD i 0 * c) Q (normalised r)).sum
  linarith

/-- A solver that returns the entries of a solution, limited and rounded. -/
theorem solvesClosely_of_rounded {fl : ℚ → ℚ} {v M K W : ℚ} {n : ℕ} {solve : List (List ℚ) → List ℚ} (hfl : Rounds fl v M)
    (hv0 : 0 < v) (hvM : v ≤ M) (hK : 1 ≤ K) (hW : (n + 1) * v * (1 + n * W ^ 2) ≤ 1)
    (hs : ∀ Q : List (List ℚ), Q ≠ [] → (∀ q ∈ Q, q.length = n) →
      ∃ r, Solves n Q r ∧ solve Q = r.map fun a => fl (max (-K) (min K a))) :
    SolvesClosely solve (2 * v) W n := by
  intro Q hQ hint hl hsame
  have hlen : ∀ q ∈ Q, q.length = n := fun q hq => (hint q hq).1
  obtain ⟨r, hr, he⟩ := hs Q hQ hlen
  refine ⟨r, hr, ?_⟩
  have hS0 := hr.sum_pos hQ hlen
  have hz : fl 0 = 0 := by
    have := hfl.int 0 (by simpa using zero_le_one.trans hfl.one_le)
    simpa using this
  have hr0 : ∀ b ∈ r, 0 < b := by
    by_contra hc
    push Not at hc
    obtain ⟨b, hb, hb0⟩ := hc
    have hneg : fl (max (-K) (min K b)) ≤ 0 := by
      rw [← hz]
      exact hfl.mono (max_le (by linarith) ((min_le_right _ _).trans hb0))
    have hall : ∀ a ∈ r, a ≤ 0 := fun a ha => by
      by_contra hc
      have h1 : 0 ≤ fl (max (-K) (min K a)) := by
        rw [← hz]
        exact hfl.mono ((le_min (by linarith) (not_le.1 hc).le).trans (le_max_right _ _))
      have h2 := hsame _ (by rw [he]; exact List.mem_map_of_mem ha) _ (by rw [he]; exact List.mem_map_of_mem hb)
      nlinarith
    have : r.sum ≤ 0 := by
      rw [list_sum_getD]
      refine Finset.sum_nonpos fun k hk => hall _ ?_
      rw [List.getD_eq_getElem _ 0 (Finset.mem_range.1 hk)]
      exact List.getElem_mem _
    linarith
  have hS1 : r.sum ≤ 1 := by
    have h1 := hr.dot_self hlen
    have h2 : 0 ≤ dot (combine n Q r) (combine n Q r) := by
      rw [dot_eq _ _ n (combine_length _ _ _) (combine_length _ _ _)]
      exact Finset.sum_nonneg fun i _ => mul_self_nonneg _
    nlinarith
  have hSW : 1 ≤ r.sum * (1 + n * W ^ 2) := by
    have h1 := hr.dot_self hlen
    have h2 : dot (combine n Q r) (combine n Q r) ≤ n * (W * r.sum) ^ 2 := by
      rw [dot_eq _ _ n (combine_length _ _ _) (combine_length _ _ _)]
      refine (Finset.sum_le_card_nsmul _ _ ((W * r.sum) ^ 2) fun i hi => ?_).trans
        (by rw [Finset.card_range, nsmul_eq_mul])
      have hi := Finset.mem_range.1 hi
      rw [← sq]
      refine sq_le_sq' ?_ ?_ <;>
      · have : |(combine n Q r).getD i 0| ≤ W * r.sum := by
          rw [combine_getD _ _ hi, zipWith_sum_getD _ [] 0 _ _ hr.1.symm, list_sum_getD r, Finset.mul_sum, hr.1]
          refine (Finset.abs_sum_le_sum_abs _ _).trans (Finset.sum_le_sum fun k hk => ?_)
          have hk := Finset.mem_range.1 hk
          have hrk : r.getD k 0 ∈ r := by
            rw [List.getD_eq_getElem _ 0 (by rw [hr.1]; exact hk)]
            exact List.getElem_mem _
          rw [abs_mul, abs_of_pos (hr0 _ hrk)]
          refine mul_le_mul_of_nonneg_right ?_ (hr0 _ hrk).le
          rw [List.getD_eq_getElem _ _ hk]
          exact ((hint _ (List.getElem_mem _)).2 i hi).2
        have := abs_le.1 this
        linarith [this.1, this.2]
    rw [h1] at h2
    have h3 : (1 - r.sum) * r.sum ≤ n * W ^ 2 * r.sum * r.sum := by
      refine h2.trans (le_of_eq ?_)
      ring
    have h4 := le_of_mul_le_mul_right h3 hS0
    linarith
  have hn0 : (0 : ℚ) ≤ n := n.cast_nonneg
  have hmv : (Q.length : ℚ) * v ≤ r.sum := by
    have h1 : (Q.length : ℚ) * v ≤ (n + 1) * v := mul_le_mul_of_nonneg_right (by exact_mod_cast hl) hv0.le
    have h2 : (n + 1) * v * 1 ≤ (n + 1) * v * (r.sum * (1 + n * W ^ 2)) :=
      mul_le_mul_of_nonneg_left hSW (by positivity)
    have h3 : (n + 1) * v * (1 + n * W ^ 2) * r.sum ≤ 1 * r.sum := mul_le_mul_of_nonneg_right hW hS0.le
    have e : (n + 1) * v * (r.sum * (1 + n * W ^ 2)) = (n + 1) * v * (1 + n * W ^ 2) * r.sum := by ring
    linarith
  have hle : ∀ a ∈ r, a ≤ 1 := fun a ha =>
    (List.single_le_sum (fun b hb => (hr0 b hb).le) a ha).trans hS1
  have hv1 : ∀ a ∈ r, |fl (max (-K) (min K a)) - a| ≤ v * a + v * v := fun a ha => by
    have h1 := hr0 a ha
    have h2 := hle a ha
    rw [min_eq_right (by linarith), max_eq_right (by linarith)]
    have h3 := hfl.rel' a (by
      rw [abs_of_pos h1]
      have : v * a ≤ v * 1 := mul_le_mul_of_nonneg_left h2 hv0.le
      linarith)
    rw [abs_of_pos h1] at h3
    refine h3.trans ?_
    rw [← mul_add]
    exact mul_le_mul_of_nonneg_left (max_le (by linarith) (by linarith)) hv0.le
  rw [he, zipWith_sum_getD _ 0 0 _ _ (by simp), List.length_map, hr.1]
  calc _ ≤ ∑ k ∈ Finset.range Q.length, (v * r.getD k 0 + v * v) := by
        refine Finset.sum_le_sum fun k hk => ?_
        have hk : k < r.length := by rw [hr.1]; exact Finset.mem_range.1 hk
        rw [List.getD_eq_getElem _ 0 (by simpa using hk), List.getD_eq_getElem _ 0 hk, List.getElem_map]
        exact hv1 _ (List.getElem_mem _)
    _ = v * r.sum + Q.length * v * v := by
        rw [Finset.sum_add_distrib, ← Finset.mul_sum, Finset.sum_const, Finset.card_range, nsmul_eq_mul, list_sum_getD r,
          hr.1]
        ring
    _ ≤ _ := by
        have := mul_le_mul_of_nonneg_right hmv hv0.le
        linarith

end PSP.Theory
