import Mathlib.Tactic.Linarith
import Mathlib.Tactic.Ring
import Mathlib.Tactic.FieldSimp
import Verif.Model.PMF

/-!
# `PMF::compute_lambda` solves `∑ min(a_i - λ, b_i) = target`
-/

namespace PSP.Theory

open PSP.Model

/-- `∑ min(a_i - λ, b_i)`. -/
def ySum (ps : List YPair) (lam : ℚ) : ℚ := (ps.map (yVal lam)).sum

theorem div_nonneg_of_nonpos' {a b : ℚ} (ha : a ≤ 0) (hb : b ≤ 0) : 0 ≤ a / b := by
  rw [← neg_div_neg_eq]
  exact div_nonneg (by linarith) (by linarith)

theorem yVal_anti {l m : ℚ} (h : l ≤ m) (p : YPair) : yVal m p ≤ yVal l p := by
  obtain ⟨a, b⟩ := p
  cases b with
  | none => simp only [yVal, minO]; linarith
  | some b => exact min_le_min (by simp only; linarith) le_rfl

/-- Once a value has decreased it keeps decreasing. -/
theorem yVal_strict {l m k : ℚ} (h : m < k) {p : YPair} (hp : yVal m p < yVal l p) :
    yVal k p < yVal m p := by
  obtain ⟨a, b⟩ := p
  cases b with
  | none => simp only [yVal, minO]; linarith
  | some b =>
    simp only [yVal, minO] at *
    have : a - m < b := by
      by_contra hc
      rw [min_eq_right (not_lt.1 hc)] at hp
      exact absurd (hp.trans_le (min_le_right _ _)) (lt_irrefl _)
    rw [min_eq_left this.le]
    exact (min_le_left _ _).trans_lt (by linarith)

theorem ySum_anti {l m : ℚ} (h : l ≤ m) (ps : List YPair) : ySum ps m ≤ ySum ps l := by
  unfold ySum
  induction ps with
  | nil => simp
  | cons p ps ih =>
    simp only [List.map_cons, List.sum_cons]
    exact add_le_add (yVal_anti h p) ih

theorem ySum_strict {l m k : ℚ} (hlm : l ≤ m) (h : m < k) {ps : List YPair}
    (hp : ySum ps m < ySum ps l) : ySum ps k < ySum ps m := by
  unfold ySum at *
  induction ps with
  | nil => simp at hp
  | cons p ps ih =>
    simp only [List.map_cons, List.sum_cons] at *
    have h1 := yVal_anti hlm p
    have h2 : ySum ps m ≤ ySum ps l := ySum_anti hlm ps
    have h3 := yVal_anti h.le p
    have h4 : ySum ps k ≤ ySum ps m := ySum_anti h.le ps
    unfold ySum at h2 h4
    rcases lt_or_eq_of_le h1 with h1 | h1
    · have := yVal_strict h h1; linarith
    · have := ih (by linarith); linarith

/-- The sum in terms of the turning points. -/
theorem ySum_eq (ps : List YPair) (lam : ℚ) :
    ySum ps lam = (ps.map fun p => p.2.getD p.1).sum - infinityCount ps * lam +
      ((turningPoints ps).map fun t => min (t - lam) 0).sum := by
  unfold ySum infinityCount turningPoints
  induction ps with
  | nil => simp
  | cons p ps ih =>
    obtain ⟨a, b⟩ := p
    cases b with
    | none =>
      simp only [List.map_cons, List.sum_cons, ih, List.countP_cons, Option.getD_none, yVal, minO,
        List.filterMap_cons, Option.map_none, Option.isNone_none, if_true]
      push_cast
      ring
    | some b =>
      simp only [List.map_cons, List.sum_cons, ih, List.countP_cons, Option.getD_some, yVal, minO,
        List.filterMap_cons, Option.map_some, Option.isNone_some]
      have : min (a - lam) b = b + min (a - b - lam) 0 := by
        rcases le_total (a - lam) b with h | h
        · rw [min_eq_left h, min_eq_left (by linarith)]; ring
        · rw [min_eq_right h, min_eq_right (by linarith)]; ring
      rw [this]
      simp
      ring

theorem infinityCount_length {ps : List YPair} (h : turningPoints ps = []) :
    infinityCount ps = ps.length ∧ (ps.map fun p => p.2.getD p.1) = ps.map Prod.fst := by
  induction ps with
  | nil => simp [infinityCount]
  | cons p ps ih =>
    obtain ⟨a, b⟩ := p
    cases b with
    | none =>
      have h' : turningPoints ps = [] := by simpa [turningPoints] using h
      have := ih h'
      simp only [infinityCount] at *
      simp [this.1]
      simpa using this.2
    | some b => simp [turningPoints] at h

theorem sum_min_split {pre rem : List ℚ} {l : ℚ} (h1 : ∀ t ∈ pre, t ≤ l) (h2 : ∀ t ∈ rem, l ≤ t) :
    ((pre ++ rem).map fun t => min (t - l) 0).sum = pre.sum - pre.length * l := by
  rw [List.map_append, List.sum_append]
  have e2 : (rem.map fun t => min (t - l) 0).sum = 0 := by
    apply List.sum_eq_zero
    intro y hy
    rw [List.mem_map] at hy
    obtain ⟨t, ht, rfl⟩ := hy
    exact min_eq_right (by have := h2 t ht; linarith)
  rw [e2, add_zero]
  clear e2
  induction pre with
  | nil => simp
  | cons t pre ih =>
    have := ih fun s hs => h1 s (List.mem_cons_of_mem _ hs)
    simp only [List.map_cons, List.sum_cons, this, List.length_cons]
    rw [min_eq_left (by have := h1 t List.mem_cons_self; linarith)]
    push_cast
    ring

/-- Between turning points the sum is linear. -/
theorem ySum_linear {ps : List YPair} {pre rem : List ℚ} (hp : (turningPoints ps).Perm (pre ++ rem))
    {l m : ℚ} (hlm : l ≤ m) (h1 : ∀ t ∈ pre, t ≤ l) (h2 : ∀ t ∈ rem, m ≤ t) :
    ySum ps m = ySum ps l - (infinityCount ps + pre.length) * (m - l) := by
  rw [ySum_eq, ySum_eq, (hp.map _).sum_eq, (hp.map fun t => min (t - l) 0).sum_eq,
    sum_min_split (fun t ht => (h1 t ht).trans hlm) h2, sum_min_split h1
    (fun t ht => hlm.trans (h2 t ht))]
  ring

theorem lambdaLoop_spec {ps : List YPair} {target : ℚ} (rem : List ℚ) :
    ∀ (pre : List ℚ) (last sum : ℚ), (turningPoints ps).Perm (pre ++ rem) →
    (pre ++ rem) ≠ [] →
    rem.Pairwise (· ≤ ·) → (∀ t ∈ pre, t ≤ last) → (∀ t ∈ rem, last ≤ t) → sum = ySum ps last →
    target < sum →
    ∃ lam, lambdaLoop target rem last (-(infinityCount ps + pre.length : ℤ)) sum = .ok lam ∧
      ySum ps lam = target := by
  induction rem with
  | nil =>
    intro pre last sum hp hne _ h1 _ hs ht
    have hpos : 0 < pre.length := List.length_pos_of_ne_nil (by simpa using hne)
    have hc : (0 : ℚ) < infinityCount ps + pre.length := by positivity
    unfold lambdaLoop divO
    rw [if_neg (by push_cast; linarith)]
    refine ⟨_, rfl, ?_⟩
    push_cast
    have hge : last ≤ (target - sum) / -((infinityCount ps : ℚ) + pre.length) + last := by
      have : 0 ≤ (target - sum) / -((infinityCount ps : ℚ) + pre.length) :=
        div_nonneg_of_nonpos' (by linarith) (by linarith)
      linarith
    rw [ySum_linear hp hge h1 (by simp), ← hs]
    field_simp
    ring
  | cons tp tps ih =>
    intro pre last sum hp hne hsort h1 h2 hs ht
    have hlast : last ≤ tp := h2 tp List.mem_cons_self
    have hrem : ∀ t ∈ tp :: tps, tp ≤ t := by
      intro t ht'
      rcases List.mem_cons.1 ht' with rfl | ht'
      · exact le_rfl
      · exact (List.pairwise_cons.1 hsort).1 t ht'
    have hsum : ySum ps tp = sum - (infinityCount ps + pre.length) * (tp - last) := by
      rw [ySum_linear hp hlast h1 hrem, hs]
    have hsum' : sum + ((-(infinityCount ps + pre.length : ℤ) : ℤ) : ℚ) * (tp - last) =
        ySum ps tp := by
      rw [hsum]; push_cast; ring
    unfold lambdaLoop
    simp only [hsum']
    split
    · rename_i hle
      have hc0 : (0 : ℚ) ≤ infinityCount ps + pre.length := by positivity
      have hc : (0 : ℚ) < infinityCount ps + pre.length := by
        rcases lt_or_eq_of_le hc0 with h | h
        · exact h
        · rw [← h] at hsum; linarith
      unfold divO
      rw [if_neg (by push_cast; linarith)]
      refine ⟨_, rfl, ?_⟩
      push_cast
      have e : (target - ySum ps tp) / -((infinityCount ps : ℚ) + pre.length) + tp =
          last + (sum - target) / (infinityCount ps + pre.length) := by
        rw [hsum]; field_simp; ring
      have hge : last ≤ last + (sum - target) / (infinityCount ps + pre.length) := by
        have : 0 ≤ (sum - target) / ((infinityCount ps : ℚ) + pre.length) :=
          div_nonneg (by linarith) hc.le
        linarith
      have hle' : last + (sum - target) / (infinityCount ps + pre.length) ≤ tp := by
        rw [← e]
        have : (target - ySum ps tp) / -((infinityCount ps : ℚ) + pre.length) ≤ 0 :=
          div_nonpos_of_nonneg_of_nonpos (by linarith) (by linarith)
        linarith
      rw [e, ySum_linear hp hge h1 (fun t ht' => hle'.trans (hrem t ht')), ← hs]
      field_simp
      ring
    · rename_i hgt
      have := ih (pre ++ [tp]) tp (ySum ps tp) (by simpa using hp) (by simp)
        (List.pairwise_cons.1 hsort).2 (by
          intro t ht'
          rcases List.mem_append.1 ht' with ht' | ht'
          · exact (h1 t ht').trans hlast
          · rw [List.mem_singleton.1 ht']) (fun t ht' => hrem t (List.mem_cons_of_mem _ ht')) rfl
        (not_le.1 hgt)
      obtain ⟨lam, h, h'⟩ := this
      refine ⟨lam, ?_, h'⟩
      rw [← h]
      congr 1
      simp
      ring

/-- Everything `compute_lambda` can do on a nonempty list: it returns an exact solution, or the
smallest turning point where the equation holds up to the tolerance, or it reports that there is no
solution, and then there is none, not even up to the tolerance. -/
theorem computeLambda_spec {ε : ℚ} (hε : 0 ≤ ε) {ps : List YPair} (hne : ps ≠ []) (target : ℚ) :
    (∃ lam, computeLambda ε ps target = .ok lam ∧
      (ySum ps lam = target ∨
        ((∃ p ∈ ps, ∃ b, p.2 = some b ∧ lam = p.1 - b) ∧ |ySum ps lam - target| ≤ ε))) ∨
    (computeLambda ε ps target = .exc "no solution" ∧ ∀ lam, ySum ps lam < target - ε) := by
  unfold computeLambda
  have hperm := List.perm_insertionSort (· ≤ ·) (turningPoints ps)
  have hsorted := List.pairwise_insertionSort (· ≤ ·) (turningPoints ps)
  split
  · rename_i heq
    rw [heq] at hperm
    have h0 : turningPoints ps = [] := hperm.symm.eq_nil
    have hlen : (0 : ℚ) < ps.length := by exact_mod_cast List.length_pos_of_ne_nil hne
    left
    unfold divO
    rw [if_neg (by linarith)]
    refine ⟨_, rfl, Or.inl ?_⟩
    obtain ⟨hi, hm⟩ := infinityCount_length h0
    rw [ySum_eq, h0, hi, hm]
    simp
    field_simp
    ring
  · rename_i t0 tps heq
    rw [heq] at hperm hsorted
    have hmin : ∀ t ∈ t0 :: tps, t0 ≤ t := by
      intro t ht
      rcases List.mem_cons.1 ht with rfl | ht
      · exact le_rfl
      · exact (List.pairwise_cons.1 hsorted).1 t ht
    have hS : (ps.map (yVal t0)).sum = ySum ps t0 := rfl
    have hlow : ∀ l ≤ t0, ySum ps l = (ps.map fun p => p.2.getD p.1).sum - infinityCount ps * l := by
      intro l hl
      rw [ySum_eq, (hperm.symm.map _).sum_eq]
      have := sum_min_split (pre := []) (rem := t0 :: tps) (l := l) (by simp)
        (fun t ht => hl.trans (hmin t ht))
      simp only [List.nil_append] at this
      rw [this]
      simp
    dsimp only
    rw [hS]
    have h0 := hlow t0 le_rfl
    by_cases hl : tolLess ε (ySum ps t0) target = true
    · rw [if_pos hl]
      have hl' : ySum ps t0 < target - ε := by
        unfold tolLess at hl; have := of_decide_eq_true hl; linarith
      by_cases hz : -(infinityCount ps : ℤ) = 0
      · rw [if_pos hz]
        right
        refine ⟨rfl, fun lam => ?_⟩
        have hz' : (infinityCount ps : ℚ) = 0 := by exact_mod_cast neg_eq_zero.1 hz
        rcases le_total lam t0 with h | h
        · rw [hlow lam h, hz']; rw [h0, hz'] at hl'; linarith
        · exact (ySum_anti h ps).trans_lt hl'
      · rw [if_neg hz]
        left
        have hz' : (infinityCount ps : ℚ) ≠ 0 := fun h => hz (by
          rw [neg_eq_zero]; exact_mod_cast h)
        have hpos : (0 : ℚ) < infinityCount ps := lt_of_le_of_ne (by positivity) (Ne.symm hz')
        unfold divO
        rw [if_neg (by push_cast; simpa using hz')]
        refine ⟨_, rfl, Or.inl ?_⟩
        rw [hlow]
        · push_cast; field_simp; ring
        · push_cast
          rw [div_neg, neg_le, le_div_iff₀ hpos]
          nlinarith
    · rw [if_neg hl]
      have hl' : target - ε ≤ ySum ps t0 := by
        unfold tolLess at hl; simp only [decide_eq_true_eq, not_lt] at hl; linarith
      left
      by_cases hd : tolDifferent ε target (ySum ps t0) = true
      · rw [if_neg (by simpa using hd)]
        have ht : target < ySum ps t0 := by
          unfold tolDifferent at hd
          rcases lt_or_ge target (ySum ps t0) with h | h
          · exact h
          · exfalso
            unfold tolLess at *
            simp at hl hd
            rcases hd with hd | hd <;> linarith
        obtain ⟨lam, h, h'⟩ := lambdaLoop_spec (ps := ps) (target := target) (t0 :: tps) [] t0 _
          hperm.symm (by simp) hsorted (by simp) hmin rfl ht
        refine ⟨lam, ?_, Or.inl h'⟩
        rw [← h]
        simp
      · rw [if_pos (by simpa using hd)]
        refine ⟨t0, rfl, Or.inr ⟨?_, ?_⟩⟩
        · have : t0 ∈ turningPoints ps := hperm.mem_iff.1 List.mem_cons_self
          unfold turningPoints at this
          rw [List.mem_filterMap] at this
          obtain ⟨p, hp, h⟩ := this
          rw [Option.map_eq_some_iff] at h
          obtain ⟨b, hb, h⟩ := h
          exact ⟨p, hp, b, hb, h.symm⟩
        · unfold tolDifferent at hd
          rw [abs_le]
          unfold tolLess at *
          simp at hl hd
          constructor <;> linarith

end PSP.Theory
