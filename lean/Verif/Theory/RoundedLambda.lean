import Verif.Theory.Lambda
import Verif.Theory.Rounding
import Verif.Theory.ApproxMin
import Verif.Model.RoundedPDT

/-!
# `PMF::compute_lambda` with rounded arithmetic
-/

namespace PSP.Theory

open PSP.Spec PSP.Model

/-- Error of a rounding in terms of a magnitude `H`. -/
structure RErr (fl : ℚ → ℚ) (r H : ℚ) : Prop where
  nonneg : 0 ≤ r
  small : 200 * r ≤ H
  zero : fl 0 = 0
  errK : ∀ c x : ℚ, |x| ≤ c * H → 1 ≤ c → c * r ≤ H → |fl x - x| ≤ c * r
  mono : Monotone fl

theorem Rounds.rerr {fl : ℚ → ℚ} {u M H : ℚ} (h : Rounds fl u M) (hu : 200 * u ≤ 1) (hH : 1 ≤ H) (hM : H ≤ M) :
    RErr fl (u * H) H where
  nonneg := mul_nonneg h.nonneg (by linarith)
  small := by nlinarith
  zero := h.zero
  errK c x hx hc hcr := by
    have e : u * (c * H) = c * (u * H) := by ring
    rw [← e]
    refine h.err hx ?_ ?_
    · have : 1 * 1 ≤ c * H := mul_le_mul hc hH zero_le_one (by linarith)
      linarith [h.nonneg]
    · rw [e]; linarith
  mono := h.mono

variable {fl : ℚ → ℚ} {r H ε : ℚ}

theorem RErr.err (h : RErr fl r H) (c x : ℚ) (hx : |x| ≤ c * H) (h1 : 1 ≤ c := by norm_num)
    (h2 : c ≤ 200 := by norm_num) : |fl x - x| ≤ c * r :=
  h.errK c x hx h1 ((mul_le_mul_of_nonneg_right h2 h.nonneg).trans h.small)

/-- Error of a sum all of whose partial sums are at most `N H`. -/
theorem RErr.flSum_err (h : RErr fl r H) {N : ℚ} (hN : 1 ≤ N) (hNH : N * r ≤ H) (l : List ℚ) : ∀ s,
    |s| + (l.map abs).sum + l.length * (N * r) ≤ N * H →
    |flSum fl s l - (s + l.sum)| ≤ l.length * (N * r) := by
  have hr := h.nonneg
  have hNr : 0 ≤ N * r := mul_nonneg (by linarith) hr
  induction l with
  | nil => intro s _; simp [flSum]
  | cons x l ih =>
    intro s hs
    simp only [List.map_cons, List.sum_cons, List.length_cons] at hs ⊢
    push_cast at hs ⊢
    have hA : 0 ≤ (l.map abs).sum := List.sum_nonneg (by
      intro y hy; obtain ⟨z, _, rfl⟩ := List.mem_map.1 hy; exact abs_nonneg z)
    have hl : (0 : ℚ) ≤ l.length * (N * r) := by positivity
    have h4 := abs_add_le s x
    have h1 := h.errK N (s + x) (by linarith) hN hNH
    have h2 : |fl (s + x)| ≤ |s| + |x| + N * r := by
      have := abs_add_le (fl (s + x) - (s + x)) (s + x)
      rw [sub_add_cancel] at this
      linarith
    have h3 := ih (fl (s + x)) (by linarith)
    have e : flSum fl s (x :: l) = flSum fl (fl (s + x)) l := rfl
    rw [e]
    rw [abs_le] at *
    constructor <;> linarith

theorem sum_abs_le {l : List ℚ} {c : ℚ} (h : ∀ x ∈ l, |x| ≤ c) : (l.map abs).sum ≤ l.length * c := by
  induction l with
  | nil => simp
  | cons x l ih =>
    have h1 := h x (by simp)
    have h2 := ih fun y hy => h y (by simp [hy])
    simp only [List.map_cons, List.sum_cons, List.length_cons]
    push_cast
    linarith

theorem sum_diff_le {α : Type} (l : List α) {f g : α → ℚ} {c : ℚ} (h : ∀ x ∈ l, |f x - g x| ≤ c) :
    |(l.map f).sum - (l.map g).sum| ≤ l.length * c := by
  induction l with
  | nil => simp
  | cons x l ih =>
    have h1 := h x (by simp)
    have h2 := ih fun y hy => h y (by simp [hy])
    simp only [List.map_cons, List.sum_cons, List.length_cons]
    push_cast
    rw [abs_le] at *
    constructor <;> linarith

/-! ### the equation with the rounded turning points -/

/-- The pair with the rounded turning point. -/
def shiftP (fl : ℚ → ℚ) (p : YPair) : YPair := (p.1, p.2.map fun b => p.1 - fl (p.1 - b))

theorem turningPoints_shift (ps : List YPair) : turningPoints (ps.map (shiftP fl)) = turningPointsF fl ps := by
  unfold turningPoints turningPointsF
  rw [List.filterMap_map]
  congr 1
  funext p
  obtain ⟨a, b⟩ := p
  cases b <;> simp [shiftP]

theorem infinityCount_shift (ps : List YPair) : infinityCount (ps.map (shiftP fl)) = infinityCount ps := by
  unfold infinityCount
  rw [List.countP_map]
  congr 1
  funext p
  obtain ⟨a, b⟩ := p
  cases b <;> simp [shiftP]

/-- The bounds of the pairs. -/
def YBound (H : ℚ) (p : YPair) : Prop := |p.1| ≤ H ∧ ∀ b, p.2 = some b → |b| ≤ 4 * H

theorem min_diff_le {a b b' c : ℚ} (h : |b' - b| ≤ c) : |min a b' - min a b| ≤ c := by
  have h' := abs_le.1 h
  rw [abs_le]
  constructor
  · have : min a b ≤ min a b' + c := by
      rcases min_cases a b' with h1 | h1
      · rw [h1.1]; exact (min_le_left _ _).trans (by linarith)
      · rw [h1.1]; exact (min_le_right _ _).trans (by linarith)
    linarith
  · have : min a b' ≤ min a b + c := by
      rcases min_cases a b with h1 | h1
      · rw [h1.1]; exact (min_le_left _ _).trans (by linarith)
      · rw [h1.1]; exact (min_le_right _ _).trans (by linarith)
    linarith

theorem yVal_shift (h : RErr fl r H) {p : YPair} (hp : YBound H p) (l : ℚ) :
    |yVal l (shiftP fl p) - yVal l p| ≤ 5 * r := by
  have hr := h.nonneg
  obtain ⟨a, b⟩ := p
  cases b with
  | none => simpa [shiftP, yVal, minO] using hr
  | some b =>
    have h1 : |a| ≤ H := hp.1
    have h2 : |b| ≤ 4 * H := hp.2 b rfl
    have h3 := h.err 5 (a - b) (by have := abs_sub a b; linarith)
    simp only [shiftP, yVal, minO, Option.map_some]
    apply min_diff_le
    have : a - fl (a - b) - b = -(fl (a - b) - (a - b)) := by ring
    rw [this, abs_neg]
    exact h3

theorem ySum_shift (h : RErr fl r H) {ps : List YPair} (hps : ∀ p ∈ ps, YBound H p) (l : ℚ) :
    |ySum (ps.map (shiftP fl)) l - ySum ps l| ≤ ps.length * (5 * r) := by
  unfold ySum
  rw [List.map_map]
  exact sum_diff_le ps fun p hp => yVal_shift h (hps p hp) l

theorem turning_bound (h : RErr fl r H) (hrH : 5 * r ≤ H) {ps : List YPair} (hps : ∀ p ∈ ps, YBound H p) :
    ∀ t ∈ turningPointsF fl ps, |t| ≤ 6 * H := by
  intro t ht
  unfold turningPointsF at ht
  rw [List.mem_filterMap] at ht
  obtain ⟨⟨a, b⟩, hp, h'⟩ := ht
  rw [Option.map_eq_some_iff] at h'
  obtain ⟨b, rfl, rfl⟩ := h'
  have h1 : |a| ≤ H := (hps _ hp).1
  have h2 : |b| ≤ 4 * H := (hps _ hp).2 b rfl
  have h3 := h.err 5 (a - b) (by have := abs_sub a b; linarith)
  have h4 := abs_sub a b
  have h5 := abs_add_le (fl (a - b) - (a - b)) (a - b)
  rw [sub_add_cancel] at h5
  linarith

theorem shift_bound (h : RErr fl r H) (hrH : 5 * r ≤ H) {p : YPair} (hp : YBound H p) :
    |(shiftP fl p).1| ≤ H ∧ ∀ b, (shiftP fl p).2 = some b → |b| ≤ 5 * H := by
  refine ⟨hp.1, fun b' hb' => ?_⟩
  obtain ⟨a, b⟩ := p
  cases b with
  | none => simp [shiftP] at hb'
  | some b =>
    simp only [shiftP, Option.map_some, Option.some.injEq] at hb'
    subst hb'
    have h1 : |a| ≤ H := hp.1
    have h2 : |b| ≤ 4 * H := hp.2 b rfl
    have h3 := h.err 5 (a - b) (by have := abs_sub a b; linarith)
    rw [abs_le] at *
    constructor <;> linarith

theorem yVal_abs {a : ℚ} {b : Option ℚ} {l c d : ℚ} (h1 : |a - l| ≤ c) (h2 : ∀ b', b = some b' → |b'| ≤ d) (hcd : d ≤ c) :
    |yVal l (a, b)| ≤ c := by
  cases b with
  | none => simpa [yVal, minO] using h1
  | some b =>
    have := h2 b rfl
    simp only [yVal, minO]
    rcases min_cases (a - l) b with h | h
    · rw [h.1]; exact h1
    · rw [h.1]; linarith

theorem ySum_abs (h : RErr fl r H) (hH : 0 ≤ H) (hrH : 5 * r ≤ H) {ps : List YPair} (hps : ∀ p ∈ ps, YBound H p) {l : ℚ}
    (hl : |l| ≤ 6 * H) : |ySum (ps.map (shiftP fl)) l| ≤ ps.length * (7 * H) := by
  have h1 : |ySum (ps.map (shiftP fl)) l - (ps.map fun _ => (0 : ℚ)).sum| ≤ ps.length * (7 * H) := by
    unfold ySum
    rw [List.map_map]
    refine sum_diff_le ps fun p hp => ?_
    have h2 := shift_bound h hrH (hps p hp)
    rw [sub_zero]
    have h3 := h2.1
    have h4 := abs_sub (shiftP fl p).1 l
    exact yVal_abs (a := (shiftP fl p).1) (b := (shiftP fl p).2) (d := 5 * H) (by linarith) h2.2 (by linarith)
  simpa using h1

theorem ySum_lip (ps : List YPair) {l m c : ℚ} (h : |l - m| ≤ c) : |ySum ps l - ySum ps m| ≤ ps.length * c := by
  unfold ySum
  refine sum_diff_le ps fun p _ => ?_
  have h' := abs_le.1 h
  rw [abs_le]
  rcases le_total l m with hlm | hlm
  · have h1 := yVal_anti hlm p
    have h2 := yVal_lip (c := c) hlm (by linarith) p
    constructor <;> linarith
  · have h1 := yVal_anti hlm p
    have h2 := yVal_lip (c := c) hlm (by linarith) p
    constructor <;> linarith

theorem count_turning (ps : List YPair) : infinityCount ps + (turningPoints ps).length = ps.length := by
  unfold infinityCount turningPoints
  induction ps with
  | nil => simp
  | cons p ps ih =>
    obtain ⟨a, b⟩ := p
    cases b with
    | none => simp only [List.countP_cons, List.filterMap_cons, List.length_cons]; simp; omega
    | some b => simp only [List.countP_cons, List.filterMap_cons, List.length_cons]; simp; omega

theorem div_close {a b c m : ℚ} (hm : 0 < m) (h : |a - b| ≤ c * m) : |a / -m + b / m| ≤ c := by
  have e : a / -m + b / m = -((a - b) / m) := by field_simp; ring
  rw [e, abs_neg, abs_div, abs_of_pos hm, div_le_iff₀ hm]
  exact h

/-! ### the loop -/

set_option maxHeartbeats 1000000 in
theorem lambdaLoopF_spec (h : RErr fl r H) {ps : List YPair} (hps : ∀ p ∈ ps, YBound H p) {target : ℚ}
    (htar : |target| ≤ H) {K : ℚ} (hK : K = ps.length) (hK1 : 1 ≤ K) (hbig : 200 * (K * K * r) ≤ H) (rem : List ℚ) :
    ∀ (pre : List ℚ) (last sum η : ℚ), (turningPoints (ps.map (shiftP fl))).Perm (pre ++ rem) →
    rem.Pairwise (· ≤ ·) → (∀ t ∈ pre, t ≤ last) → (∀ t ∈ rem, last ≤ t) → |last| ≤ 6 * H →
    |sum - ySum (ps.map (shiftP fl)) last| ≤ η → η + rem.length * (34 * (K * r)) ≤ 55 * (K * K * r) →
    target < sum →
    (infinityCount ps + pre.length = 0 → target + 9 * (K * r) < sum ∧ rem ≠ []) →
    ∃ lam, lambdaLoopF fl target rem last (-(infinityCount ps + pre.length : ℤ)) sum = .ok lam ∧
      |ySum (ps.map (shiftP fl)) lam - target| ≤ 137 * (K * K * r) := by
  have hr := h.nonneg
  have hKr : r ≤ K * r := by nlinarith
  have hKr0 : 0 ≤ K * r := by positivity
  have hKKr : K * r ≤ K * K * r := by nlinarith
  have hH : 0 ≤ H := (abs_nonneg _).trans htar
  have hKH : H ≤ K * H := by nlinarith
  have hlen : ((ps.map (shiftP fl)).length : ℚ) = K := by rw [List.length_map, hK]
  induction rem with
  | nil =>
    intro pre last sum η hp _ h1 _ hlast hs hη ht hz
    have hm : infinityCount ps + pre.length = ps.length := by
      have e1 := count_turning (ps.map (shiftP fl))
      rw [hp.length_eq, infinityCount_shift] at e1
      simpa using e1
    have hmq : (infinityCount ps : ℚ) + pre.length = K := by rw [hK]; exact_mod_cast hm
    have hKp : 0 < K := by linarith
    simp only [List.length_nil, Nat.cast_zero, zero_mul, add_zero] at hη
    unfold lambdaLoopF divO
    push_cast
    rw [hmq, if_neg (by linarith)]
    refine ⟨_, rfl, ?_⟩
    have hy := ySum_abs h hH (by linarith) hps hlast
    rw [← hK] at hy
    have hg : |target - sum| ≤ 9 * K * H := by
      rw [abs_le] at *
      constructor <;> nlinarith
    have hz := h.errK (9 * K) (target - sum) hg (by linarith) (by linarith)
    set z := fl (target - sum) with hzdef
    have hq : |z / -K + (target - sum) / K| ≤ 9 * r :=
      div_close hKp (by linarith)
    set w := (sum - target) / K with hw
    have hwK : K * w = sum - target := by rw [hw]; field_simp
    have hw0 : 0 ≤ w := div_nonneg (by linarith) hKp.le
    have hw9 : w ≤ 9 * H := by
      rw [hw, div_le_iff₀ hKp]
      have := (abs_le.1 hg).1
      linarith
    have hwe : (target - sum) / K = -w := by rw [hw]; ring
    rw [hwe] at hq
    set q := z / -K with hqdef
    have hq1 : |q| ≤ 10 * H := by
      rw [abs_le] at *
      constructor <;> linarith
    have hq2 := h.err 10 q hq1
    have hq3 := h.err 17 (fl q + last) (by
      rw [abs_le] at *
      constructor <;> linarith)
    set lam := fl (fl q + last)
    have hlam : |lam - (last + w)| ≤ 36 * r := by
      rw [abs_le] at *
      constructor <;> linarith
    have hlin := ySum_linear (ps := ps.map (shiftP fl)) hp (l := last) (m := last + w) (by linarith) h1 (by simp)
    rw [infinityCount_shift, hmq, add_sub_cancel_left, hwK] at hlin
    have hL := ySum_lip (ps.map (shiftP fl)) hlam
    rw [hlen, hlin] at hL
    rw [abs_le] at *
    constructor <;> nlinarith
  | cons tp tps ih =>
    intro pre last sum η hp hsort h1 h2 hlast hs hη ht hz
    have hltp : last ≤ tp := h2 tp List.mem_cons_self
    have hrem : ∀ t ∈ tp :: tps, tp ≤ t := by
      intro t ht'
      rcases List.mem_cons.1 ht' with rfl | ht'
      · exact le_rfl
      · exact (List.pairwise_cons.1 hsort).1 t ht'
    have htp : |tp| ≤ 6 * H := by
      have : tp ∈ turningPoints (ps.map (shiftP fl)) := hp.mem_iff.2 (by simp)
      rw [turningPoints_shift] at this
      exact turning_bound h (by linarith) hps tp this
    set m : ℚ := (infinityCount ps : ℚ) + pre.length with hm
    have hm0 : 0 ≤ m := by positivity
    have hmK : m ≤ K := by
      have e1 := count_turning (ps.map (shiftP fl))
      rw [hp.length_eq, infinityCount_shift, List.length_append, List.length_map] at e1
      rw [hm, hK]
      exact_mod_cast (by omega : infinityCount ps + pre.length ≤ ps.length)
    have hlin : ySum (ps.map (shiftP fl)) tp = ySum (ps.map (shiftP fl)) last - m * (tp - last) := by
      rw [ySum_linear hp hltp h1 hrem, infinityCount_shift]
    have hytp := ySum_abs h hH (by linarith) hps htp
    rw [← hK] at hytp
    set d := tp - last with hd
    have hd0 : 0 ≤ d := by linarith
    have hd12 : |d| ≤ 12 * H := by
      rw [abs_le] at *
      constructor <;> linarith
    have hx1 := h.err 12 d hd12
    have hcast : ((-(infinityCount ps + pre.length : ℤ) : ℤ) : ℚ) = -m := by push_cast; rw [hm]
    simp only [List.length_cons] at hη
    push_cast at hη
    have hη0 : 0 ≤ η := (abs_nonneg _).trans hs
    have hlenpos : (0 : ℚ) ≤ tps.length * (34 * (K * r)) := by positivity
    unfold lambdaLoopF
    simp only [hcast]
    set x1 := fl d with hx1def
    have hmx : |-m * x1| ≤ 13 * K * H := by
      have e1 : |x1| ≤ 13 * H := by
        rw [abs_le] at *
        constructor <;> linarith
      rw [abs_mul, abs_neg, abs_of_nonneg hm0]
      calc m * |x1| ≤ K * (13 * H) := mul_le_mul hmK e1 (abs_nonneg _) (by linarith)
        _ = 13 * K * H := by ring
    have hx2 := h.errK (13 * K) (-m * x1) hmx (by linarith) (by linarith)
    set x2 := fl (-m * x1) with hx2def
    have hmd : |m * x1 - m * d| ≤ 12 * (K * r) := by
      rw [← mul_sub, abs_mul, abs_of_nonneg hm0]
      calc m * |x1 - d| ≤ K * (12 * r) := mul_le_mul hmK hx1 (abs_nonneg _) (by linarith)
        _ = 12 * (K * r) := by ring
    have hx2' : |x2 + m * d| ≤ 25 * (K * r) := by
      rw [abs_le] at *
      constructor <;> linarith
    have hsx : |sum + x2| ≤ 9 * K * H := by
      rw [abs_le] at *
      constructor <;> linarith
    have hx3 := h.errK (9 * K) (sum + x2) hsx (by linarith) (by linarith)
    set x3 := fl (sum + x2) with hx3def
    have hx3' : |x3 - (sum - m * d)| ≤ 34 * (K * r) := by
      rw [abs_le] at *
      constructor <;> linarith
    have hx3y : |x3 - ySum (ps.map (shiftP fl)) tp| ≤ η + 34 * (K * r) := by
      rw [abs_le] at *
      constructor <;> linarith
    split
    · rename_i hle
      have hmpos : 0 < m := by
        rcases lt_or_eq_of_le hm0 with h' | h'
        · exact h'
        · exfalso
          have e0 : infinityCount ps + pre.length = 0 := by
            have : ((infinityCount ps + pre.length : ℕ) : ℚ) = 0 := by push_cast; rw [← hm]; exact h'.symm
            exact_mod_cast this
          have := (hz e0).1
          have e1 : x2 = 0 := by rw [hx2def, ← h']; simpa using h.zero
          rw [e1, add_zero] at hx3
          have := (abs_le.1 hx3).1
          linarith
      have hm1 : 1 ≤ m := by
        rw [hm] at hmpos ⊢
        exact_mod_cast (by exact_mod_cast hmpos : 0 < infinityCount ps + pre.length)
      unfold divO
      rw [if_neg (by linarith)]
      refine ⟨_, rfl, ?_⟩
      set g := target - x3 with hg
      have hg0 : 0 ≤ g := by linarith
      have hgle : g ≤ m * d + 34 * (K * r) := by
        have := (abs_le.1 hx3').1
        linarith
      have hd12' : d ≤ 12 * H := (abs_le.1 hd12).2
      have hmr : 34 * (K * r) ≤ m * H := by nlinarith
      have hgabs : |g| ≤ 13 * m * H := by
        rw [abs_of_nonneg hg0]
        have := mul_le_mul_of_nonneg_left hd12' hm0
        linarith
      have hz1 := h.errK (13 * m) g hgabs (by linarith) (by nlinarith)
      set z := fl g with hzdef
      have hq : |z / -m + g / m| ≤ 13 * r := div_close hmpos (by linarith)
      set w := g / m with hw
      have hwm : m * w = g := by rw [hw]; field_simp
      have hw0 : 0 ≤ w := div_nonneg hg0 hmpos.le
      have hw13 : w ≤ 13 * H := by
        rw [hw, div_le_iff₀ hmpos]
        have := (abs_le.1 hgabs).2
        linarith
      have hwd : w ≤ d + 34 * (K * r) := by
        rw [hw, div_le_iff₀ hmpos]
        nlinarith
      set q := z / -m with hqdef
      have hq1 : |q| ≤ 14 * H := by
        rw [abs_le] at *
        constructor <;> linarith
      have hq2 := h.err 14 q hq1
      have hq3 := h.err 21 (fl q + tp) (by
        rw [abs_le] at *
        constructor <;> linarith)
      set lam := fl (fl q + tp)
      have hlam : |lam - (tp - w)| ≤ 48 * r := by
        rw [abs_le] at *
        constructor <;> linarith
      set lm := max (tp - w) last with hlm
      have hlm1 : |lam - lm| ≤ 82 * (K * r) := by
        have e1 : tp - w ≤ lm := le_max_left _ _
        have e2 : lm ≤ tp - w + 34 * (K * r) := max_le (by linarith) (by linarith)
        rw [abs_le] at *
        constructor <;> linarith
      have hL := ySum_lip (ps.map (shiftP fl)) hlm1
      rw [hlen] at hL
      have hval : |ySum (ps.map (shiftP fl)) lm - target| ≤ η + 34 * (K * r) := by
        rcases le_total last (tp - w) with hc | hc
        · have e1 : lm = tp - w := max_eq_left hc
          have e2 := ySum_linear (ps := ps.map (shiftP fl)) hp hc h1 (fun t ht' => by
            have := hrem t ht'; linarith)
          rw [infinityCount_shift, ← hm] at e2
          rw [e1, e2]
          have e3 : m * (tp - w - last) = m * d - g := by rw [← hwm, hd]; ring
          rw [e3]
          rw [abs_le] at *
          constructor <;> linarith
        · have e1 : lm = last := max_eq_right hc
          have e2 : m * d ≤ g := by rw [← hwm]; exact mul_le_mul_of_nonneg_left (by linarith) hm0
          rw [e1]
          rw [abs_le] at *
          constructor <;> linarith
      have hfin : K * (82 * (K * r)) = 82 * (K * K * r) := by ring
      rw [hfin] at hL
      rw [abs_le] at *
      constructor <;> linarith
    · rename_i hgt
      have := ih (pre ++ [tp]) tp x3 (η + 34 * (K * r)) (by simpa using hp)
        (List.pairwise_cons.1 hsort).2 (by
          intro t ht'
          rcases List.mem_append.1 ht' with ht' | ht'
          · exact (h1 t ht').trans hltp
          · rw [List.mem_singleton.1 ht']) (fun t ht' => hrem t (List.mem_cons_of_mem _ ht')) htp
        hx3y (by linarith) (not_le.1 hgt) (by simp)
      obtain ⟨lam, h, h'⟩ := this
      refine ⟨lam, ?_, h'⟩
      rw [← h]
      congr 1
      simp
      ring

/-! ### the function -/

theorem yValF_err (h : RErr fl r H) {p : YPair} {l c : ℚ} (hc : |p.1 - l| ≤ c * H) (hc1 : 1 ≤ c := by norm_num)
    (hc2 : c ≤ 200 := by norm_num) :
    |yValF fl l p - yVal l p| ≤ c * r := by
  have h1 := h.err c _ hc hc1 hc2
  obtain ⟨a, b⟩ := p
  cases b with
  | none => exact h1
  | some b =>
    have := min_diff_le (a := b) h1
    rw [min_comm b, min_comm b] at this
    exact this

theorem turning_nil {ps : List YPair} (h : turningPointsF fl ps = []) : turningPoints ps = [] := by
  unfold turningPointsF at h
  unfold turningPoints
  rw [List.filterMap_eq_nil_iff] at *
  intro p hp
  have := h p hp
  rw [Option.map_eq_none_iff] at *
  exact this

set_option maxHeartbeats 1000000 in
/-- **`compute_lambda`** with rounded arithmetic solves the equation up to the tolerance and the rounding errors. -/
theorem computeLambdaF_spec (h : RErr fl r H) (hε : ε ≤ H) {ps : List YPair}
    (hps : ∀ p ∈ ps, YBound H p) (hne : ps ≠ []) {target δ : ℚ} (htar : |target| ≤ H) {K : ℚ} (hK : K = ps.length)
    (hbig : 200 * (K * K * r) ≤ ε) (hsol : ∃ l, target - δ ≤ ySum ps l) (hδ : δ + 36 * (K * K * r) ≤ ε) :
    ∃ lam, computeLambdaF fl ε ps target = .ok lam ∧ |ySum ps lam - target| ≤ ε + 142 * (K * K * r) := by
  have hr := h.nonneg
  have hK1 : 1 ≤ K := by rw [hK]; exact_mod_cast List.length_pos_of_ne_nil hne
  have hKp : 0 < K := by linarith
  have hKr : r ≤ K * r := by nlinarith
  have hKr0 : 0 ≤ K * r := by positivity
  have hKKr : K * r ≤ K * K * r := by nlinarith
  have hH : 0 ≤ H := (abs_nonneg _).trans htar
  have hKH : H ≤ K * H := by nlinarith
  have hε0 : 0 ≤ ε := by linarith
  have hlen : ((ps.map (shiftP fl)).length : ℚ) = K := by rw [List.length_map, hK]
  have hshift := fun l => ySum_shift h hps l
  rw [← hK] at hshift
  have e5 : K * (5 * r) = 5 * (K * r) := by ring
  rw [e5] at hshift
  unfold computeLambdaF
  have hperm := List.perm_insertionSort (· ≤ ·) (turningPointsF fl ps)
  have hsorted := List.pairwise_insertionSort (· ≤ ·) (turningPointsF fl ps)
  split
  · rename_i heq
    rw [heq] at hperm
    have h0 : turningPoints ps = [] := turning_nil hperm.symm.eq_nil
    unfold divO
    rw [← hK, if_neg (by linarith)]
    refine ⟨_, rfl, ?_⟩
    obtain ⟨hi, hm⟩ := infinityCount_length h0
    have hA := sum_abs_le (l := ps.map Prod.fst) (c := H) (by
      intro x hx
      obtain ⟨p, hp, rfl⟩ := List.mem_map.1 hx
      exact (hps p hp).1)
    have hS := h.flSum_err (N := 3 * K) (by linarith) (by linarith) (ps.map Prod.fst) (-target) (by
      rw [List.length_map, ← hK] at *
      rw [abs_neg]
      have : K * (3 * K * r) = 3 * (K * K * r) := by ring
      linarith)
    rw [List.length_map, ← hK] at hS hA
    set S := flSum fl (-target) (ps.map Prod.fst) with hSdef
    set A := (ps.map Prod.fst).sum with hAdef
    have hAabs : |A| ≤ K * H := by
      refine le_trans ?_ hA
      have := sum_diff_le (ps.map Prod.fst) (f := id) (g := fun _ => 0) (c := H) (by
        intro x hx
        obtain ⟨p, hp, rfl⟩ := List.mem_map.1 hx
        simpa using (hps p hp).1)
      have h2 : ∀ l : List ℚ, |l.sum| ≤ (l.map abs).sum := by
        intro l
        induction l with
        | nil => simp
        | cons x l ih =>
          simp only [List.sum_cons, List.map_cons]
          exact (abs_add_le _ _).trans (by linarith)
      exact h2 _
    have eS : K * (3 * K * r) = 3 * K * r * K := by ring
    have hqd : |S / K - (A - target) / K| ≤ 3 * K * r := by
      rw [← sub_div, abs_div, abs_of_pos hKp, div_le_iff₀ hKp, ← eS]
      have : S - (A - target) = S - (-target + A) := by ring
      rw [this]; exact hS
    set w := (A - target) / K with hw
    have hwK : K * w = A - target := by rw [hw]; field_simp
    have hw2 : |w| ≤ 2 * H := by
      rw [hw, abs_div, abs_of_pos hKp, div_le_iff₀ hKp]
      have := abs_sub A target
      linarith
    have hq1 : |S / K| ≤ 3 * H := by
      rw [abs_le] at *
      constructor <;> linarith
    have hq2 := h.err 3 (S / K) hq1
    have hlam : |fl (S / K) - w| ≤ 6 * (K * r) := by
      rw [abs_le] at *
      constructor <;> linarith
    have hL := ySum_lip ps hlam
    have hyw : ySum ps w = target := by
      rw [ySum_eq, h0, hi, hm, ← hK, ← hAdef, hwK]
      simp
    rw [hyw, ← hK] at hL
    have e6 : K * (6 * (K * r)) = 6 * (K * K * r) := by ring
    rw [e6] at hL
    linarith
  · rename_i t0 tps heq
    rw [heq] at hperm hsorted
    have hmin : ∀ t ∈ t0 :: tps, t0 ≤ t := by
      intro t ht
      rcases List.mem_cons.1 ht with rfl | ht
      · exact le_rfl
      · exact (List.pairwise_cons.1 hsorted).1 t ht
    have ht0 : |t0| ≤ 6 * H := turning_bound h (by linarith) hps t0 (hperm.mem_iff.1 List.mem_cons_self)
    have hperm' : (turningPoints (ps.map (shiftP fl))).Perm (t0 :: tps) := by
      rw [turningPoints_shift]; exact hperm.symm
    have hlow : ∀ l ≤ t0, ySum (ps.map (shiftP fl)) l =
        ySum (ps.map (shiftP fl)) t0 + infinityCount ps * (t0 - l) := by
      intro l hl
      have := ySum_linear (pre := []) (rem := t0 :: tps) (by simpa using hperm') hl (by simp) hmin
      rw [this, infinityCount_shift]
      simp
    -- the rounded sum at the first turning point
    have hterm : ∀ p ∈ ps, |yValF fl t0 p - yVal t0 p| ≤ 7 * r := by
      intro p hp
      refine yValF_err h ?_
      have h1 := (hps p hp).1
      have h2 := abs_sub p.1 t0
      linarith
    have htermA : ∀ x ∈ ps.map (yValF fl t0), |x| ≤ 8 * H := by
      intro x hx
      obtain ⟨p, hp, rfl⟩ := List.mem_map.1 hx
      have h1 := hterm p hp
      have h2 := (hps p hp).1
      have h3 := abs_sub p.1 t0
      have h4 := yVal_abs (a := p.1) (b := p.2) (l := t0) (c := 7 * H) (d := 4 * H) (by linarith) (hps p hp).2
        (by linarith)
      have h5 : |yVal t0 p| ≤ 7 * H := h4
      rw [abs_le] at *
      constructor <;> linarith
    have hA := sum_abs_le htermA
    have hS := h.flSum_err (N := 9 * K) (by linarith) (by linarith) (ps.map (yValF fl t0)) 0 (by
      rw [List.length_map, ← hK] at *
      rw [abs_zero]
      have : K * (9 * K * r) = 9 * (K * K * r) := by ring
      linarith)
    have hD := sum_diff_le ps hterm
    rw [List.length_map, ← hK, zero_add] at hS
    rw [← hK] at hD
    have e7 : K * (7 * r) = 7 * (K * r) := by ring
    have e9 : K * (9 * K * r) = 9 * (K * K * r) := by ring
    rw [e7] at hD
    rw [e9] at hS
    have hsum : |flSum fl 0 (ps.map (yValF fl t0)) - ySum ps t0| ≤ 16 * (K * K * r) := by
      unfold ySum
      rw [abs_le] at *
      constructor <;> linarith
    have hy := ySum_abs h hH (by linarith) hps ht0
    rw [← hK] at hy
    have hsh0 := hshift t0
    dsimp only
    set sum := flSum fl 0 (ps.map (yValF fl t0)) with hsumdef
    have hsum' : |sum - ySum (ps.map (shiftP fl)) t0| ≤ 21 * (K * K * r) := by
      rw [abs_le] at *
      constructor <;> linarith
    have hsumabs : |sum + ε| ≤ 10 * K * H := by
      rw [abs_le] at *
      constructor <;> linarith
    have hse := h.errK (10 * K) _ hsumabs (by linarith) (by linarith)
    have hte := h.err 2 (target + ε) (by
      rw [abs_le] at *
      constructor <;> linarith)
    by_cases hl : tolLessF fl ε sum target = true
    · rw [if_pos hl]
      have hl' : fl (sum + ε) < target := by
        unfold tolLessF at hl; exact of_decide_eq_true hl
      have hl2 : ySum (ps.map (shiftP fl)) t0 < target - ε + 31 * (K * K * r) := by
        rw [abs_le] at *
        linarith
      by_cases hz : -(infinityCount ps : ℤ) = 0
      · exfalso
        have hz' : (infinityCount ps : ℚ) = 0 := by exact_mod_cast neg_eq_zero.1 hz
        obtain ⟨l, hl0⟩ := hsol
        have h1 : ySum (ps.map (shiftP fl)) l ≤ ySum (ps.map (shiftP fl)) t0 := by
          rcases le_total l t0 with hc | hc
          · rw [hlow l hc, hz']; simp
          · exact ySum_anti hc _
        have h2 := hshift l
        rw [abs_le] at *
        linarith
      · rw [if_neg hz]
        have hz' : infinityCount ps ≠ 0 := fun h => hz (by rw [h]; simp)
        have hm1 : (1 : ℚ) ≤ infinityCount ps := by exact_mod_cast Nat.one_le_iff_ne_zero.2 hz'
        set m : ℚ := (infinityCount ps : ℚ) with hm
        have hmp : 0 < m := by linarith
        have hmK : m ≤ K := by
          rw [hm, hK]
          exact_mod_cast List.countP_le_length
        unfold divO
        push_cast
        rw [← hm, if_neg (by linarith)]
        refine ⟨_, rfl, ?_⟩
        -- the rounded intercept
        have hI := h.flSum_err (N := 5 * K) (by linarith) (by linarith) (ps.map fun p => p.2.getD p.1) 0 (by
          have := sum_abs_le (l := ps.map fun p => p.2.getD p.1) (c := 4 * H) (by
            intro x hx
            obtain ⟨p, hp, rfl⟩ := List.mem_map.1 hx
            obtain ⟨a, b⟩ := p
            have hb := hps _ hp
            cases b with
            | none => have : |a| ≤ H := hb.1; simp only [Option.getD_none]; linarith
            | some b => exact hb.2 b rfl)
          rw [List.length_map, ← hK] at *
          rw [abs_zero]
          have e : K * (5 * K * r) = 5 * (K * K * r) := by ring
          linarith)
        rw [List.length_map, ← hK, zero_add] at hI
        have e5' : K * (5 * K * r) = 5 * (K * K * r) := by ring
        rw [e5'] at hI
        have hI' : |(ps.map fun p => p.2.getD p.1).sum - (ySum (ps.map (shiftP fl)) t0 + m * t0)| ≤ 5 * (K * r) := by
          have e1 := ySum_eq (ps.map (shiftP fl)) t0
          have e2 : ((turningPoints (ps.map (shiftP fl))).map fun t => min (t - t0) 0).sum = 0 := by
            rw [(hperm'.map _).sum_eq]
            have := sum_min_split (pre := []) (rem := t0 :: tps) (l := t0) (by simp) hmin
            simpa using this
          rw [e2, infinityCount_shift, ← hm, List.map_map] at e1
          have e3 := sum_diff_le ps (f := fun p : YPair => p.2.getD p.1)
            (g := (fun p : YPair => p.2.getD p.1) ∘ shiftP fl) (c := 5 * r) (by
              intro p hp
              obtain ⟨a, b⟩ := p
              have hb := hps _ hp
              cases b with
              | none => simp [shiftP, hr]
              | some b =>
                have h1 : |a| ≤ H := hb.1
                have h2 : |b| ≤ 4 * H := hb.2 b rfl
                have h3 := h.err 5 (a - b) (by have := abs_sub a b; linarith)
                simp only [shiftP, Option.map_some, Option.getD_some, Function.comp]
                rw [abs_le] at *
                constructor <;> linarith)
          rw [← hK, e5] at e3
          rw [abs_le] at *
          constructor <;> linarith
        set I := flSum fl 0 (ps.map fun p => p.2.getD p.1) with hIdef
        set Y := ySum (ps.map (shiftP fl)) t0 with hY
        have hmt : |m * t0| ≤ 6 * K * H := by
          rw [abs_mul, abs_of_pos hmp]
          calc m * |t0| ≤ K * (6 * H) := mul_le_mul hmK ht0 (abs_nonneg _) (by linarith)
            _ = 6 * K * H := by ring
        have hg : |target - I| ≤ 15 * K * H := by
          rw [abs_le] at *
          constructor <;> linarith
        have hz1 := h.errK (15 * K) (target - I) hg (by linarith) (by linarith)
        set z := fl (target - I) with hzdef
        have hzg : |z - (target - Y - m * t0)| ≤ 25 * (K * K * r) := by
          rw [abs_le] at *
          constructor <;> linarith
        set g := target - Y - m * t0 with hgdef
        have hq : |z / -m + g / m| ≤ 25 * (K * K * r) / m := div_close hmp (by
          rw [div_mul_cancel₀ _ hmp.ne']; exact hzg)
        set s := 25 * (K * K * r) / m with hs
        have hsm : m * s = 25 * (K * K * r) := by rw [hs]; field_simp
        have hs0 : 0 ≤ s := by rw [hs]; positivity
        have hs1 : s ≤ 25 * (K * K * r) := by rw [hs]; exact div_le_self (by positivity) hm1
        set w := g / m with hw
        have hwm : m * w = g := by rw [hw]; field_simp
        have hwabs : |w| ≤ 15 * K * H := by
          rw [hw, abs_div, abs_of_pos hmp, div_le_iff₀ hmp]
          have : 15 * K * H ≤ 15 * K * H * m := by
            have : 0 ≤ 15 * K * H := by positivity
            nlinarith
          rw [abs_le] at *
          constructor <;> linarith
        set q := z / -m with hqdef
        have hq1 : |q| ≤ 16 * K * H := by
          rw [abs_le] at *
          constructor <;> linarith
        have hq2 := h.errK (16 * K) q hq1 (by linarith) (by linarith)
        set lam := fl q with hlamdef
        have hlam : |lam - -w| ≤ s + 16 * (K * r) := by
          rw [abs_le] at *
          constructor <;> linarith
        have hms : m * (s + 16 * (K * r)) ≤ 41 * (K * K * r) := by
          have : m * (16 * (K * r)) ≤ 16 * (K * K * r) := by nlinarith
          linarith
        have hle : lam ≤ t0 := by
          by_contra hc
          push Not at hc
          have h1 := (abs_le.1 hlam).2
          have h2 : t0 < -w + (s + 16 * (K * r)) := by linarith
          have h3 := mul_lt_mul_of_pos_left h2 hmp
          have h4 : m * -w = -g := by rw [mul_neg, hwm]
          rw [mul_add, h4] at h3
          linarith
        have hv := hlow lam hle
        have hv2 : |ySum (ps.map (shiftP fl)) lam - target| ≤ 41 * (K * K * r) := by
          have h1 : ySum (ps.map (shiftP fl)) lam - target = -(m * (lam - -w)) := by
            rw [hv, mul_sub, mul_sub, mul_neg, hwm, hgdef]; ring
          rw [h1, abs_neg, abs_mul, abs_of_pos hmp]
          exact (mul_le_mul_of_nonneg_left hlam hmp.le).trans hms
        have h2 := hshift lam
        rw [abs_le] at *
        constructor <;> linarith
    · rw [if_neg hl]
      have hl' : target ≤ fl (sum + ε) := by
        unfold tolLessF at hl; simpa using hl
      by_cases hd : tolDifferentF fl ε target sum = true
      · rw [if_neg (by simpa using hd)]
        have hd' : fl (target + ε) < sum := by
          unfold tolDifferentF tolLessF at hd
          simp only [Bool.or_eq_true, decide_eq_true_eq] at hd
          rcases hd with hd | hd
          · exact hd
          · exact absurd hl' (not_le.2 hd)
        have hgt : target + ε - 2 * r < sum := by
          have := (abs_le.1 hte).1
          linarith
        have hlen' : ((t0 :: tps).length : ℚ) ≤ K := by
          rw [hK]
          have e1 := count_turning (ps.map (shiftP fl))
          rw [hperm'.length_eq, List.length_map] at e1
          exact_mod_cast (by omega : (t0 :: tps).length ≤ ps.length)
        obtain ⟨lam, h1, h2⟩ := lambdaLoopF_spec h hps htar hK hK1 (by linarith) (t0 :: tps) [] t0 sum
          (21 * (K * K * r)) (by simpa using hperm') hsorted (by simp) hmin ht0 hsum' (by
            have := mul_le_mul_of_nonneg_right hlen' (by positivity : (0 : ℚ) ≤ 34 * (K * r))
            nlinarith) (by linarith) (fun _ => ⟨by linarith, by simp⟩)
        refine ⟨lam, ?_, ?_⟩
        · rw [← h1]; simp
        · have h3 := hshift lam
          rw [abs_le] at *
          constructor <;> linarith
      · rw [if_pos (by simpa using hd)]
        refine ⟨t0, rfl, ?_⟩
        have hd' : sum ≤ fl (target + ε) := by
          unfold tolDifferentF tolLessF at hd
          simp only [Bool.or_eq_true, decide_eq_true_eq, not_or, not_lt] at hd
          exact hd.1
        rw [abs_le] at *
        constructor <;> linarith

end PSP.Theory
