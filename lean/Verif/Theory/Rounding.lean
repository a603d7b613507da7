import Mathlib.Data.Int.Log
import Mathlib.Algebra.Order.Round
import Mathlib.Data.Rat.Floor
import Mathlib.Tactic.Linarith
import Mathlib.Tactic.NormNum
import Mathlib.Tactic.Ring
import Mathlib.Tactic.Positivity
import Verif.Spec.Rounding
import Verif.Model.Rounded

/-!
# Facts about rounding
-/

namespace PSP.Theory

open PSP.Spec PSP.Model

/-- Relative error at most `u` for all numbers, integers up to `M` are exact, monotone. -/
structure RoundsRel (fl : ℚ → ℚ) (u M : ℚ) : Prop where
  nonneg : 0 ≤ u
  rel : ∀ x, |fl x - x| ≤ u * |x|
  int : ∀ k : ℤ, |(k : ℚ)| ≤ M → fl k = k
  mono : Monotone fl

/-- What the error analysis of most algorithms needs: relative error at most `u` for numbers between `u` and `M / u`, an
absolute error of at most `u ^ 2` for smaller ones, integers up to `M` are exact, monotone. -/
structure Rounds (fl : ℚ → ℚ) (u M : ℚ) : Prop where
  nonneg : 0 ≤ u
  one_le : 1 ≤ M
  rel' : ∀ x, u * |x| ≤ M → |fl x - x| ≤ u * max |x| u
  int : ∀ k : ℤ, |(k : ℚ)| ≤ M → fl k = k
  mono : Monotone fl

theorem RoundsToNearest.of_representable {p : ℕ} {fl : ℚ → ℚ} (h : RoundsToNearest p fl) {x : ℚ}
    (hx : Representable p x) : fl x = x := by
  have := (h x).2 x hx
  rw [sub_self, abs_zero] at this
  have := abs_eq_zero.1 (le_antisymm this (abs_nonneg _))
  linarith

/-- The nearest multiple of a power of two that is not too small. -/
theorem round_grid {p : ℕ} {x : ℚ} {k : ℤ} (h : |x| < 2 ^ (k + p)) :
    ∃ m : ℤ, |m| ≤ 2 ^ p ∧ |(m : ℚ) * 2 ^ k - x| ≤ 1 / 2 * 2 ^ k := by
  have h2p : (2 : ℚ) ≠ 0 := by norm_num
  set g : ℚ := 2 ^ k with hg
  have hgpos : 0 < g := zpow_pos (by norm_num) _
  have hgp : g * 2 ^ p = 2 ^ (k + p) := by
    rw [hg, ← zpow_natCast (2 : ℚ) p, ← zpow_add₀ h2p]
  have hr := abs_sub_round (x / g)
  refine ⟨round (x / g), ?_, ?_⟩
  · have hlt : |x / g| < 2 ^ p := by
      rw [abs_div, abs_of_pos hgpos, div_lt_iff₀ hgpos, mul_comm, hgp]; exact h
    have h3 : (x / g) < 2 ^ p := (abs_lt.1 hlt).2
    have h4 : -(2 ^ p) < x / g := (abs_lt.1 hlt).1
    have h5 := abs_le.1 hr
    rw [abs_le]
    constructor
    · have : (((-(2 ^ p) - 1 : ℤ)) : ℚ) < (round (x / g) : ℤ) := by push_cast; linarith
      have : -(2 ^ p) - 1 < round (x / g) := by exact_mod_cast this
      omega
    · have : ((round (x / g) : ℤ) : ℚ) < ((2 ^ p + 1 : ℤ) : ℚ) := by push_cast; linarith
      have : round (x / g) < 2 ^ p + 1 := by exact_mod_cast this
      omega
  · have he : (round (x / g) : ℚ) * g - x = -((x / g - round (x / g)) * g) := by
      field_simp; ring
    rw [he, abs_neg, abs_mul, abs_of_pos hgpos]
    exact mul_le_mul_of_nonneg_right hr hgpos.le

/-- There is a number with `p` digits close to `x`. -/
theorem exists_representable (p : ℕ) (x : ℚ) : ∃ y, Representable p y ∧ |y - x| ≤ (2 ^ p)⁻¹ * |x| := by
  rcases eq_or_ne x 0 with rfl | hx
  · exact ⟨0, ⟨0, 0, by simp, by simp⟩, by simp⟩
  have hpos : 0 < |x| := abs_pos.2 hx
  set L := Int.log 2 |x| with hL
  have h1 : (2 : ℚ) ^ L ≤ |x| := by exact_mod_cast Int.zpow_log_le_self (by norm_num) hpos
  have h2 : |x| < (2 : ℚ) ^ (L + 1) := by exact_mod_cast Int.lt_zpow_succ_log_self (by norm_num : 1 < 2) |x|
  have h2p : (2 : ℚ) ≠ 0 := by norm_num
  obtain ⟨m, hm, hle⟩ := round_grid (p := p) (x := x) (k := L + 1 - p) (by rwa [sub_add_cancel])
  refine ⟨_, ⟨m, L + 1 - p, hm, rfl⟩, hle.trans ?_⟩
  have h7 : 1 / 2 * (2 : ℚ) ^ (L + 1 - p) = (2 ^ p)⁻¹ * 2 ^ L := by
    rw [zpow_sub₀ h2p, zpow_add_one₀ h2p, zpow_natCast]; field_simp
  rw [h7]
  exact mul_le_mul_of_nonneg_left h1 (by positivity)

/-- The same with a limit for the exponents. -/
theorem exists_representableFrom (p low : ℕ) (x : ℚ) :
    ∃ y, RepresentableFrom p low y ∧ |y - x| ≤ max ((2 ^ p)⁻¹ * |x|) (2 ^ low)⁻¹ := by
  rcases eq_or_ne x 0 with rfl | hx
  · exact ⟨0, ⟨0, 0, by simp, by simp, by simp⟩, by simp⟩
  have hpos : 0 < |x| := abs_pos.2 hx
  set L := Int.log 2 |x| with hL
  have h1 : (2 : ℚ) ^ L ≤ |x| := by exact_mod_cast Int.zpow_log_le_self (by norm_num) hpos
  have h2 : |x| < (2 : ℚ) ^ (L + 1) := by exact_mod_cast Int.lt_zpow_succ_log_self (by norm_num : 1 < 2) |x|
  have h2p : (2 : ℚ) ≠ 0 := by norm_num
  by_cases hlow : -(low : ℤ) ≤ L + 1 - p
  · obtain ⟨m, hm, hle⟩ := round_grid (p := p) (x := x) (k := L + 1 - p) (by rwa [sub_add_cancel])
    refine ⟨_, ⟨m, L + 1 - p, hm, hlow, rfl⟩, hle.trans (le_max_of_le_left ?_)⟩
    have h7 : 1 / 2 * (2 : ℚ) ^ (L + 1 - p) = (2 ^ p)⁻¹ * 2 ^ L := by
      rw [zpow_sub₀ h2p, zpow_add_one₀ h2p, zpow_natCast]; field_simp
    rw [h7]
    exact mul_le_mul_of_nonneg_left h1 (by positivity)
  · push Not at hlow
    obtain ⟨m, hm, hle⟩ := round_grid (p := p) (x := x) (k := -(low : ℤ))
      (h2.trans_le (zpow_le_zpow_right₀ (by norm_num) (by omega)))
    refine ⟨_, ⟨m, -(low : ℤ), hm, le_rfl, rfl⟩, hle.trans (le_max_of_le_right ?_)⟩
    rw [zpow_neg, zpow_natCast]
    have : (0 : ℚ) < (2 ^ low)⁻¹ := by positivity
    linarith

/-- Rounding to a nearest number is monotone. -/
theorem monotone_of_nearest {fl : ℚ → ℚ} {X : ℚ → Prop} (h : ∀ x, X (fl x) ∧ ∀ y, X y → |fl x - x| ≤ |y - x|) :
    Monotone fl := by
  intro x y hxy
  by_contra hlt
  push Not at hlt
  have h1 := (h x).2 _ (h y).1
  have h2 := (h y).2 _ (h x).1
  have h1' := sq_le_sq.2 h1
  have h2' := sq_le_sq.2 h2
  have e1 : fl x + fl y ≤ 2 * x := by nlinarith
  have e2 : 2 * y ≤ fl x + fl y := by nlinarith
  have : x = y := by linarith
  rw [this] at hlt
  exact lt_irrefl _ hlt

theorem RoundsToNearest.roundsRel {p : ℕ} {fl : ℚ → ℚ} (h : RoundsToNearest p fl) :
    RoundsRel fl (2 ^ p)⁻¹ (2 ^ p) where
  nonneg := by positivity
  rel x := by
    obtain ⟨y, hy, hle⟩ := exists_representable p x
    exact ((h x).2 y hy).trans hle
  int k hk := RoundsToNearest.of_representable h ⟨k, 0, by exact_mod_cast hk, by simp⟩
  mono := monotone_of_nearest h

namespace RoundsRel

variable {fl : ℚ → ℚ} {u M : ℚ}

theorem zero (h : RoundsRel fl u M) : fl 0 = 0 := by
  have := h.rel 0
  rw [abs_zero, mul_zero, sub_zero] at this
  exact abs_eq_zero.1 (le_antisymm this (abs_nonneg _))

theorem fl_nonneg (h : RoundsRel fl u M) {x : ℚ} (hx : 0 ≤ x) : 0 ≤ fl x := by
  rw [← h.zero]; exact h.mono hx

theorem abs_fl (h : RoundsRel fl u M) (x : ℚ) : |fl x| ≤ (1 + u) * |x| := by
  have h1 := h.rel x
  have h2 : |fl x| ≤ |fl x - x| + |x| := by
    have := abs_add_le (fl x - x) x
    rwa [sub_add_cancel] at this
  linarith

/-- Error of a sum. -/
theorem flSum_err (h : RoundsRel fl u M) (l : List ℚ) : ∀ s,
    |flSum fl s l - (s + l.sum)| ≤ ((1 + u) ^ l.length - 1) * (|s| + (l.map abs).sum) := by
  have hu := h.nonneg
  induction l with
  | nil => intro s; simp [flSum]
  | cons x l ih =>
    intro s
    have hA : 0 ≤ (l.map abs).sum := List.sum_nonneg (by
      intro y hy; obtain ⟨z, _, rfl⟩ := List.mem_map.1 hy; exact abs_nonneg z)
    have h1 := ih (fl (s + x))
    have h2 := h.rel (s + x)
    have h3 := h.abs_fl (s + x)
    have h4 := abs_add_le s x
    have hk : (1 : ℚ) ≤ (1 + u) ^ l.length := one_le_pow₀ (by linarith)
    have e : flSum fl s (x :: l) = flSum fl (fl (s + x)) l := rfl
    rw [e, List.sum_cons, List.map_cons, List.sum_cons, List.length_cons, pow_succ]
    have h5 : |flSum fl (fl (s + x)) l - (s + (x + l.sum))| ≤
        |flSum fl (fl (s + x)) l - (fl (s + x) + l.sum)| + |fl (s + x) - (s + x)| := by
      have := abs_add_le (flSum fl (fl (s + x)) l - (fl (s + x) + l.sum)) (fl (s + x) - (s + x))
      rw [show flSum fl (fl (s + x)) l - (s + (x + l.sum)) = flSum fl (fl (s + x)) l - (fl (s + x) + l.sum) +
        (fl (s + x) - (s + x)) by ring]
      exact this
    set K := (1 + u) ^ l.length
    set A := (l.map abs).sum
    have h6 : (K - 1) * (|fl (s + x)| + A) ≤ (K - 1) * ((1 + u) * (|s| + |x|) + A) := by
      apply mul_le_mul_of_nonneg_left _ (by linarith)
      have := mul_le_mul_of_nonneg_left h4 (by linarith : 0 ≤ 1 + u)
      linarith
    have h7 : u * |s + x| ≤ u * (|s| + |x|) := mul_le_mul_of_nonneg_left h4 hu
    have h8 : 0 ≤ K * u * A := by positivity
    nlinarith

theorem pow_le (hu : 0 ≤ u) : ∀ k : ℕ, 2 * k * u ≤ 1 → (1 + u) ^ k ≤ 1 + 2 * k * u := by
  intro k
  induction k with
  | zero => intro _; simp
  | succ k ih =>
    intro hk
    push_cast at hk ⊢
    have hk' : 2 * (k : ℚ) * u ≤ 1 := by linarith
    have h1 := ih hk'
    rw [pow_succ]
    have h2 : (1 + u) ^ k * (1 + u) ≤ (1 + 2 * k * u) * (1 + u) := mul_le_mul_of_nonneg_right h1 (by linarith)
    have h3 : 2 * (k : ℚ) * u * u ≤ 1 * u := mul_le_mul_of_nonneg_right hk' hu
    linarith

theorem flSum_err' (h : RoundsRel fl u M) {n : ℕ} (hn : 2 * n * u ≤ 1) {l : List ℚ} (hl : l.length ≤ n) {s B : ℚ}
    (hB : |s| + (l.map abs).sum ≤ B) : |flSum fl s l - (s + l.sum)| ≤ 2 * n * u * B := by
  have hu := h.nonneg
  have hl' : (l.length : ℚ) ≤ n := by exact_mod_cast hl
  have h1 : 2 * (l.length : ℚ) * u ≤ 2 * n * u := by nlinarith
  have hA : 0 ≤ |s| + (l.map abs).sum := add_nonneg (abs_nonneg _) (List.sum_nonneg (by
      intro y hy; obtain ⟨z, _, rfl⟩ := List.mem_map.1 hy; exact abs_nonneg z))
  refine (h.flSum_err l s).trans ?_
  have h2 := pow_le hu l.length (h1.trans hn)
  have hk : (1 : ℚ) ≤ (1 + u) ^ l.length := one_le_pow₀ (by linarith)
  calc _ ≤ (2 * n * u) * (|s| + (l.map abs).sum) := mul_le_mul_of_nonneg_right (by linarith) hA
    _ ≤ _ := mul_le_mul_of_nonneg_left hB (by positivity)

end RoundsRel

theorem RoundsRel.rounds {fl : ℚ → ℚ} {u M : ℚ} (h : RoundsRel fl u M) (hM : 1 ≤ M) : Rounds fl u M where
  nonneg := h.nonneg
  one_le := hM
  rel' x _ := (h.rel x).trans (mul_le_mul_of_nonneg_left (le_max_left _ _) h.nonneg)
  int := h.int
  mono := h.mono

theorem RoundsInRange.rounds {p low high : ℕ} {fl : ℚ → ℚ} (h : RoundsInRange p low high fl) (hl : 2 * p ≤ low)
    (hh : 2 * p ≤ high) : Rounds fl (2 ^ p)⁻¹ (2 ^ p) := by
  have h2 : (0 : ℚ) < 2 ^ p := by positivity
  have hone : (1 : ℚ) ≤ 2 ^ p := one_le_pow₀ (by norm_num)
  have htop : (2 : ℚ) ^ p * 2 ^ p ≤ 2 ^ high := by
    rw [← pow_add]
    exact pow_le_pow_right₀ (by norm_num) (by omega)
  refine ⟨by positivity, hone, fun x hx => ?_, fun k hk => ?_, h.1⟩
  · have hx' : |x| ≤ 2 ^ high := by
      rw [inv_mul_le_iff₀ h2] at hx
      exact hx.trans htop
    obtain ⟨y, hy, hle⟩ := exists_representableFrom p low x
    refine (((h.2 x hx').2 y hy).trans hle).trans ?_
    rw [mul_max_of_nonneg _ _ (by positivity : (0 : ℚ) ≤ (2 ^ p)⁻¹)]
    refine max_le_max le_rfl ?_
    rw [← mul_inv, ← pow_add]
    exact inv_anti₀ (by positivity) (pow_le_pow_right₀ (by norm_num) (by omega))
  · have hk' : |(k : ℚ)| ≤ 2 ^ high := hk.trans (le_trans (by nlinarith) htop)
    have := (h.2 k hk').2 k ⟨k, 0, by exact_mod_cast hk, by simp, by simp⟩
    rw [sub_self, abs_zero] at this
    have := abs_eq_zero.1 (le_antisymm this (abs_nonneg _))
    linarith

theorem FloatingPoint.rounds {p : ℕ} {fl : ℚ → ℚ} (h : FloatingPoint p fl) : Rounds fl (2 ^ p)⁻¹ (2 ^ p) := by
  rcases h with h | ⟨low, high, h1, h2, h⟩
  · exact (RoundsToNearest.roundsRel h).rounds (one_le_pow₀ (by norm_num))
  · exact RoundsInRange.rounds h h1 h2

namespace Rounds

variable {fl : ℚ → ℚ} {u M : ℚ}

theorem zero (h : Rounds fl u M) : fl 0 = 0 := by
  have := h.int 0 (by simpa using zero_le_one.trans h.one_le)
  simpa using this

theorem fl_nonneg (h : Rounds fl u M) {x : ℚ} (hx : 0 ≤ x) : 0 ≤ fl x := by
  rw [← h.zero]; exact h.mono hx

/-- The error in terms of a bound of the number. -/
theorem err (h : Rounds fl u M) {x K : ℚ} (hx : |x| ≤ K) (hK : u ≤ K) (hM : u * K ≤ M) : |fl x - x| ≤ u * K := by
  have h1 := mul_le_mul_of_nonneg_left hx h.nonneg
  exact (h.rel' x (h1.trans hM)).trans (mul_le_mul_of_nonneg_left (max_le hx hK) h.nonneg)

/-- The relative error of a number that is not too small. -/
theorem rel (h : Rounds fl u M) {x : ℚ} (hx : u ≤ |x|) (hM : u * |x| ≤ M) : |fl x - x| ≤ u * |x| :=
  h.err le_rfl hx hM

/-- Error of a sum. -/
theorem flSum_err (h : Rounds fl u M) {n : ℕ} {B : ℚ} (hn : 2 * n * u ≤ 1) (hB : u ≤ B) (hM : 2 * u * B ≤ M) (l : List ℚ) :
    ∀ s, l.length ≤ n → |s| + (l.map abs).sum ≤ B + (n - l.length) * (2 * u * B) →
      |flSum fl s l - (s + l.sum)| ≤ l.length * (2 * u * B) := by
  have hu := h.nonneg
  have hB0 : 0 ≤ B := hu.trans hB
  have huB : 0 ≤ 2 * u * B := by positivity
  induction l with
  | nil => intro s _ _; simp [flSum]
  | cons x l ih =>
    intro s hl hs
    rw [List.length_cons] at hl
    simp only [List.map_cons, List.sum_cons, List.length_cons] at hs ⊢
    push_cast at hs ⊢
    have hA : 0 ≤ (l.map abs).sum := List.sum_nonneg (by
      intro y hy; obtain ⟨z, _, rfl⟩ := List.mem_map.1 hy; exact abs_nonneg z)
    have hl' : ((l.length : ℚ) + 1) ≤ n := by exact_mod_cast hl
    have h4 := abs_add_le s x
    have hn2 : (n - (l.length + 1)) * (2 * u * B) ≤ B := by
      have e : (n : ℚ) * (2 * u * B) = (2 * n * u) * B := by ring
      have h1 : (2 * n * u) * B ≤ 1 * B := mul_le_mul_of_nonneg_right hn hB0
      have h2 : (0 : ℚ) ≤ (l.length + 1) * (2 * u * B) := by positivity
      linarith
    have h1 : |fl (s + x) - (s + x)| ≤ u * (2 * B) := h.err (by linarith) (by linarith) (by linarith)
    have h2 : |fl (s + x)| ≤ |s| + |x| + 2 * u * B := by
      have := abs_add_le (fl (s + x) - (s + x)) (s + x)
      rw [sub_add_cancel] at this
      linarith
    have h3 := ih (fl (s + x)) (by omega) (by linarith)
    have e : flSum fl s (x :: l) = flSum fl (fl (s + x)) l := rfl
    rw [e]
    rw [abs_le] at *
    constructor <;> linarith [h1.1, h1.2, h3.1, h3.2]

theorem flSum_err' (h : Rounds fl u M) {n : ℕ} (hn : 2 * n * u ≤ 1) {l : List ℚ} (hl : l.length ≤ n) {s B : ℚ}
    (hB : |s| + (l.map abs).sum ≤ B) (hu' : u ≤ B) (hM : 2 * u * B ≤ M) :
    |flSum fl s l - (s + l.sum)| ≤ 2 * n * u * B := by
  have hu := h.nonneg
  have hl' : (l.length : ℚ) ≤ n := by exact_mod_cast hl
  have h0 : 0 ≤ 2 * u * B := by
    have := hu.trans hu'
    positivity
  have h1 : 0 ≤ ((n : ℚ) - l.length) * (2 * u * B) := mul_nonneg (by linarith) h0
  refine (h.flSum_err hn hu' hM l s hl (by linarith)).trans ?_
  have := mul_le_mul_of_nonneg_right hl' h0
  linarith

/-- Relative error of a sum of numbers that are not too small. -/
theorem flSum_pos (h : Rounds fl u M) (l : List ℚ) : ∀ s, 0 ≤ s → (∀ x ∈ l, u ≤ x) →
    u * ((1 + u) ^ l.length * (s + l.sum)) ≤ M →
    |flSum fl s l - (s + l.sum)| ≤ ((1 + u) ^ l.length - 1) * (s + l.sum) := by
  have hu := h.nonneg
  induction l with
  | nil => intro s _ _ _; simp [flSum]
  | cons x l ih =>
    intro s hs hl hM
    have hx := hl x List.mem_cons_self
    have hl' := fun y hy => hl y (List.mem_cons_of_mem _ hy)
    have hA : 0 ≤ l.sum := List.sum_nonneg fun y hy => hu.trans (hl' y hy)
    have hk : (1 : ℚ) ≤ (1 + u) ^ l.length := one_le_pow₀ (by linarith)
    have e : flSum fl s (x :: l) = flSum fl (fl (s + x)) l := rfl
    rw [List.length_cons, pow_succ, List.sum_cons] at hM
    rw [e, List.sum_cons, List.length_cons, pow_succ]
    set K := (1 + u) ^ l.length
    have hsx : 0 ≤ s + x := by linarith
    have hT : (s + x + l.sum) ≤ K * (1 + u) * (s + (x + l.sum)) := by
      have h1 : 1 ≤ K * (1 + u) := by nlinarith
      nlinarith
    have h2 : |fl (s + x) - (s + x)| ≤ u * (s + x) := by
      have := h.rel (x := s + x) (by rw [abs_of_nonneg hsx]; linarith) (by
        rw [abs_of_nonneg hsx]
        refine (mul_le_mul_of_nonneg_left ?_ hu).trans hM
        linarith)
      rwa [abs_of_nonneg hsx] at this
    have h3 := abs_le.1 h2
    have h0 := h.fl_nonneg hsx
    have h1 := ih (fl (s + x)) h0 hl' (by
      refine (mul_le_mul_of_nonneg_left ?_ hu).trans hM
      have : fl (s + x) + l.sum ≤ (1 + u) * (s + (x + l.sum)) := by nlinarith
      have := mul_le_mul_of_nonneg_left this (by linarith : 0 ≤ K)
      linarith)
    have h5 : |flSum fl (fl (s + x)) l - (s + (x + l.sum))| ≤
        |flSum fl (fl (s + x)) l - (fl (s + x) + l.sum)| + |fl (s + x) - (s + x)| := by
      have := abs_add_le (flSum fl (fl (s + x)) l - (fl (s + x) + l.sum)) (fl (s + x) - (s + x))
      rw [show flSum fl (fl (s + x)) l - (s + (x + l.sum)) = flSum fl (fl (s + x)) l - (fl (s + x) + l.sum) +
        (fl (s + x) - (s + x)) by ring]
      exact this
    have h6 : (K - 1) * (fl (s + x) + l.sum) ≤ (K - 1) * ((1 + u) * (s + x) + l.sum) :=
      mul_le_mul_of_nonneg_left (by linarith) (by linarith)
    have h8 : 0 ≤ K * u * l.sum := by positivity
    nlinarith

theorem flSum_pos' (h : Rounds fl u M) {n : ℕ} (hn : 2 * n * u ≤ 1) {l : List ℚ} (hl : l.length ≤ n)
    (hpos : ∀ x ∈ l, u ≤ x) (hM : 2 * u * l.sum ≤ M) : |flSum fl 0 l - l.sum| ≤ 2 * n * u * l.sum := by
  have hu := h.nonneg
  have hl' : (l.length : ℚ) ≤ n := by exact_mod_cast hl
  have h1 : 2 * (l.length : ℚ) * u ≤ 2 * n * u := by nlinarith
  have hA : 0 ≤ l.sum := List.sum_nonneg fun y hy => hu.trans (hpos y hy)
  have h2 := RoundsRel.pow_le hu l.length (h1.trans hn)
  have hk : (1 : ℚ) ≤ (1 + u) ^ l.length := one_le_pow₀ (by linarith)
  have h3 := h.flSum_pos l 0 le_rfl hpos (by
    rw [zero_add]
    have : (1 + u) ^ l.length * l.sum ≤ 2 * l.sum := mul_le_mul_of_nonneg_right (by linarith) hA
    have := mul_le_mul_of_nonneg_left this hu
    linarith)
  rw [zero_add] at h3
  exact h3.trans (mul_le_mul_of_nonneg_right (by linarith) hA)

/-- Sums of nonnegative integers that stay below the limit are exact. -/
theorem flSum_int (h : Rounds fl u M) (l : List ℚ) : ∀ s : ℚ, (∀ x ∈ l, 0 ≤ x ∧ ∃ k : ℤ, x = k) → 0 ≤ s →
    (∃ k : ℤ, s = k) → s + l.sum ≤ M → flSum fl s l = s + l.sum := by
  induction l with
  | nil => intro s _ _ _ _; simp [flSum]
  | cons x l ih =>
    intro s hl hs hk hM
    obtain ⟨hx, kx, rfl⟩ := hl x List.mem_cons_self
    obtain ⟨k, rfl⟩ := hk
    have hl' := fun y hy => hl y (List.mem_cons_of_mem _ hy)
    have hsum : 0 ≤ l.sum := List.sum_nonneg fun y hy => (hl' y hy).1
    rw [List.sum_cons] at hM
    have e : fl ((k : ℚ) + kx) = k + kx := by
      have := h.int (k + kx) (by push_cast; rw [abs_of_nonneg (by linarith)]; linarith)
      push_cast at this; exact this
    show flSum fl (fl ((k : ℚ) + kx)) l = _
    rw [e, ih _ hl' (by linarith) ⟨k + kx, by push_cast; ring⟩ (by linarith), List.sum_cons]
    ring

end Rounds

theorem flSum_id (s : ℚ) (l : List ℚ) : flSum id s l = s + l.sum := by
  induction l generalizing s with
  | nil => simp [flSum]
  | cons x l ih =>
    show flSum id (s + x) l = _
    rw [ih, List.sum_cons]; ring

end PSP.Theory
