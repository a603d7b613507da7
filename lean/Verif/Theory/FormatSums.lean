import Verif.Theory.Rounding

/-!
# Sums of numbers of a floating-point format have no underflow
-/

namespace PSP.Theory

open PSP.Spec PSP.Model

/-- Numbers `a` of the format are those with `fl a = a`. Rounding gives such numbers, they can be negated, and the
difference of two of them has a relative error of at most `u`, however small it is. -/
structure Sums (fl : ℚ → ℚ) (u R : ℚ) : Prop where
  nonneg : 0 ≤ u
  idem : ∀ x, |x| ≤ 2 * R → fl (fl x) = fl x
  neg : ∀ x, |x| ≤ R → fl x = x → fl (-x) = -x
  add : ∀ a b, fl a = a → fl b = b → |a| ≤ R → |b| ≤ R → |fl (a + b) - (a + b)| ≤ u * |a + b|
  zero : fl 0 = 0

theorem RoundsToNearest.sums {p : ℕ} {fl : ℚ → ℚ} (h : RoundsToNearest p fl) (R : ℚ) : Sums fl (2 ^ p)⁻¹ R where
  nonneg := by positivity
  idem x _ := RoundsToNearest.of_representable h (h x).1
  neg x _ hx := by
    obtain ⟨m, e, h1, h2⟩ := (h x).1
    exact RoundsToNearest.of_representable h ⟨-m, e, by rwa [abs_neg], by rw [← hx, h2]; push_cast; ring⟩
  add a b _ _ _ _ := (RoundsToNearest.roundsRel h).rel (a + b)
  zero := (RoundsToNearest.roundsRel h).zero

theorem RoundsInRange.of_representable {p low high : ℕ} {fl : ℚ → ℚ} (h : RoundsInRange p low high fl) {x : ℚ}
    (hr : |x| ≤ 2 ^ high) (hx : RepresentableFrom p low x) : fl x = x := by
  have := (h.2 x hr).2 x hx
  rw [sub_self, abs_zero] at this
  have := abs_eq_zero.1 (le_antisymm this (abs_nonneg _))
  linarith

/-- A number of the format is a multiple of the smallest one. -/
theorem RepresentableFrom.multiple {p low : ℕ} {x : ℚ} (h : RepresentableFrom p low x) :
    ∃ k : ℤ, x = k * (2 ^ low)⁻¹ := by
  obtain ⟨m, e, -, he, rfl⟩ := h
  refine ⟨m * 2 ^ (e + low).toNat, ?_⟩
  have h2 : (2 : ℚ) ≠ 0 := by norm_num
  have e1 : ((2 : ℚ) ^ (e + low).toNat) = 2 ^ (e + low) := by
    rw [← zpow_natCast, Int.toNat_of_nonneg (by omega)]
  push_cast
  rw [e1, zpow_add₀ h2, zpow_natCast]
  field_simp

theorem RoundsInRange.sums {p low high : ℕ} {fl : ℚ → ℚ} (h : RoundsInRange p low high fl) {R : ℚ}
    (hR : 2 * R ≤ 2 ^ high) : Sums fl (2 ^ p)⁻¹ R := by
  have h2 : (0 : ℚ) < 2 ^ p := by positivity
  have htop : fl (2 ^ high) = 2 ^ high := RoundsInRange.of_representable h (by rw [abs_of_nonneg (by positivity)])
    ⟨1, high, by simpa using one_le_pow₀ (n := p) (by norm_num : (1 : ℤ) ≤ 2), by omega, by simp⟩
  have hbot : fl (-2 ^ high) = -2 ^ high := RoundsInRange.of_representable h
    (by rw [abs_neg, abs_of_nonneg (by positivity)])
    ⟨-1, high, by simpa using one_le_pow₀ (n := p) (by norm_num : (1 : ℤ) ≤ 2), by omega, by simp⟩
  have hstay : ∀ x, |x| ≤ 2 ^ high → |fl x| ≤ 2 ^ high := by
    intro x hx
    rw [abs_le] at hx ⊢
    exact ⟨hbot ▸ h.1 hx.1, htop ▸ h.1 hx.2⟩
  refine ⟨by positivity, fun x hx => ?_, fun x hx hf => ?_, fun a b ha hb hra hrb => ?_, ?_⟩
  · exact RoundsInRange.of_representable h (hstay x (hx.trans hR)) (h.2 x (hx.trans hR)).1
  · have h0 := abs_nonneg x
    have hx' : |x| ≤ 2 ^ high := by linarith
    obtain ⟨m, e, h1, h3, h4⟩ := (h.2 x hx').1
    exact RoundsInRange.of_representable h (by rwa [abs_neg])
      ⟨-m, e, by rwa [abs_neg], h3, by rw [← hf, h4]; push_cast; ring⟩
  · have ra : |a| ≤ 2 ^ high := by linarith [abs_nonneg a]
    have rb : |b| ≤ 2 ^ high := by linarith [abs_nonneg b]
    have rab : |a + b| ≤ 2 ^ high := (abs_add_le a b).trans (by linarith)
    obtain ⟨k, hk⟩ := RepresentableFrom.multiple (ha ▸ (h.2 a ra).1)
    obtain ⟨l, hl⟩ := RepresentableFrom.multiple (hb ▸ (h.2 b rb).1)
    have hkl : a + b = ((k + l : ℤ) : ℚ) * (2 ^ low)⁻¹ := by rw [hk, hl]; push_cast; ring
    by_cases hsmall : |k + l| ≤ 2 ^ p
    · rw [RoundsInRange.of_representable h rab ⟨k + l, -(low : ℤ), hsmall, le_rfl, by
        rw [hkl, zpow_neg, zpow_natCast]⟩, sub_self, abs_zero]
      positivity
    · push Not at hsmall
      obtain ⟨y, hy, hle⟩ := exists_representableFrom p low (a + b)
      refine (((h.2 _ rab).2 y hy).trans hle).trans (max_le le_rfl ?_)
      have h3 : (2 : ℚ) ^ p ≤ |((k + l : ℤ) : ℚ)| := by exact_mod_cast hsmall.le
      rw [hkl, abs_mul, abs_of_pos (by positivity : (0 : ℚ) < (2 ^ low)⁻¹), ← mul_assoc]
      refine le_mul_of_one_le_left (by positivity) ?_
      rwa [← div_eq_inv_mul, le_div_iff₀ h2, one_mul]
  · exact RoundsInRange.of_representable h (by simp) ⟨0, 0, by simp, by simp, by simp⟩

theorem FloatingPoint.sums {p : ℕ} {fl : ℚ → ℚ} (h : FloatingPoint p fl) : Sums fl (2 ^ p)⁻¹ (4 ^ p / 2) := by
  rcases h with h | ⟨low, high, -, h2, h⟩
  · exact RoundsToNearest.sums h _
  · refine RoundsInRange.sums h ?_
    have : (4 : ℚ) ^ p = 2 ^ (2 * p) := by rw [pow_mul]; norm_num
    rw [mul_div_cancel₀ _ (by norm_num), this]
    exact pow_le_pow_right₀ (by norm_num) h2

namespace Sums

variable {fl : ℚ → ℚ} {u R : ℚ}

theorem sub (h : Sums fl u R) {a b : ℚ} (ha : fl a = a) (hb : fl b = b) (hra : |a| ≤ R) (hrb : |b| ≤ R) :
    |fl (a - b) - (a - b)| ≤ u * |a - b| := by
  have := h.add a (-b) ha (h.neg b hrb hb) hra (by rwa [abs_neg])
  rwa [← sub_eq_add_neg] at this

theorem add_fixed (h : Sums fl u R) {a b : ℚ} (hra : |a| ≤ R) (hrb : |b| ≤ R) : fl (fl (a + b)) = fl (a + b) :=
  h.idem _ ((abs_add_le a b).trans (by linarith))

theorem sub_fixed (h : Sums fl u R) {a b : ℚ} (hra : |a| ≤ R) (hrb : |b| ≤ R) : fl (fl (a - b)) = fl (a - b) :=
  h.idem _ ((abs_sub a b).trans (by linarith))

/-- Error of a sum. -/
theorem flSum_err (h : Sums fl u R) (l : List ℚ) : ∀ s, fl s = s → (∀ x ∈ l, fl x = x) →
    (1 + u) ^ l.length * (|s| + (l.map abs).sum) ≤ R →
    |flSum fl s l - (s + l.sum)| ≤ ((1 + u) ^ l.length - 1) * (|s| + (l.map abs).sum) ∧
      fl (flSum fl s l) = flSum fl s l := by
  have hu := h.nonneg
  induction l with
  | nil => intro s hs _ _; simp [flSum, hs]
  | cons x l ih =>
    intro s hs hl hR
    have hA : 0 ≤ (l.map abs).sum := List.sum_nonneg (by
      intro y hy; obtain ⟨z, _, rfl⟩ := List.mem_map.1 hy; exact abs_nonneg z)
    have hk : (1 : ℚ) ≤ (1 + u) ^ l.length := one_le_pow₀ (by linarith)
    have e : flSum fl s (x :: l) = flSum fl (fl (s + x)) l := rfl
    rw [List.map_cons, List.sum_cons, List.length_cons, pow_succ] at hR
    rw [e, List.sum_cons, List.map_cons, List.sum_cons, List.length_cons, pow_succ]
    set K := (1 + u) ^ l.length
    set A := (l.map abs).sum
    have s0 := abs_nonneg s
    have x0 := abs_nonneg x
    have hall : |s| + (|x| + A) ≤ R := by
      have h1 : 1 ≤ K * (1 + u) := by nlinarith
      nlinarith
    have h2 := h.add s x hs (hl x List.mem_cons_self) (by linarith) (by linarith)
    have hfix := h.add_fixed (a := s) (b := x) (by linarith) (by linarith)
    have h4 := abs_add_le s x
    have h3 : |fl (s + x)| ≤ (1 + u) * |s + x| := by
      have := abs_add_le (fl (s + x) - (s + x)) (s + x)
      rw [sub_add_cancel] at this
      linarith
    have h3' : |fl (s + x)| ≤ (1 + u) * (|s| + |x|) :=
      h3.trans (mul_le_mul_of_nonneg_left h4 (by linarith))
    obtain ⟨h1, h1'⟩ := ih (fl (s + x)) hfix (fun y hy => hl y (List.mem_cons_of_mem _ hy)) (by
      have h6 : |fl (s + x)| + A ≤ (1 + u) * (|s| + (|x| + A)) := by nlinarith
      have := mul_le_mul_of_nonneg_left h6 (by linarith : 0 ≤ K)
      linarith)
    refine ⟨?_, h1'⟩
    have h5 : |flSum fl (fl (s + x)) l - (s + (x + l.sum))| ≤
        |flSum fl (fl (s + x)) l - (fl (s + x) + l.sum)| + |fl (s + x) - (s + x)| := by
      have := abs_add_le (flSum fl (fl (s + x)) l - (fl (s + x) + l.sum)) (fl (s + x) - (s + x))
      rw [show flSum fl (fl (s + x)) l - (s + (x + l.sum)) = flSum fl (fl (s + x)) l - (fl (s + x) + l.sum) +
        (fl (s + x) - (s + x)) by ring]
      exact this
    have h6 : (K - 1) * (|fl (s + x)| + A) ≤ (K - 1) * ((1 + u) * (|s| + |x|) + A) :=
      mul_le_mul_of_nonneg_left (by linarith) (by linarith)
    have h7 : u * |s + x| ≤ u * (|s| + |x|) := mul_le_mul_of_nonneg_left h4 hu
    have h8 : 0 ≤ K * u * A := by positivity
    nlinarith

theorem flSum_err' (h : Sums fl u R) {n : ℕ} (hn : 2 * n * u ≤ 1) {l : List ℚ} (hl : l.length ≤ n)
    (hfix : ∀ x ∈ l, fl x = x) {B : ℚ} (hB : (l.map abs).sum ≤ B) (hR : 2 * B ≤ R) :
    |flSum fl 0 l - l.sum| ≤ 2 * n * u * B ∧ fl (flSum fl 0 l) = flSum fl 0 l := by
  have hu := h.nonneg
  have hl' : (l.length : ℚ) ≤ n := by exact_mod_cast hl
  have h1 : 2 * (l.length : ℚ) * u ≤ 2 * n * u := by nlinarith
  have hA : 0 ≤ (l.map abs).sum := List.sum_nonneg (by
      intro y hy; obtain ⟨z, _, rfl⟩ := List.mem_map.1 hy; exact abs_nonneg z)
  have h2 := RoundsRel.pow_le hu l.length (h1.trans hn)
  have hk : (1 : ℚ) ≤ (1 + u) ^ l.length := one_le_pow₀ (by linarith)
  obtain ⟨h3, h4⟩ := h.flSum_err l 0 h.zero hfix (by
    rw [abs_zero, zero_add]
    have : (1 + u) ^ l.length * (l.map abs).sum ≤ 2 * (l.map abs).sum := mul_le_mul_of_nonneg_right (by linarith) hA
    linarith)
  refine ⟨?_, h4⟩
  rw [abs_zero, zero_add, zero_add] at h3
  refine h3.trans ?_
  calc _ ≤ (2 * n * u) * (l.map abs).sum := mul_le_mul_of_nonneg_right (by linarith) hA
    _ ≤ _ := mul_le_mul_of_nonneg_left hB (by positivity)

end Sums

end PSP.Theory
