import Mathlib.Tactic.FieldSimp
import Verif.Theory.Rounding

/-!
# A computable rounding to the nearest number with `p` binary digits
-/

namespace PSP.Theory

open PSP.Spec PSP.Model

/-- `2 ^ e`. -/
def pow2 : ℤ → ℚ
  | .ofNat n => ((2 ^ n : ℕ) : ℚ)
  | .negSucc n => 1 / ((2 ^ (n + 1) : ℕ) : ℚ)

/-- The exponent of `x`. -/
def binExp (x : ℚ) : ℤ :=
  let k : ℤ := (Nat.log2 x.num.natAbs : ℤ) - Nat.log2 x.den
  if pow2 k ≤ |x| then k else k - 1

/-- The nearest integer, the even one of two. -/
def halfEven (z : ℚ) : ℤ :=
  let k := Rat.floor (z + 1 / 2)
  if (k : ℚ) = z + 1 / 2 ∧ k % 2 = 1 then k - 1 else k

/-- Rounding to the nearest number with `p` digits, ties to even (the default of IEEE 754). -/
def roundNear (p : ℕ) (x : ℚ) : ℚ :=
  let g := pow2 (binExp x + 1 - p)
  (halfEven (x / g) : ℚ) * g

theorem pow2_eq (e : ℤ) : pow2 e = 2 ^ e := by
  cases e with
  | ofNat n => simp [pow2]
  | negSucc n => simp [pow2, zpow_negSucc]

theorem binExp_spec {x : ℚ} (hx : x ≠ 0) : (2 : ℚ) ^ binExp x ≤ |x| ∧ |x| < 2 ^ (binExp x + 1) := by
  have h2 : (2 : ℚ) ≠ 0 := by norm_num
  set a := Nat.log2 x.num.natAbs with ha
  set b := Nat.log2 x.den with hb
  have hnum : x.num.natAbs ≠ 0 := by
    simpa using hx
  have hden : x.den ≠ 0 := x.den_nz
  have a1 : (2 : ℚ) ^ a ≤ x.num.natAbs := by exact_mod_cast Nat.log2_self_le hnum
  have a2 : (x.num.natAbs : ℚ) < 2 ^ (a + 1) := by exact_mod_cast Nat.lt_log2_self
  have b1 : (2 : ℚ) ^ b ≤ x.den := by exact_mod_cast Nat.log2_self_le hden
  have b2 : (x.den : ℚ) < 2 ^ (b + 1) := by exact_mod_cast Nat.lt_log2_self
  have hd0 : (0 : ℚ) < x.den := by exact_mod_cast Nat.pos_of_ne_zero hden
  have habs : |x| = x.num.natAbs / x.den := by
    conv_lhs => rw [← Rat.num_div_den x]
    rw [abs_div, abs_of_pos hd0, Nat.cast_natAbs, Int.cast_abs]
  have hup : |x| < 2 ^ ((a : ℤ) - b + 1) := by
    rw [habs, div_lt_iff₀ hd0]
    have e1 : (2 : ℚ) ^ ((a : ℤ) - b + 1) * 2 ^ b = 2 ^ (a + 1) := by
      rw [← zpow_natCast, ← zpow_natCast, ← zpow_add₀ h2]; congr 1; push_cast; ring
    have : (2 : ℚ) ^ ((a : ℤ) - b + 1) * 2 ^ b ≤ 2 ^ ((a : ℤ) - b + 1) * x.den :=
      mul_le_mul_of_nonneg_left b1 (zpow_nonneg (by norm_num) _)
    rw [e1] at this
    linarith
  have hlo : (2 : ℚ) ^ ((a : ℤ) - b - 1) ≤ |x| := by
    rw [habs, le_div_iff₀ hd0]
    have e1 : (2 : ℚ) ^ ((a : ℤ) - b - 1) * 2 ^ (b + 1) = 2 ^ a := by
      rw [← zpow_natCast, ← zpow_natCast, ← zpow_add₀ h2]; congr 1; push_cast; ring
    have : (2 : ℚ) ^ ((a : ℤ) - b - 1) * x.den ≤ 2 ^ ((a : ℤ) - b - 1) * 2 ^ (b + 1) :=
      mul_le_mul_of_nonneg_left b2.le (zpow_nonneg (by norm_num) _)
    rw [e1] at this
    linarith
  unfold binExp
  simp only [← ha, ← hb]
  split
  · rename_i h
    rw [pow2_eq] at h
    exact ⟨h, hup⟩
  · rename_i h
    rw [pow2_eq] at h
    push Not at h
    exact ⟨hlo, by rw [sub_add_cancel]; exact h⟩

/-- Every number with `p` digits is a multiple of the grid of `x` or is not as close to `x` as one of its points. -/
theorem grid_closest {p : ℕ} (hp : 1 ≤ p) {x y : ℚ} (hx : x ≠ 0) (hy : Representable p y) :
    ∃ k : ℤ, |k * (2 : ℚ) ^ (binExp x + 1 - p) - x| ≤ |y - x| := by
  obtain ⟨h1, h2⟩ := binExp_spec hx
  have h20 : (2 : ℚ) ≠ 0 := by norm_num
  set L := binExp x
  obtain ⟨m, e, hm, rfl⟩ := hy
  have hmq : |(m : ℚ)| ≤ 2 ^ p := by exact_mod_cast hm
  have hpow : ∀ s : ℤ, 0 ≤ s → ∃ k : ℤ, (2 : ℚ) ^ s = k := by
    intro s hs
    obtain ⟨n, rfl⟩ := Int.eq_ofNat_of_zero_le hs
    exact ⟨2 ^ n, by push_cast; exact zpow_natCast _ _⟩
  obtain ⟨kL, hkL⟩ := hpow ((p : ℤ) - 1) (by omega)
  have hLgrid : (kL : ℚ) * 2 ^ (L + 1 - p) = 2 ^ L := by
    rw [← hkL, ← zpow_add₀ h20]; congr 1; ring
  by_cases he : L + 1 - p ≤ e
  · obtain ⟨k, hk⟩ := hpow (e - (L + 1 - p)) (by omega)
    refine ⟨m * k, le_of_eq ?_⟩
    congr 2
    push_cast
    rw [← hk, mul_assoc, ← zpow_add₀ h20]
    congr 2
    ring
  · push Not at he
    have hy : |(m : ℚ) * 2 ^ e| ≤ 2 ^ L := by
      rw [abs_mul, abs_of_nonneg (zpow_nonneg (by norm_num : (0 : ℚ) ≤ 2) e)]
      have a1 : |(m : ℚ)| * 2 ^ e ≤ 2 ^ p * 2 ^ e := mul_le_mul_of_nonneg_right hmq (zpow_nonneg (by norm_num) _)
      have a2 : (2 : ℚ) ^ p * 2 ^ e = 2 ^ ((p : ℤ) + e) := by rw [← zpow_natCast, ← zpow_add₀ h20]
      have a3 : (2 : ℚ) ^ ((p : ℤ) + e) ≤ 2 ^ L := zpow_le_zpow_right₀ (by norm_num) (by omega)
      rw [a2] at a1
      exact a1.trans a3
    have hy' := abs_le.1 hy
    rcases le_or_gt 0 x with h0 | h0
    · rw [abs_of_nonneg h0] at h1
      refine ⟨kL, ?_⟩
      rw [hLgrid, abs_of_nonpos (by linarith), abs_of_nonpos (by linarith)]
      linarith
    · rw [abs_of_neg h0] at h1
      refine ⟨-kL, ?_⟩
      push_cast
      rw [neg_mul, hLgrid, abs_of_nonneg (by linarith), abs_of_nonneg (by linarith)]
      linarith

theorem floor_half_closest (z : ℚ) (k : ℤ) : |(Rat.floor (z + 1 / 2) : ℚ) - z| ≤ |(k : ℚ) - z| := by
  have e : Rat.floor (z + 1 / 2) = ⌊z + 1 / 2⌋ := rfl
  rw [e]
  have h1 := Int.floor_le (z + 1 / 2)
  have h2 := Int.lt_floor_add_one (z + 1 / 2)
  rcases lt_trichotomy k ⌊z + 1 / 2⌋ with h | h | h
  · have : (k : ℚ) ≤ ⌊z + 1 / 2⌋ - 1 := by
      have : k ≤ ⌊z + 1 / 2⌋ - 1 := by omega
      exact_mod_cast this
    have e1 : |(k : ℚ) - z| = z - k := by rw [abs_of_nonpos (by linarith)]; ring
    rw [e1, abs_le]
    constructor <;> linarith
  · rw [h]
  · have : ((⌊z + 1 / 2⌋ : ℤ) : ℚ) + 1 ≤ k := by
      have : ⌊z + 1 / 2⌋ + 1 ≤ k := by omega
      exact_mod_cast this
    have e1 : |(k : ℚ) - z| = k - z := abs_of_nonneg (by linarith)
    rw [e1, abs_le]
    constructor <;> linarith

theorem halfEven_closest (z : ℚ) (k : ℤ) : |(halfEven z : ℚ) - z| ≤ |(k : ℚ) - z| := by
  have h := floor_half_closest z k
  unfold halfEven
  dsimp only
  split
  · rename_i ht
    have e1 : ((Rat.floor (z + 1 / 2) : ℤ) : ℚ) - z = 1 / 2 := by rw [ht.1]; ring
    rw [e1] at h
    have e2 : (((Rat.floor (z + 1 / 2) - 1 : ℤ) : ℚ)) - z = -(1 / 2) := by push_cast; rw [ht.1]; ring
    rw [e2, abs_neg]
    exact h
  · exact h

theorem halfEven_range {z : ℚ} {b : ℤ} (h : |z| < b) : |halfEven z| ≤ b := by
  have h3 := abs_lt.1 h
  have e : Rat.floor (z + 1 / 2) = ⌊z + 1 / 2⌋ := rfl
  have h5 := Int.floor_le (z + 1 / 2)
  have h6 : ⌊z + 1 / 2⌋ < b + 1 := by
    have : ((⌊z + 1 / 2⌋ : ℤ) : ℚ) < ((b + 1 : ℤ) : ℚ) := by push_cast; linarith
    exact_mod_cast this
  have h7 : -b ≤ ⌊z + 1 / 2⌋ := by rw [Int.le_floor]; push_cast; linarith
  unfold halfEven
  dsimp only
  rw [e]
  split
  · rename_i ht
    have h8 : ((-b : ℤ) : ℚ) < ((⌊z + 1 / 2⌋ : ℤ) : ℚ) := by rw [ht.1]; push_cast; linarith
    have h9 : -b < ⌊z + 1 / 2⌋ := by exact_mod_cast h8
    rw [abs_le]
    constructor <;> omega
  · rw [abs_le]
    constructor <;> omega

/-- The computable rounding is one. -/
theorem roundNear_spec {p : ℕ} (hp : 1 ≤ p) : RoundsToNearest p (roundNear p) := by
  intro x
  rcases eq_or_ne x 0 with rfl | hx
  · have h0 : roundNear p 0 = 0 := by
      unfold roundNear
      have : halfEven (0 / pow2 (binExp 0 + 1 - p)) = 0 := by
        rw [zero_div]; decide +kernel
      simp only [this]
      simp
    rw [h0]
    exact ⟨⟨0, 0, by simp, by simp⟩, fun y _ => by simp⟩
  obtain ⟨h1, h2⟩ := binExp_spec hx
  have h20 : (2 : ℚ) ≠ 0 := by norm_num
  set L := binExp x with hL
  set g : ℚ := 2 ^ (L + 1 - p) with hg
  have hgpos : 0 < g := zpow_pos (by norm_num) _
  have hgp : g * 2 ^ p = 2 ^ (L + 1) := by
    rw [hg, ← zpow_natCast (2 : ℚ) p, ← zpow_add₀ h20]; congr 1; ring
  have hr : roundNear p x = halfEven (x / g) * g := by
    unfold roundNear
    simp only [pow2_eq, ← hL, ← hg]
  have hdist : ∀ k : ℤ, |(k : ℚ) * g - x| = |(k : ℚ) - x / g| * g := by
    intro k
    rw [← abs_of_pos hgpos, ← abs_mul, abs_of_pos hgpos, sub_mul, div_mul_cancel₀ _ hgpos.ne']
  have hclose : ∀ k : ℤ, |roundNear p x - x| ≤ |(k : ℚ) * g - x| := by
    intro k
    rw [hr, hdist, hdist]
    exact mul_le_mul_of_nonneg_right (halfEven_closest _ _) hgpos.le
  refine ⟨⟨halfEven (x / g), L + 1 - p, ?_, hr⟩, ?_⟩
  · apply halfEven_range
    rw [abs_div, abs_of_pos hgpos, div_lt_iff₀ hgpos, mul_comm]
    push_cast
    rw [hgp]
    exact h2
  · intro y hy
    obtain ⟨k, hk⟩ := grid_closest hp hx hy
    exact (hclose k).trans hk

/-- Rounding to the nearest number with `p` digits that is a multiple of `2 ^ -low`, ties to even. -/
def roundFrom (p low : ℕ) (x : ℚ) : ℚ :=
  let g := pow2 (max (binExp x + 1 - p) (-low))
  (halfEven (x / g) : ℚ) * g

/-- The arithmetic of `double` (IEEE 754) for numbers that do not overflow: 53 digits, multiples of `2 ^ -1074`. -/
def roundDouble : ℚ → ℚ := roundFrom 53 1074

theorem roundFrom_spec {p low : ℕ} (hp : 1 ≤ p) (x : ℚ) : RepresentableFrom p low (roundFrom p low x) ∧
    ∀ y, RepresentableFrom p low y → |roundFrom p low x - x| ≤ |y - x| := by
  rcases eq_or_ne x 0 with rfl | hx
  · have h0 : roundFrom p low 0 = 0 := by
      unfold roundFrom
      have : halfEven (0 / pow2 (max (binExp 0 + 1 - p) (-low))) = 0 := by
        rw [zero_div]; decide +kernel
      simp only [this]
      simp
    rw [h0]
    exact ⟨⟨0, 0, by simp, by simp, by simp⟩, fun y _ => by simp⟩
  obtain ⟨h1, h2⟩ := binExp_spec hx
  have h20 : (2 : ℚ) ≠ 0 := by norm_num
  set L := binExp x with hL
  set k := max (L + 1 - p) (-(low : ℤ)) with hk
  set g : ℚ := 2 ^ k with hg
  have hgpos : 0 < g := zpow_pos (by norm_num) _
  have hgp : (2 : ℚ) ^ (L + 1) ≤ g * 2 ^ p := by
    rw [hg, ← zpow_natCast (2 : ℚ) p, ← zpow_add₀ h20]
    apply zpow_le_zpow_right₀ (by norm_num)
    have := le_max_left (L + 1 - p) (-(low : ℤ))
    omega
  have hr : roundFrom p low x = halfEven (x / g) * g := by
    unfold roundFrom
    simp only [pow2_eq, ← hL, ← hk, ← hg]
  have hdist : ∀ k : ℤ, |(k : ℚ) * g - x| = |(k : ℚ) - x / g| * g := by
    intro k
    rw [← abs_of_pos hgpos, ← abs_mul, abs_of_pos hgpos, sub_mul, div_mul_cancel₀ _ hgpos.ne']
  have hclose : ∀ k : ℤ, |roundFrom p low x - x| ≤ |(k : ℚ) * g - x| := by
    intro k
    rw [hr, hdist, hdist]
    exact mul_le_mul_of_nonneg_right (halfEven_closest _ _) hgpos.le
  refine ⟨⟨halfEven (x / g), k, ?_, le_max_right _ _, hr⟩, ?_⟩
  · apply halfEven_range
    rw [abs_div, abs_of_pos hgpos, div_lt_iff₀ hgpos, mul_comm]
    push_cast
    exact h2.trans_le hgp
  · intro y hy
    obtain ⟨m, e, hm, he, rfl⟩ := hy
    by_cases hlow : -(low : ℤ) ≤ L + 1 - p
    · have hke : k = L + 1 - p := max_eq_left hlow
      obtain ⟨c, hc⟩ := grid_closest hp hx ⟨m, e, hm, rfl⟩
      rw [← hL, ← hke, ← hg] at hc
      exact (hclose c).trans hc
    · have hke : k = -(low : ℤ) := max_eq_right (by omega)
      obtain ⟨d, hd⟩ := Int.eq_ofNat_of_zero_le (show 0 ≤ e - k by omega)
      have : (m : ℚ) * 2 ^ e = ((m * 2 ^ d : ℤ) : ℚ) * g := by
        push_cast
        rw [hg, mul_assoc, ← zpow_natCast, ← zpow_add₀ h20, show (d : ℤ) + k = e by omega]
      rw [this]
      exact hclose _

/-- The computable rounding of a limited format is one. -/
theorem roundFrom_inRange {p low : ℕ} (hp : 1 ≤ p) (high : ℕ) : RoundsInRange p low high (roundFrom p low) :=
  ⟨monotone_of_nearest (roundFrom_spec hp), fun x _ => roundFrom_spec hp x⟩

/-- The arithmetic of `double`. -/
theorem roundDouble_inRange : RoundsInRange 53 1074 1023 roundDouble := roundFrom_inRange (by norm_num) _

theorem roundDouble_spec : FloatingPoint 53 roundDouble :=
  Or.inr ⟨1074, 1023, by norm_num, by norm_num, roundDouble_inRange⟩

end PSP.Theory
