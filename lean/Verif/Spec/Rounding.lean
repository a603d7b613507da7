import Mathlib.Data.Rat.Defs
import Mathlib.Algebra.Order.Field.Rat
import Mathlib.Order.Monotone.Defs

/-!
# Specification: binary floating-point rounding

Nothing in this file mentions the model of the code.
-/

namespace PSP.Spec

/-- Numbers with at most `p` significant binary digits (`p = 53` for `double`); the exponent is not limited. -/
def Representable (p : ℕ) (x : ℚ) : Prop := ∃ m e : ℤ, |m| ≤ 2 ^ p ∧ x = m * 2 ^ e

/-- `fl` rounds to a nearest number with `p` digits; it is open how ties are resolved. -/
def RoundsToNearest (p : ℕ) (fl : ℚ → ℚ) : Prop :=
  ∀ x, Representable p (fl x) ∧ ∀ y, Representable p y → |fl x - x| ≤ |y - x|

/-- Numbers with at most `p` significant binary digits that are multiples of `2 ^ -low`. With `p = 53` and `low = 1074`, and
up to `2 ^ 1023`, these are finite numbers of type `double`. -/
def RepresentableFrom (p low : ℕ) (x : ℚ) : Prop := ∃ m e : ℤ, |m| ≤ 2 ^ p ∧ -(low : ℤ) ≤ e ∧ x = m * 2 ^ e

/-- `fl` rounds numbers up to `2 ^ high` to a nearest number of the format. Beyond that (where numbers may be too large for
the format) it is only known to be monotone. -/
def RoundsInRange (p low high : ℕ) (fl : ℚ → ℚ) : Prop :=
  Monotone fl ∧ ∀ x, |x| ≤ 2 ^ high →
    RepresentableFrom p low (fl x) ∧ ∀ y, RepresentableFrom p low y → |fl x - x| ≤ |y - x|

/-- The rounding of a floating-point format with `p` digits: the exponents are not limited, or limited as in the formats
`float` and `double` of IEEE 754, with underflow to multiples of `2 ^ -low` (`p = 53`, `low = 1074`, `high = 1023` for
`double`). -/
def FloatingPoint (p : ℕ) (fl : ℚ → ℚ) : Prop :=
  RoundsToNearest p fl ∨ ∃ low high, 2 * p ≤ low ∧ 2 * p ≤ high ∧ RoundsInRange p low high fl

end PSP.Spec
