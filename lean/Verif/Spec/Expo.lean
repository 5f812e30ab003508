import Mathlib.Data.Rat.Defs
import Mathlib.Algebra.Order.Field.Basic
import Mathlib.Data.Rat.Cast.Order
/-!
# Numbers split into significand and exponent; rounding to an integer
-/

namespace HPLLL
namespace Spec

/-- What `frexp`, `mpz_get_d_2exp`, `mpfr_get_d_2exp`, `mpfr_get_ld_2exp` promise with `p` bits: zero
gives significand and exponent zero; any other number gives a significand of `p` bits, at least `1/2`
and below `1` in size, which with its exponent is within a factor `1 ± 2^(1-p)` of the number. -/
structure Split (p : Nat) (rep : ℚ → ℚ × ℤ) : Prop where
  zero : rep 0 = (0, 0)
  bits : ∀ x, ∃ n : ℤ, (rep x).1 = n / 2 ^ p
  lo : ∀ x, x ≠ 0 → 1 / 2 ≤ |(rep x).1|
  hi : ∀ x, |(rep x).1| < 1
  near : ∀ x, |(rep x).1 * 2 ^ (rep x).2 - x| ≤ |x| * (2 / 2 ^ p)

/-- Rounding to a nearest integer, whatever is done with ties. -/
def NearestInt (rd : ℚ → ℤ) : Prop := ∀ y, |(rd y : ℚ) - y| ≤ 1 / 2

end Spec
end HPLLL
