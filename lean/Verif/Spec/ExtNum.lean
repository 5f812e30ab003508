import Mathlib.Data.Rat.Cast.Order
import Mathlib.Algebra.Order.Field.Basic
/-!
# Numbers with an extended exponent (`dpe_t`, `ldpe_t`) in normal form
-/

namespace HPLLL
namespace Spec

/-- The number held. -/
def extVal (a : ℚ × ℤ) : ℚ := a.1 * 2 ^ a.2

/-- Normal form: zero has the smallest `int` as exponent; the significand of another number has `p` bits,
is at least `1/2` and below `1` in size, and its exponent is far from the limits of `int`. -/
def ExtNormal (p : Nat) (a : ℚ × ℤ) : Prop :=
  a = (0, -2 ^ 31) ∨
    ((∃ n : ℤ, a.1 = n / 2 ^ p) ∧ 1 / 2 ≤ |a.1| ∧ |a.1| < 1 ∧ -2 ^ 30 < a.2 ∧ a.2 < 2 ^ 30)

end Spec
end HPLLL
