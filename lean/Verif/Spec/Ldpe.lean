import Verif.Model.Ldpe
import Verif.Spec.Float

/-!
# Specification of `ldpe_t` (C57–C59)
-/

namespace HPLLL.Ldpe
open HPLLL.Spec

/-- The number which is represented. -/
def Num.val (x : Num) : ℚ := x.mant * 2 ^ x.exp

/-- What `ldpe.h` calls normalised: a mantissa of 64 bits, in `[1/2, 1)` in absolute value, or
zero with the least exponent. -/
def Num.Normal (x : Num) : Prop :=
  (x.mant = 0 ∧ x.exp = intMin) ∨
  (1 / 2 ≤ |x.mant| ∧ |x.mant| < 1 ∧ IsFloat 64 x.mant ∧ intMin ≤ x.exp ∧ x.exp ≤ intMax)

/-- Only the cell `x` was changed. -/
def Only (x : Nat) (m m' : Mem) : Prop := ∀ i, i ≠ x → m' i = m i

/-- Exponent far from the limits of `int`. -/
def Num.Mild (x : Num) : Prop := -(2 ^ 30) < x.exp ∧ x.exp < 2 ^ 30 - 64

/-- Zero or an exponent far from the limits. -/
def Num.Usual (x : Num) : Prop := x.mant = 0 ∨ x.Mild

/-- The case where the early exit of `ldpe_add` is not the rounding to nearest: the larger operand
is a power of two, the signs are opposite, and the smaller one is more than half of the distance
to the next number. -/
def Missed (y z : Num) : Prop :=
  |y.mant| = 1 / 2 ∧ y.mant * z.mant < 0 ∧ z.exp = y.exp - 65 ∧ 1 / 2 < |z.mant|

/-- The fractional part, with the sign of the number. -/
def fracPart (q : ℚ) : ℚ := if 0 ≤ q then Int.fract q else -Int.fract (-q)

/-- `n` is the integer nearest to `q`, the one away from zero when there are two. -/
def NearestInt (q : ℚ) (n : ℤ) : Prop := |q - n| ≤ 1 / 2 ∧ (|q - n| = 1 / 2 → |q| < |(n : ℚ)|)

/-- `n` is `q` truncated towards zero. -/
def Truncated (q : ℚ) (n : ℤ) : Prop := |q - n| < 1 ∧ |(n : ℚ)| ≤ |q|

end HPLLL.Ldpe
