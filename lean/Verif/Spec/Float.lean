import Mathlib.Data.Real.Sqrt

/-!
# Specification of floating point numbers (C57–C59)
-/

namespace HPLLL.Spec

/-- `q` is a floating point number of `p` significant bits (no bound on the exponent). -/
def IsFloat (p : ℕ) (q : ℚ) : Prop := ∃ k e : ℤ, |k| < 2 ^ p ∧ q = k * 2 ^ e

/-- `q` is a floating point number of `p` bits, and no one is nearer to `x`. -/
def Nearest (p : ℕ) (x : ℝ) (q : ℚ) : Prop :=
  IsFloat p q ∧ ∀ f : ℚ, IsFloat p f → |x - q| ≤ |x - f|

end HPLLL.Spec
