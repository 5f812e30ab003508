import Mathlib.Analysis.Real.Sqrt
import Mathlib.Data.Matrix.Basic
import Mathlib.LinearAlgebra.Matrix.NonsingularInverse
/-!
# Specification: condition number of a square matrix, binary exponent of a real number
-/

namespace HPLLL.Spec

variable {d : ℕ}

/-- Entrywise absolute value. -/
def absM (T : Matrix (Fin d) (Fin d) ℝ) : Matrix (Fin d) (Fin d) ℝ := T.map fun x => |x|

/-- Frobenius norm. -/
noncomputable def frobNorm (T : Matrix (Fin d) (Fin d) ℝ) : ℝ :=
  Real.sqrt (∑ i, ∑ j, T i j ^ 2)

/-- `|| |T| |T⁻¹| ||_F`. -/
noncomputable def condF (T : Matrix (Fin d) (Fin d) ℝ) : ℝ := frobNorm (absM T * absM T⁻¹)

/-- `expo x` is the binary exponent of `x`: `2^(expo x - 1) ≤ |x| < 2^(expo x)`. -/
def IsExponent (expo : ℝ → ℤ) : Prop :=
  ∀ x : ℝ, x ≠ 0 → (2 : ℝ) ^ (expo x - 1) ≤ |x| ∧ |x| < (2 : ℝ) ^ expo x

end HPLLL.Spec
