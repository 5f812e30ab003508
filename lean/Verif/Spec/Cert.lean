import Verif.Spec.LLL
import Mathlib.LinearAlgebra.Matrix.Determinant.Basic
/-!
# Specification: weakly size-reduced bases, volume

`(δ, η, θ)`-reduced bases in the sense of Chang, Stehlé and Villard ("Perturbation analysis of the QR
factor R in the context of LLL lattice basis reduction").
-/

namespace HPLLL.Spec

variable {n d : ℕ}

/-- `|r_ji| ≤ η r_jj + θ r_ii` for `j < i`, where `r_jj = ‖b*_j‖` and `r_ji = μ_ij ‖b*_j‖`. -/
def WeakSizeReduced (η θ : ℝ) (M : Matrix (Fin n) (Fin d) ℤ) : Prop :=
  ∀ i j : Fin d, j < i → |mu M i j| * ‖gs M j‖ ≤ η * ‖gs M j‖ + θ * ‖gs M i‖

/-- Volume of the lattice spanned by the columns: square root of the Gram determinant. -/
noncomputable def volume (M : Matrix (Fin n) (Fin d) ℤ) : ℝ :=
  Real.sqrt (((M.transpose * M).det : ℤ) : ℝ)

end HPLLL.Spec
