import Verif.Spec.Lattice
import Mathlib.Analysis.InnerProductSpace.GramSchmidtOrtho
import Mathlib.Analysis.InnerProductSpace.PiL2
/-!
# Specification: LLL-reduced bases

The textbook definition, on Mathlib's Gram–Schmidt orthogonalisation.
-/

namespace HPLLL.Spec

open InnerProductSpace

variable {n d : ℕ}

/-- Column `j` as a vector of Euclidean space. -/
noncomputable def colVec (M : Matrix (Fin n) (Fin d) ℤ) (j : Fin d) : EuclideanSpace ℝ (Fin n) :=
  WithLp.toLp 2 fun i => (M i j : ℝ)

/-- Gram–Schmidt vectors `b*_j` of the columns. -/
noncomputable def gs (M : Matrix (Fin n) (Fin d) ℤ) : Fin d → EuclideanSpace ℝ (Fin n) :=
  gramSchmidt ℝ (colVec M)

/-- Gram–Schmidt coefficient `μ_ij = ⟨b_i, b*_j⟩ / ‖b*_j‖²`. -/
noncomputable def mu (M : Matrix (Fin n) (Fin d) ℤ) (i j : Fin d) : ℝ :=
  inner ℝ (gs M j) (colVec M i) / ‖gs M j‖ ^ 2

/-- `|μ_ij| ≤ 1/2` for `j < i`. -/
def SizeReduced (M : Matrix (Fin n) (Fin d) ℤ) : Prop :=
  ∀ i j : Fin d, j < i → |mu M i j| ≤ 1 / 2

/-- Lovász conditions with parameter `δ`. -/
def LovaszCond (δ : ℝ) (M : Matrix (Fin n) (Fin d) ℤ) : Prop :=
  ∀ i j : Fin d, (j : ℕ) + 1 = i → δ * ‖gs M j‖ ^ 2 ≤ ‖gs M i‖ ^ 2 + mu M i j ^ 2 * ‖gs M j‖ ^ 2

/-- LLL-reduced with parameter `δ`. -/
def LLLReduced (δ : ℝ) (M : Matrix (Fin n) (Fin d) ℤ) : Prop :=
  SizeReduced M ∧ LovaszCond δ M

/-- `M` becomes LLL-reduced by adding to each column an integer combination of the previous ones
(multiplication by an upper triangular integer matrix with ones on the diagonal). -/
def ReducedUpToSize (δ : ℝ) (M : Matrix (Fin n) (Fin d) ℤ) : Prop :=
  ∃ T : Matrix (Fin d) (Fin d) ℤ, (∀ i, T i i = 1) ∧ (∀ i j, j < i → T i j = 0) ∧
    LLLReduced δ (M * T)

end HPLLL.Spec
