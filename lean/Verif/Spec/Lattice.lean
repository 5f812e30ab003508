import Mathlib.LinearAlgebra.Matrix.NonsingularInverse
import Mathlib.LinearAlgebra.Matrix.ToLin
import Mathlib.LinearAlgebra.Span.Basic
/-!
# Specification vocabulary: lattices, bases, unimodular transformations

Independent of the model: plain Mathlib linear algebra over `ℤ`.
-/

namespace HPLLL.Spec

/-- The n × d matrix stored in a column array (`M j i` = row `i` of column `j`). -/
def toMatrix (n d : ℕ) (M : ℕ → ℕ → ℤ) : Matrix (Fin n) (Fin d) ℤ :=
  Matrix.of fun i j => M j i

/-- The lattice generated by the columns of a matrix: all their integer combinations. -/
def lattice {n d : ℕ} (M : Matrix (Fin n) (Fin d) ℤ) : Submodule ℤ (Fin n → ℤ) :=
  Submodule.span ℤ (Set.range fun j : Fin d => fun i : Fin n => M i j)

/-- Determinant `±1`. -/
def Unimodular {d : ℕ} (U : Matrix (Fin d) (Fin d) ℤ) : Prop := U.det = 1 ∨ U.det = -1

/-- Linearly independent columns. -/
def FullColumnRank {n d : ℕ} (M : Matrix (Fin n) (Fin d) ℤ) : Prop :=
  LinearIndependent ℤ fun j : Fin d => fun i : Fin n => M i j

end HPLLL.Spec
