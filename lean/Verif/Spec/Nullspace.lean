import Verif.Spec.Lattice
import Mathlib.LinearAlgebra.Matrix.Rank
/-!
# Specification vocabulary: integer kernels

Independent of the model: plain Mathlib linear algebra over `ℤ`.
-/

namespace HPLLL.Spec
open Matrix

/-- All integer vectors `v` with `A v = 0`. -/
def kernelZ {d n : ℕ} (A : Matrix (Fin d) (Fin n) ℤ) : Submodule ℤ (Fin n → ℤ) :=
  LinearMap.ker A.mulVecLin

/-- The columns of `C` are a basis of the integer kernel of `A`. -/
def IsKernelBasis {d n k : ℕ} (A : Matrix (Fin d) (Fin n) ℤ) (C : Matrix (Fin n) (Fin k) ℤ) : Prop :=
  FullColumnRank C ∧ lattice C = kernelZ A

/-- A vector with a nonzero multiple in the lattice is in the lattice. -/
def Primitive {n k : ℕ} (C : Matrix (Fin n) (Fin k) ℤ) : Prop :=
  ∀ (v : Fin n → ℤ) (m : ℤ), m ≠ 0 → m • v ∈ lattice C → v ∈ lattice C

/-- What can be said of a matrix returned by a nullspace function: its columns are independent integer
relations of `A`, no primitive relation is missed in the space they span, and they are a basis of the
whole kernel exactly when there are `n - rank A` of them. -/
structure KernelPart {d n k : ℕ} (A : Matrix (Fin d) (Fin n) ℤ) (C : Matrix (Fin n) (Fin k) ℤ) :
    Prop where
  zero : A * C = 0
  rank : FullColumnRank C
  primitive : Primitive C
  count : A.rank + k ≤ n
  basis : IsKernelBasis A C ↔ A.rank + k = n

end HPLLL.Spec
