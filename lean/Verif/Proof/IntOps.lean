import Verif.Model.Lattice
import Verif.Spec.Lattice
import Mathlib.LinearAlgebra.Matrix.Transvection
import Mathlib.LinearAlgebra.Matrix.Permutation
import Mathlib.Tactic.Ring
import Mathlib.Tactic.Linarith
/-! Helper lemmas: integer column operations as multiplications by unimodular matrices. -/

namespace HPLLL
open Spec Matrix

@[simp] theorem setCol_same {α} (M : Mat α) (j : Nat) (c) : setCol M j c j = c := by simp [setCol]
theorem setCol_ne {α} (M : Mat α) {j j' : Nat} (c) (h : j' ≠ j) : setCol M j c j' = M j' := by
  simp [setCol, h]
@[simp] theorem setAt_same {α} (v : Nat → α) (i : Nat) (a) : setAt v i a i = a := by simp [setAt]
theorem setAt_ne {α} (v : Nat → α) {i i' : Nat} (a) (h : i' ≠ i) : setAt v i a i' = v i' := by
  simp [setAt, h]

/-- Canonical form of all the integer column operations. -/
def axpy (M : Mat Int) (κ i : Nat) (c : Int) (l : Nat) : Mat Int :=
  setCol M κ fun r => if r < l then M κ r + c * M i r else M κ r

/-- The integer multiple of column `i` that `redZ` adds to column `κ`. -/
def multOf {F : Type} (o : FPOps F) (fastLong : Bool) (x xz : F) : Int :=
  if (o.getSiExp x).2 = 0 then
    if (o.getSiExp x).1 = 1 then -1
    else if (o.getSiExp x).1 = -1 then 1
    else if fastLong then -(o.getSiExp x).1
    else -(o.toZ xz)
  else if fastLong then -(o.getSiExp x).1 * 2 ^ (o.getSiExp x).2
  else -(o.toZ xz)

theorem redZ_eq {F} (o : FPOps F) (fl : Bool) (κ i l : Nat) (x xz : F) (M : Mat Int) :
    redZ o fl κ i l x xz M = axpy M κ i (multOf o fl x xz) l := by
  unfold redZ multOf axpy
  simp only []
  split
  · split
    · simp only [subcol]; congr 1; funext r; split <;> ring
    · split
      · simp only [addcol]; congr 1; funext r; split <;> ring
      · split
        · simp only [addmulcolSi]; congr 1; funext r; split <;> ring
        · simp only [submulcol]; congr 1; funext r; split <;> ring
  · split
    · simp only [addmulcolSi2exp]; congr 1; funext r; split <;> ring
    · simp only [submulcol]; congr 1; funext r; split <;> ring

theorem predZ_eq {F} (o : FPOps F) (fl : Bool) (κ i ibeg nloc : Nat) (x : F) (M : Mat Int)
    (hx : o.isZero x = false) :
    predZ o fl κ i ibeg nloc x M =
      setCol M κ fun r => if ibeg ≤ r ∧ r < nloc + ibeg then M κ r + multOf o fl x x * M i r
        else M κ r := by
  unfold predZ multOf
  simp only [hx]
  simp only [Bool.false_eq_true, if_false]
  split
  · split
    · simp only [psubcol]; congr 1; funext r; split <;> ring
    · split
      · simp only [paddcol]; congr 1; funext r; split <;> ring
      · split
        · simp only [paddmulcolSi]; congr 1; funext r; split <;> ring
        · simp only [psubmulcol]; congr 1; funext r; split <;> ring
  · split
    · simp only [paddmulcolSi2exp]; congr 1; funext r; split <;> ring
    · simp only [psubmulcol]; congr 1; funext r; split <;> ring

/-- A column operation that covers the support of column `i` is a transvection. -/
theorem toMatrix_axpy (n d : Nat) (M : Mat Int) (κ i : Fin d) (hne : i ≠ κ) (c : Int) (l : Nat)
    (hl : ∀ r, l ≤ r → r < n → M i r = 0) :
    toMatrix n d (axpy M κ i c l) = toMatrix n d M * transvection i κ c := by
  ext r j
  by_cases hj : j = κ
  · subst hj
    rw [mul_transvection_apply_same]
    simp only [toMatrix, axpy, of_apply, setCol_same]
    split
    · rfl
    · rw [hl r (by omega) r.2]; simp
  · rw [mul_transvection_apply_of_ne _ _ _ _ hj]
    simp only [toMatrix, axpy, of_apply]
    rw [setCol_ne]
    intro h; exact hj (Fin.ext h)

theorem det_swapMat {d : Nat} (i j : Fin d) (h : i ≠ j) :
    (((Equiv.swap i j).permMatrix ℤ)).det = -1 := by
  rw [Matrix.det_permutation]; simp [Equiv.Perm.sign_swap h]

theorem toMatrix_colswap (n d : Nat) (M : Mat Int) (i j : Fin d) :
    toMatrix n d (colswap M i j) = toMatrix n d M * (Equiv.swap i j).permMatrix ℤ := by
  rw [Equiv.Perm.permMatrix, PEquiv.mul_toMatrix_toPEquiv]
  ext r c
  simp only [toMatrix, colswap, of_apply, submatrix_apply, id, Equiv.symm_swap]
  by_cases h1 : c = i
  · subst h1; simp
  · by_cases h2 : c = j
    · subst h2
      have : ¬ ((c : Nat) = i) := fun h => h1 (Fin.ext h)
      simp [this]
    · have h1' : ¬ ((c : Nat) = i) := fun h => h1 (Fin.ext h)
      have h2' : ¬ ((c : Nat) = j) := fun h => h2 (Fin.ext h)
      rw [Equiv.swap_apply_of_ne_of_ne h1 h2]
      simp [h1', h2']

theorem lattice_eq_range {n d : ℕ} (M : Matrix (Fin n) (Fin d) ℤ) :
    lattice M = LinearMap.range M.mulVecLin := by
  rw [Matrix.range_mulVecLin]; rfl

theorem lattice_mul_unit {n d : ℕ} (A : Matrix (Fin n) (Fin d) ℤ) (W : Matrix (Fin d) (Fin d) ℤ)
    (h : IsUnit W.det) : lattice (A * W) = lattice A := by
  rw [lattice_eq_range, lattice_eq_range]
  apply le_antisymm
  · rintro _ ⟨v, rfl⟩
    exact ⟨W.mulVec v, by simp [Matrix.mulVec_mulVec]⟩
  · rintro _ ⟨v, rfl⟩
    refine ⟨W⁻¹.mulVec v, ?_⟩
    simp [Matrix.mulVec_mulVec, Matrix.mul_nonsing_inv _ h]

theorem unimodular_of_isUnit {d : ℕ} {W : Matrix (Fin d) (Fin d) ℤ} (h : IsUnit W.det) :
    Unimodular W := Int.isUnit_iff.mp h

/-- Gram determinant is invariant. -/
theorem gram_det_mul_unit {n d : ℕ} (A : Matrix (Fin n) (Fin d) ℤ)
    (W : Matrix (Fin d) (Fin d) ℤ) (h : IsUnit W.det) :
    ((A * W)ᵀ * (A * W)).det = (Aᵀ * A).det := by
  have : (A * W)ᵀ * (A * W) = Wᵀ * (Aᵀ * A) * W := by
    simp [Matrix.transpose_mul, Matrix.mul_assoc]
  rw [this, Matrix.det_mul, Matrix.det_mul, Matrix.det_transpose]
  rcases Int.isUnit_iff.mp h with h | h <;> rw [h] <;> ring

end HPLLL
