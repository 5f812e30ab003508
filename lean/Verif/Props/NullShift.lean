import Verif.Proof.NullShift
import Verif.Model.Near
import Verif.Props.NullExact
import Verif.Proof.Gen
/-!
# C77: `nullspace_lll` with several shifts

Any arithmetic, any shift step `lsigma` (also negative), any number of digits dropped by the truncating `put`.
-/

namespace HPLLL.Props
open Spec Matrix

/-- **C77.** If `nullspace_lll` with a shift step returns, no index was out of range, the value is a number
`k ≥ n - d` (never -1) and `C` is an `n × k` matrix of independent integer relations of `A` that misses no
primitive relation of their span, although every reduction of the loop works on a truncated basis, in an
object that keeps the profile of the first one. -/
theorem C77_shifts {F : Type} (o : FPOps F) (ex : ℤ → ℕ) (junk delta : F) (fuel rounds : ℕ) (vd : ℤ)
    (alpha d n : ℕ) (lsigma : ℤ) (A : Mat Int) (r : NullRes)
    (h : nullspaceShifts o ex junk fuel rounds delta vd alpha d n lsigma A = some r) :
    r.ub = false ∧ ∃ k : ℕ, r.ret = k ∧ (n : ℤ) - d ≤ k ∧ r.C.rows = n ∧ r.C.cols = k ∧
      KernelPart (toMatrix d n A) (toMatrix n k r.C.M) := Null.shifts_spec h

/-- **C77, rank `d`.** If `A` has rank `d`, what is returned is a basis of the integer kernel. -/
theorem C77_shifts_basis {F : Type} (o : FPOps F) (ex : ℤ → ℕ) (junk delta : F) (fuel rounds : ℕ) (vd : ℤ)
    (alpha d n : ℕ) (lsigma : ℤ) (A : Mat Int) (hA : (toMatrix d n A).rank = d) (r : NullRes)
    (h : nullspaceShifts o ex junk fuel rounds delta vd alpha d n lsigma A = some r) :
    r.ret = (n : ℤ) - d ∧ r.C.cols = n - d ∧
      IsKernelBasis (toMatrix d n A) (toMatrix n (n - d) r.C.M) := by
  obtain ⟨-, k, h1, h2, -, h3, hK⟩ := Null.shifts_spec h
  have := hK.count
  have e : k = n - d := by omega
  subst e
  exact ⟨by omega, h3, hK.basis.2 (by omega)⟩

/-- A run: three shifts by 4 bits find the kernel of `(30, 50, 17)`. -/
def shiftRun : Option NullRes :=
  nullspaceShifts (nearOps 53) (fun x => (x * 301029995 / 1000000000).toNat) 0 100 3
    (rnQ 53 (mkRat 999999999 1000000000)) 0 0 1 3 4 (ofCols [[30], [50], [17]])

theorem C77_run : (match shiftRun with
    | some r => (r.ret, r.C.rows, r.C.cols, toCols 3 2 r.C.M) == (2, 3, 2, [[-5, 3, 0], [-4, -1, 10]])
    | none => false) = true := by decide +kernel

/-- Hypotheses of `C77_shifts` and `C77_shifts_basis`: the run above, with a matrix of rank 1. -/
example : ∃ r, shiftRun = some r ∧ (toMatrix 1 3 (ofCols [[30], [50], [17]])).rank = 1 ∧
    IsKernelBasis (toMatrix 1 3 (ofCols [[30], [50], [17]])) (toMatrix 3 2 r.C.M) := by
  have h := C77_run
  cases hr : shiftRun with
  | none => rw [hr] at h; simp at h
  | some r =>
    have hk : (toMatrix 1 3 (ofCols [[30], [50], [17]])).rank = 1 :=
      rank_of_first (by omega) _ ((fcr_iff_det _).2 (by simp [toMatrix, ofCols, Matrix.det_unique]))
    exact ⟨r, rfl, hk, (C77_shifts_basis _ _ _ _ _ _ _ _ _ _ _ _ hk r hr).2.2⟩

end HPLLL.Props
