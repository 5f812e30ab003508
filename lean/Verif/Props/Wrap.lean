import Verif.Proof.Wrap
import Verif.Props.History
import Verif.Props.Trunc
import Verif.Props.MatH
/-!
# Properties of the wrappers (C37) and of the command line program (C44)
-/

namespace HPLLL.Props
open HPLLL Spec Matrix

variable {F G H : Type}

/-- `C` is a basis of the lattice of the `d` columns of `A` in the sense of the library: its `d`
columns generate the same lattice, and when those of `A` are independent it is `A` times a unimodular
matrix. -/
def SameBasisLattice (n d : ℕ) (A C : Mat Int) : Prop :=
  lattice (toMatrix n d C) = lattice (toMatrix n d A) ∧
    (FullColumnRank (toMatrix n d A) → ∃ W : Matrix (Fin d) (Fin d) ℤ, Unimodular W ∧
      toMatrix n d C = toMatrix n d A * W)

theorem sameBasisLattice_of_eq {n d : ℕ} {A C : Mat Int}
    (h : lattice (toMatrix n d C) = lattice (toMatrix n d A)) : SameBasisLattice n d A C :=
  ⟨h, fun hr => by
    obtain ⟨W, hW, hC⟩ := unimodular_of_lattice_eq _ _ h hr
    exact ⟨W, unimodular_of_isUnit hW, hC⟩⟩

theorem wrapCheck_ok (o3 : FPOps H) (junk3 δ3 : H) (fuel n d : ℕ) (C : Mat Int) (check : Bool)
    (vd vd' : ℤ) (h : wrapCheck o3 junk3 δ3 fuel n d C check vd = some vd') : vd' = vd := by
  unfold wrapCheck at h
  split at h
  · split at h
    · simp at h
    rename_i st s hs
    simp only [Option.some.injEq] at h
    have hv : s.verboseDepth = vd - 1 := by
      unfold Lat.isreduced at hs
      split at hs
      · simp at hs
      rename_i st1 s1 hl
      simp only [Option.some.injEq, Prod.mk.injEq] at hs
      obtain ⟨-, rfl⟩ := hs
      have hI : LInv n d C False
          ((newLattice o3 junk3 n d C false 0 true (vd - 1)).isreducedPrep o3 junk3) := by
        obtain ⟨hn, hd, hlt, hmono, hsupp, hseq, husupp, htr, W, hW, hB, -⟩ :=
          LInv.of_basis (n := n) (d := d) C False
            (newLattice o3 junk3 n d C false 0 true (vd - 1)) rfl rfl rfl rfl (fun h => h.elim)
        exact ⟨hn, hd, hlt, hmono, hsupp, fun h => h.elim, fun h => h.elim, fun h => h.elim, W, hW, hB,
          fun h => h.elim⟩
      exact (hlll_exit o3 fuel δ3 true _ s1 st1 hI (le_refl d) hl).cfg.verboseDepth
    omega
  · simpa using h.symm

/-- **C37.** In every dimension `d` (one, two or three phases), for every arithmetic of each phase and
of the check, every storage content, every `delta` and with or without the check: when the wrappers
return, `C` has the lattice of `A` — for the `long` and 128 bit wrappers provided `matrix_cast` reported no
error — and the global `verboseDepth` is restored. -/
theorem C37_wrappers (w : WrapArith F G H) (fuel n d : ℕ) (check : Bool) (A C : Mat Int) (vd vd' : ℤ) :
    (hlllMpz w dimPrec1 dimPrec2 fuel n d check A vd = some (C, vd') →
      SameBasisLattice n d A C ∧ vd' = vd) ∧
    (hlllLong w dimPrec1 dimPrec2 fuel n d check A vd = some (C, vd') →
      ((matrixCastLong n d A).1 = false → SameBasisLattice n d A C) ∧ vd' = vd) ∧
    (hlll128 w dimPrec1 dimPrec2 fuel n d check A vd = some (C, vd') →
      ((matrixCast128 n d A).1 = false → SameBasisLattice n d A C) ∧ vd' = vd) := by
  have h12 : dimPrec1 ≤ dimPrec2 := by decide
  refine ⟨fun h => ?_, fun h => ?_, fun h => ?_⟩
  · unfold hlllMpz at h
    split at h
    · simp at h
    rename_i C1 v1 h1
    split at h
    · simp at h
    rename_i v2 h2
    simp only [Option.some.injEq, Prod.mk.injEq] at h
    obtain ⟨rfl, rfl⟩ := h
    obtain ⟨e, rfl⟩ := threePhases_ok (wrapPhase_ok _ _ _ _ _ _ _ _) _ _ d h12 _ _ _ _ h1
    have := wrapCheck_ok _ _ _ _ _ _ _ _ _ _ h2
    exact ⟨sameBasisLattice_of_eq e, by omega⟩
  · unfold hlllLong at h
    split at h
    · simp at h
    rename_i C1 v1 h1
    split at h
    · simp at h
    rename_i v2 h2
    simp only [Option.some.injEq, Prod.mk.injEq] at h
    obtain ⟨rfl, rfl⟩ := h
    obtain ⟨e, rfl⟩ := threePhasesIn_ok (wrapPhase_ok _ _ _ _ _ _ _ _) _ _ d _ _ _ _ h1
    have := wrapCheck_ok _ _ _ _ _ _ _ _ _ _ h2
    refine ⟨fun hc => sameBasisLattice_of_eq ?_, by omega⟩
    rw [e, toMatrix_congr fun j hj i hi => (C30_no_silent_loss n d A).1 hc i hi j hj]
  · unfold hlll128 at h
    split at h
    · simp at h
    rename_i C1 v1 h1
    simp only [] at h
    split at h
    · simp at h
    rename_i v2 h2
    simp only [Option.some.injEq, Prod.mk.injEq] at h
    obtain ⟨rfl, rfl⟩ := h
    obtain ⟨e, rfl⟩ := threePhasesIn_ok (wrapPhase_ok _ _ _ _ _ _ _ _) _ _ d _ _ _ _ h1
    have := wrapCheck_ok _ _ _ _ _ _ _ _ _ _ h2
    refine ⟨fun hc => sameBasisLattice_of_eq ?_, by omega⟩
    rw [toMatrix_congr fun j hj i hi => (C30_matrix_cast n d C1).2.2 i hi j hj, e,
      toMatrix_congr fun j hj i hi => (C30_no_silent_loss n d A).2 hc i hi j hj]

/-- Three phases in the toy arithmetic, on thresholds 2 and 3 (the theorem above is about 330 and 430,
whose phases cannot be evaluated here): all the phases change the matrix. -/
def toyWrap : WrapArith Int Int Int :=
  { o := toyOps, junk := 7, delta := toy99, o2 := toyOps, junk2 := 8, delta2 := toy99,
    o3 := toyOps, junk3 := 9, delta3 := toy99 - toyScale / 10 }

def exWrap : Mat Int := ofCols [[1, 0, 0, 0], [5, 1, 0, 0], [7, 12, 3, 0], [13, 11, 29, 2]]

example : (hlllMpz toyWrap 2 3 40 4 4 true exWrap 3).map (fun r => (toCols 4 4 r.1, r.2)) =
    (hlllLong toyWrap 2 3 40 4 4 true exWrap 3).map (fun r => (toCols 4 4 r.1, r.2)) ∧
    (hlllMpz toyWrap 2 3 40 4 4 true exWrap 3).isSome = true := by decide +kernel

/-- The general form, for any thresholds. -/
theorem C37_phases (w : WrapArith F G H) (d1 d2 : ℕ) (h12 : d1 ≤ d2) (fuel n d : ℕ) (check : Bool)
    (A C : Mat Int) (vd vd' : ℤ) (h : hlllMpz w d1 d2 fuel n d check A vd = some (C, vd')) :
    SameBasisLattice n d A C ∧ vd' = vd := by
  unfold hlllMpz at h
  split at h
  · simp at h
  rename_i C1 v1 h1
  split at h
  · simp at h
  rename_i v2 h2
  simp only [Option.some.injEq, Prod.mk.injEq] at h
  obtain ⟨rfl, rfl⟩ := h
  obtain ⟨e, rfl⟩ := threePhases_ok (wrapPhase_ok _ _ _ _ _ _ _ _) _ _ d h12 _ _ _ _ h1
  have := wrapCheck_ok _ _ _ _ _ _ _ _ _ _ h2
  exact ⟨sameBasisLattice_of_eq e, by omega⟩

/-- **C37, exact arithmetic.** Up to 330 columns and when the test budget of the object (`2^32-1`, which
cannot be changed through the wrapper) exceeds `2 * potential + d`, the wrapper returns an LLL-reduced
basis. -/
theorem C37_reduced {o : FPOps ℝ} (ho : ExactTies o) (w : WrapArith ℝ G H) (hw : w.o = o) (n d : ℕ)
    (hd : d ≤ dimPrec1) (A : Mat Int) (vd : ℤ) (hA : FullColumnRank (toMatrix n d A))
    (h0 : 0 < w.delta) (h1 : w.delta ≤ 1) (hnb : 2 * potential n d A + d ≤ 4294967295) :
    ∃ C, (∀ fuel : ℕ, 2 * potential n d A + d + 2 ≤ fuel →
      hlllMpz w dimPrec1 dimPrec2 fuel n d false A vd = some (C, vd)) ∧
      LLLReduced w.delta (toMatrix n d C) ∧
      lattice (toMatrix n d C) = lattice (toMatrix n d A) := by
  obtain ⟨s', hs, hr, hl⟩ := C10_total_correctness ho w.junk n d A false 0 (by norm_num) true (vd - 1)
    1 (by norm_num) 1000000 4294967295 hA w.delta h0 h1 true (by exact_mod_cast hnb)
  refine ⟨s'.getbase.M, fun fuel hf => ?_, hr, hl⟩
  have hh : hlll o fuel w.delta true (newLattice o w.junk n d A false 0 true (vd - 1)) = some (0, s') :=
    hs fuel hf
  have hp : reducePhase w.o w.junk fuel w.delta 0 n d A (vd - 1) = some (s'.getbase.M, s'.verboseDepth) := by
    unfold reducePhase
    rw [hw, hh]
  have hv := (reducePhase_ok _ _ _ _ _ _ _ _ _ _ _ hp).2
  unfold hlllMpz threePhases wrapPhase
  rw [if_pos hd]
  simp only [if_true, hp, wrapCheck, Bool.false_eq_true, if_false]
  rw [hv]
  simp

/-- **C37, DEFECT.** The default `check = true` on a single column reads an element outside of `R`
(`isreduced` prints `R(0,1)`, hlll.cc:2304). -/
theorem C37_single_column_check (o3 : FPOps H) (junk3 δ3 : H) (fuel n : ℕ) (C : Mat Int) (vd : ℤ)
    (st : ℤ) (s : Lat H)
    (h : (newLattice o3 junk3 n 1 C false 0 true (vd - 1)).isreduced o3 junk3 fuel δ3 = some (st, s)) :
    s.ub = true := by
  unfold Lat.isreduced at h
  split at h
  · simp at h
  rename_i st1 s1 hl
  simp only [Option.some.injEq, Prod.mk.injEq] at h
  obtain ⟨-, rfl⟩ := h
  show s1.ub = true
  -- one column: the loop of `hlll` is not entered
  unfold hlll at hl
  simp only [if_true] at hl
  split at hl
  · simp at hl
  rename_i st2 s2 h2
  simp only [Option.some.injEq, Prod.mk.injEq] at hl
  obtain ⟨-, rfl⟩ := hl
  cases fuel with
  | zero => simp [hlllLoop] at h2
  | succ f =>
    rw [hlllLoop, if_neg] at h2
    · simp only [Option.some.injEq, Prod.mk.injEq] at h2
      obtain ⟨-, rfl⟩ := h2
      simp [hlllInit, Lat.isreducedPrep, newLattice, Lat.setprec, Lat.householder]
    · simp [hlllInit, Lat.isreducedPrep, newLattice, Lat.setprec, Lat.householder]

/-- **C44.** The program prints a `d × n` matrix whose *rows* generate the lattice of the columns of
the matrix built from the command line, for every floating point behaviour. -/
theorem C44_program (o : FPOps F) (junk : F) (fuel : ℕ) (δ : F) (n d : ℕ) (A : Mat Int) (Z : ZMat)
    (h : hplllMain o junk fuel δ n d A = some Z) :
    Z.rows = d ∧ Z.cols = n ∧
      lattice (toMatrix d n Z.M)ᵀ = lattice (toMatrix n d A) ∧
      (FullColumnRank (toMatrix n d A) → ∃ W : Matrix (Fin d) (Fin d) ℤ, Unimodular W ∧
        toMatrix d n Z.M = W * (toMatrix n d A)ᵀ) := by
  unfold hplllMain at h
  split at h
  · simp at h
  rename_i B v hB
  simp only [Option.some.injEq] at h
  subst h
  have ht : (toMatrix d n (transposeTo n d B fun _ _ => 0))ᵀ = toMatrix n d B := by
    rw [C46_transpose_in, transpose_transpose]
  have hl := (reducePhase_ok _ _ _ _ _ _ _ _ _ _ _ hB).1
  refine ⟨rfl, rfl, by simp only [ht, hl], fun hr => ?_⟩
  obtain ⟨W, hW, hC⟩ := unimodular_of_lattice_eq _ _ hl hr
  refine ⟨Wᵀ, ?_, ?_⟩
  · have := unimodular_of_isUnit hW
    unfold Unimodular at *
    rwa [det_transpose]
  · show toMatrix d n (transposeTo n d B fun _ _ => 0) = _
    rw [C46_transpose_in, hC, transpose_mul]

/-- **C44, whole program with `-type cin`.** Input and output are `d × n` matrices in fplll's row
format: the rows of the output generate the lattice of the rows of the input. -/
theorem C44_rows (o : FPOps F) (junk : F) (fuel : ℕ) (δ : F) (n d : ℕ) (AT : Mat Int) (Z : ZMat)
    (h : hplllMain o junk fuel δ n d (commandLineCin d n AT) = some Z) :
    Z.rows = d ∧ Z.cols = n ∧
      lattice (toMatrix d n Z.M)ᵀ = lattice (toMatrix d n AT)ᵀ ∧
      (LinearIndependent ℤ (fun i : Fin d => fun k : Fin n => toMatrix d n AT i k) →
        ∃ W : Matrix (Fin d) (Fin d) ℤ, Unimodular W ∧ toMatrix d n Z.M = W * toMatrix d n AT) := by
  obtain ⟨h1, h2, h3, h4⟩ := C44_program o junk fuel δ n d _ Z h
  have e : toMatrix n d (commandLineCin d n AT) = (toMatrix d n AT)ᵀ := C46_transpose_in d n AT _
  rw [e] at h3 h4
  exact ⟨h1, h2, h3, fun hl => by simpa using h4 hl⟩

example : ((hplllMain toyOps 7 40 toy99 4 4 (commandLineCin 4 4 exWrap)).map fun Z => toCols 4 4 Z.M) =
    some [[0, 0, -1, 1], [-1, -1, 0, 0], [0, 0, -1, -2], [-1, 1, 0, 1]] := by decide +kernel

example : (hplllMain toyOps 7 40 toy99 4 4 exWrap).isSome = true := by decide +kernel

end HPLLL.Props
