import Verif.Model.NullShift
import Verif.Proof.NullLll
import Verif.Props.L1
/-! `nullspace_lll` with several shifts. -/

namespace HPLLL
open Spec Matrix

variable {F : Type} {o : FPOps F}

namespace Null

/-- The matrix of the loop is the input times a unimodular matrix. -/
structure ShiftInv (alpha d n : ℕ) (A : Mat Int) (s : ShiftState F) : Prop where
  hist : Props.PutHistory (d + n) n s.L
  tr : ∃ W : Matrix (Fin n) (Fin n) ℤ, IsUnit W.det ∧
    toMatrix (d + n) n s.B = toMatrix (d + n) n (nullLllInput alpha d A) * W

theorem shiftStart_inv (junk : F) (vd : ℤ) (alpha d n : ℕ) (A : Mat Int) :
    ShiftInv alpha d n A (shiftStart o junk vd alpha d n A) :=
  ⟨.new o junk _ 0 true vd (lllInput_fcr alpha d n A), 1, by simp, by rw [Matrix.mul_one]; rfl⟩

theorem shiftStep_inv {ex : ℤ → ℕ} {fuel : ℕ} {delta : F} {alpha d n : ℕ} {lsigma : ℤ} {A : Mat Int}
    {s s' : ShiftState F} (h : ShiftInv alpha d n A s)
    (hs : shiftStep o ex fuel delta d n lsigma s = some s') : ShiftInv alpha d n A s' := by
  unfold shiftStep at hs
  simp only [] at hs
  split at hs
  · simp at hs
  rename_i st L hL
  simp only [Option.some.injEq] at hs
  subst hs
  have hh : Props.PutHistory (d + n) n L := .hlll o delta true fuel st (.put _ h.hist) hL
  obtain ⟨W, hW, hB⟩ := h.tr
  refine ⟨hh, W * toMatrix n n L.getU.M, ?_, ?_⟩
  · rw [Matrix.det_mul]
    refine hW.mul ?_
    have := Props.C52_put_unimodular (d + n) n L hh
    have hu := hh.inv.1.u
    simp only [Lat.getU, hu.tr, if_true]
    exact hu.uni
  · rcases Nat.eq_zero_or_pos n with hn | hn
    · subst hn
      ext i j; exact j.elim0
    · rw [(Props.C46_products (d + n) n n hn s.B L.getU.M s.B).2.1, hB, Matrix.mul_assoc]

theorem shiftLoop_inv {ex : ℤ → ℕ} {fuel : ℕ} {delta : F} {alpha d n : ℕ} {lsigma : ℤ} {A : Mat Int} :
    ∀ (rounds : ℕ) (s s' : ShiftState F), ShiftInv alpha d n A s →
      shiftLoop o ex fuel delta d n lsigma rounds s = some s' →
      ShiftInv alpha d n A s' ∧ (n : ℤ) - d ≤ (zeroCols d n s'.B).length := by
  intro rounds
  induction rounds with
  | zero => intro s s' _ h; simp [shiftLoop] at h
  | succ rounds ih =>
    intro s s' hI h
    unfold shiftLoop at h
    split at h
    · simp at h
    rename_i s1 hs1
    have hI1 := shiftStep_inv hI hs1
    split at h
    · rename_i hz
      simp only [Option.some.injEq] at h
      subst h
      exact ⟨hI1, hz⟩
    · exact ih s1 s' hI1 h

/-- Zero columns of the input times a unimodular matrix. -/
theorem kernelPart_of_unit {alpha d n : ℕ} {A B : Mat Int} {W : Matrix (Fin n) (Fin n) ℤ}
    (hW : IsUnit W.det) (hB : toMatrix (d + n) n B = toMatrix (d + n) n (nullLllInput alpha d A) * W) :
    KernelPart (toMatrix d n A) (toMatrix n (zeroCols d n B).length
      fun j i => B ((zeroCols d n B).getD j 0) (i + d)) := by
  set z := zeroCols d n B with hzd
  have hent : ∀ (i : Fin (d + n)) (j : Fin n), B j i =
      ∑ k : Fin n, nullLllInput alpha d A k i * W k j := by
    intro i j
    have := congrFun (congrFun hB i) j
    rw [Matrix.mul_apply] at this
    exact this
  obtain ⟨V, hV⟩ : ∃ V : Matrix (Fin n) (Fin n) ℤ, V * W = 1 :=
    ⟨W⁻¹, Matrix.nonsing_inv_mul _ hW⟩
  have := select_zero (k := z.length) (A := toMatrix d n A) (B := toMatrix d n A * W) (T := W)
    (W := Vᵀ) rfl (by rw [Matrix.transpose_transpose]; exact hV)
    (fun j => ⟨z.getD j 0, (zeroCols_getD j.2).1⟩)
    (fun a b hab => by
      simp only [Fin.mk.injEq] at hab
      exact Fin.ext (zeroCols_inj a.2 b.2 hab))
    (fun j i => by
      have h1 := (zeroCols_getD j.2).2 i i.2
      have h2 := hent ⟨i, by omega⟩ ⟨z.getD j 0, (zeroCols_getD j.2).1⟩
      simp only at h2
      rw [h1] at h2
      simp only [nullLllInput, i.2, if_true] at h2
      rw [Matrix.mul_apply]
      simp only [toMatrix, of_apply]
      have h3 : (2 : ℤ) ^ alpha * ∑ k : Fin n, A k i * W k ⟨z.getD j 0, (zeroCols_getD j.2).1⟩ = 0 := by
        rw [Finset.mul_sum]
        exact (Finset.sum_congr rfl fun k _ => by ring).trans h2.symm
      exact (mul_eq_zero.1 h3).resolve_left (by positivity : (2 : ℤ) ^ alpha ≠ 0))
  convert this using 1
  ext i j
  simp only [toMatrix, of_apply]
  have h2 := hent ⟨i + d, by omega⟩ ⟨z.getD j 0, (zeroCols_getD j.2).1⟩
  simp only at h2
  rw [h2, Finset.sum_eq_single i]
  · simp [nullLllInput, add_comm]
  · intro b _ hb
    have : ¬ (i.1 + d = d + b.1) := fun e => hb (Fin.ext (by omega))
    simp [nullLllInput, this]
  · simp

theorem shifts_spec {ex : ℤ → ℕ} {junk : F} {fuel rounds : ℕ} {delta : F} {vd : ℤ} {alpha d n : ℕ}
    {lsigma : ℤ} {A : Mat Int} {r : NullRes}
    (h : nullspaceShifts o ex junk fuel rounds delta vd alpha d n lsigma A = some r) :
    r.ub = false ∧ ∃ k : ℕ, r.ret = k ∧ (n : ℤ) - d ≤ k ∧ r.C.rows = n ∧ r.C.cols = k ∧
      KernelPart (toMatrix d n A) (toMatrix n k r.C.M) := by
  unfold nullspaceShifts at h
  split at h
  · simp at h
  rename_i s hs
  simp only [Option.some.injEq] at h
  subst h
  obtain ⟨hI, hz⟩ := shiftLoop_inv rounds _ s (shiftStart_inv junk vd alpha d n A) hs
  obtain ⟨W, hW, hB⟩ := hI.tr
  exact ⟨hI.hist.safe.2 (by omega), _, rfl, hz, rfl, rfl, kernelPart_of_unit hW hB⟩

end Null
end HPLLL
