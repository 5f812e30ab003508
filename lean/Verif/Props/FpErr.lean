import Verif.Proof.FpErrQR
import Verif.Proof.Rfloat
import Verif.Props.FpRun
/-!
# C65: `hlll` in floating point — accuracy of the returned factor, reducedness up to rounding

Standard model of floating point arithmetic with unit roundoff `u` (Spec/FpErr).
-/

namespace HPLLL.Props
open HPLLL Spec

variable {F : Type} {o : FPOps F} {val : F → ℝ} {u : ℝ}

/-- Column `j` of an upper triangular matrix of floating point numbers, as real numbers. -/
noncomputable def rcol (val : F → ℝ) (R : Mat F) (j : Nat) : Nat → ℝ :=
  fun i => if i ≤ j then val (R j i) else 0

/-- Column `j` of an integer matrix, in Euclidean space. -/
noncomputable def bcol (n : Nat) (B : Mat Int) (j : Nat) : E n := vc n fun r => (B j r : ℝ)

theorem dim_le {n d : Nat} (A : Mat Int) (hA : FullColumnRank (toMatrix n d A)) : d ≤ n := by
  rcases Nat.eq_zero_or_pos d with h | h
  · omega
  · have hI := fresh_inv realOps 0 n d A false 0 false 0 1 0 0 False (fun h => h.elim)
    have hg := hI.geom hA
    have h1 := hg.diag (d - 1) (by omega)
    have h2 := hg.le (d - 1) (by omega)
    omega

/-- **C65.** When `hlll` returns 0 within its budget (and the computed diagonal has no zero), the
factor `R` returned by `getR()` is the exact triangular factor of a real basis close to `getbase()`:
there is an orthogonal `Q` with `Q R_j = b_j + Δ_j` and `|Δ_j| <= ((1 + hhErr)^(j+1) (1+u) - 1) |b_j|`.
This factor satisfies the Lovász conditions with `δ ((1-u)/(1+u))²`, and with the size reduction method
every column is size reduced up to rounding, or satisfies the weak condition of the anomaly test. -/
theorem C65_backward_stable (hs : StdModel o val u) (hz : ZeroLaws o) (junk : F) (n d : Nat) (hd : 2 ≤ d)
    (A : Mat Int) (forU : Bool) (method : Int) (longFlag : Bool) (vd : Int) (S : Nat) (thr : Int)
    (nb : Nat) (hA : FullColumnRank (toMatrix n d A)) (fuel : Nat) (δ : F) (v : Bool) (s' : Lat F)
    (h : hlll o fuel δ v (fresh o junk n d A forU method longFlag vd S thr nb) = some (0, s'))
    (hb : s'.nblov < nb) (hδ : 0 ≤ val δ) (hdiag : ∀ k < d, val (s'.getR o junk k k) ≠ 0) :
    (∃ Q : E n ≃ₗᵢ[ℝ] E n, ∀ j < d,
      ‖Q (vc n (rcol val (s'.getR o junk) j)) - bcol n s'.getbase.M j‖ ≤
        ((1 + hhErr n u) ^ (j + 1) * (1 + u) - 1) * ‖bcol n s'.getbase.M j‖) ∧
    (∀ k, 1 ≤ k → k < d →
      val δ * val (s'.getR o junk (k - 1) (k - 1)) ^ 2 * (1 - u) ^ 2 ≤
        (val (s'.getR o junk k k) ^ 2 + val (s'.getR o junk k (k - 1)) ^ 2) * (1 + u) ^ 2) ∧
    (method < 1 → ∀ k, 1 ≤ k → k < d →
      (∀ i < k, |val (s'.getR o junk k i)| ≤ 1 / (1 - u) / 2 * |val (s'.getR o junk i i)|) ∨
      (∀ i < k, |val (s'.getR o junk k i)| ≤ (1 / (1 - u)) ^ 2 * (|val (s'.getR o junk i i)| +
        1 / 100000000000 * (1 / (1 - u)) ^ (n + 5) * ‖bcol n s'.getbase.M k‖))) := by
  obtain ⟨h1, h2, h3⟩ := C64_final_tests hz junk n d hd A forU method longFlag vd S thr nb hA fuel δ v s'
    h hb
  have hdn := dim_le A hA
  have hex := hlll_exit o fuel δ v _ _ _
    (fresh_inv o junk n d A forU method longFlag vd S thr nb False (fun h => h.elim))
    (le_refl d) h
  have en : s'.n = n := hex.cfg.n
  have ed : s'.d = d := hex.cfg.d
  have eR : ∀ j < d, ∀ i ≤ j, s'.getR o junk j i = s'.fp.R j i := by
    intro j hj i hi
    simp only [Lat.getR, en, ed]
    rw [if_pos hi, if_pos (by omega)]
  have hdiag' : ∀ k < d, val (s'.fp.R k k) ≠ 0 := fun k hk => by
    rw [← eR k hk k (le_refl k)]; exact hdiag k hk
  refine ⟨?_, ?_, ?_⟩
  · obtain ⟨Q, hQ⟩ := Err.qr_backward (B := s'.getbase.M) hs hdn h1 hdiag'
    refine ⟨Q, fun j hj => ?_⟩
    have e : vc n (rcol val (s'.getR o junk) j) = vc n (Err.Rh val s'.fp.R j) := by
      refine Err.vc_congr fun i _ => ?_
      unfold rcol Err.Rh
      split
      · rw [eR j hj i (by assumption)]
      · rfl
    rw [e]; exact hQ j hj
  · intro k hk1 hk
    rw [eR (k - 1) (by omega) (k - 1) (le_refl _), eR k hk k (le_refl _), eR k hk (k - 1) (by omega)]
    exact Err.lovasz_val hs h1 hk hδ (h2 k hk1 hk)
  · intro hm k hk1 hk
    have := Err.size_val (B := s'.getbase.M) hs hdn hdiag' hk1 hk (h3 hm k hk1 hk)
    refine this.imp (fun g i hi => ?_) (fun g i hi => ?_)
    · rw [eR k hk i hi.le, eR i (by omega) i (le_refl _)]; exact g i hi
    · rw [eR k hk i hi.le, eR i (by omega) i (le_refl _)]; exact g i hi

/-- **C65, householder().** On any basis the factor computed by `householder()` is the exact triangular
factor of a nearby real basis. -/
theorem C65_householder (hs : StdModel o val u) (hz : ZeroLaws o) (junk : F) (n d : Nat) (hdn : d ≤ n)
    (A : Mat Int) (forU : Bool) (method : Int) (longFlag : Bool) (vd : Int)
    (hdiag : ∀ k < d, val (((newLattice o junk n d A forU method longFlag vd).householder o).getR o junk k k)
      ≠ 0) :
    ∃ Q : E n ≃ₗᵢ[ℝ] E n, ∀ j < d,
      ‖Q (vc n (rcol val (((newLattice o junk n d A forU method longFlag vd).householder o).getR o junk) j))
        - bcol n A j‖ ≤ ((1 + hhErr n u) ^ (j + 1) * (1 + u) - 1) * ‖bcol n A j‖ := by
  have h1 := Fl.householder_spec hz (newLattice o junk n d A forU method longFlag vd) hdn
  set s' := (newLattice o junk n d A forU method longFlag vd).householder o with hs'
  have en : s'.n = n := rfl
  have ed : s'.d = d := rfl
  have eR : ∀ j < d, ∀ i ≤ j, s'.getR o junk j i = s'.fp.R j i := by
    intro j hj i hi
    simp only [Lat.getR, en, ed]
    rw [if_pos hi, if_pos (by omega)]
  have hdiag' : ∀ k < d, val (s'.fp.R k k) ≠ 0 := fun k hk => by
    rw [← eR k hk k (le_refl k)]; exact hdiag k hk
  obtain ⟨Q, hQ⟩ := Err.qr_backward (B := A) hs hdn h1 hdiag'
  refine ⟨Q, fun j hj => ?_⟩
  have e : vc n (rcol val (s'.getR o junk) j) = vc n (Err.Rh val s'.fp.R j) := by
    refine Err.vc_congr fun i _ => ?_
    unfold rcol Err.Rh
    split
    · rw [eR j hj i (by assumption)]
    · rfl
  rw [e]; exact hQ j hj

/-- **C65, size of the error.** The relative error of column `j` is at most `72 (n+3) (j+2) u` as long
as this is at most 1. -/
theorem C65_error_size {n j : Nat} {u : ℝ} (hu0 : 0 ≤ u) (hu : 72 * (n + 3) * (j + 2) * u ≤ 1) :
    (1 + hhErr n u) ^ (j + 1) * (1 + u) - 1 ≤ 72 * (n + 3) * (j + 2) * u := Err.err_le hu0 hu

/-- Non-vacuity: a run with 53 bits floating point numbers (`u = 2^-51`), with swaps and reductions. -/
theorem rat_run : ∃ t : Lat Rat, hlll (ratOps 53) 60 (mkRat 99 100) false
      (fresh (ratOps 53) 7 3 3 (ofCols [[1, 0, 13], [0, 1, 8], [0, 0, 21]]) true 0 true 0 1 1000000 100)
        = some (0, t) ∧ t.nblov < 100 ∧ toCols 3 3 t.getbase.M = [[-1, -1, 0], [-1, 2, 3], [-2, 3, -2]] ∧
    ∀ k < 3, t.getR (ratOps 53) 7 k k ≠ 0 := by
  have : (match hlll (ratOps 53) 60 (mkRat 99 100) false
      (fresh (ratOps 53) 7 3 3 (ofCols [[1, 0, 13], [0, 1, 8], [0, 0, 21]]) true 0 true 0 1 1000000 100) with
    | some (st, t) => decide (st = 0 ∧ t.nblov < 100 ∧
        toCols 3 3 t.getbase.M = [[-1, -1, 0], [-1, 2, 3], [-2, 3, -2]] ∧
        (List.range 3).all (fun k => decide ((t.getR (ratOps 53) 7 k k).num ≠ 0)) = true)
    | none => false) = true := by decide +kernel
  split at this
  · rename_i st t e
    obtain ⟨rfl, h2, h3, h4⟩ := of_decide_eq_true this
    refine ⟨t, e, h2, h3, fun k hk h0 => ?_⟩
    have := List.all_eq_true.mp h4 k (List.mem_range.mpr hk)
    rw [h0] at this
    simp at this
  · simp at this

/-- The hypotheses of C65 are met by this run; the relative error of `R` is below `2^-40`. -/
example : ∃ t : Lat Rat, toCols 3 3 t.getbase.M = [[-1, -1, 0], [-1, 2, 3], [-2, 3, -2]] ∧
    ∃ Q : E 3 ≃ₗᵢ[ℝ] E 3, ∀ j < 3,
      ‖Q (vc 3 (rcol (fun x : Rat => (x : ℝ)) (t.getR (ratOps 53) 7) j)) - bcol 3 t.getbase.M j‖ ≤
        1 / 2 ^ 40 * ‖bcol 3 t.getbase.M j‖ := by
  obtain ⟨t, h1, h2, h3, h4⟩ := rat_run
  refine ⟨t, h3, ?_⟩
  have hstd := ratOps_std 53 (by norm_num)
  obtain ⟨⟨Q, hQ⟩, -, -⟩ := C65_backward_stable hstd (ratOps_zero 53) 7 3 3 (by norm_num) _ true 0 true 0 1
    1000000 100 toy_rank 60 (mkRat 99 100) false t h1 h2
    (by rw [Rat.mkRat_eq_div]; push_cast; norm_num) (fun k hk h0 => h4 k hk (by exact_mod_cast h0))
  refine ⟨Q, fun j hj => (hQ j hj).trans (mul_le_mul_of_nonneg_right ?_ (norm_nonneg _))⟩
  have hj' : (j : ℝ) ≤ 2 := by
    have : j ≤ 2 := by omega
    exact_mod_cast this
  have := C65_error_size (n := 3) (j := j) (u := 4 / 2 ^ 53) (by positivity) (by
    push_cast; norm_num; linarith)
  refine this.trans ?_
  push_cast; norm_num; linarith

end HPLLL.Props
