import Verif.Spec.Exact
import Verif.Proof.Refl
import Verif.Proof.IntOps
/-! The floating point vector operations under exact arithmetic. -/

namespace HPLLL
open Spec Finset

variable {o : FPOps ℝ}

theorem foldl_sum (ho : Exact o) (v w : ℕ → ℝ) (m : ℕ) (a : ℝ) :
    (List.range m).foldl (fun acc i => o.addmul acc (v (i + 1)) (w (i + 1))) a
      = a + ∑ i ∈ range m, v (i + 1) * w (i + 1) := by
  induction m with
  | zero => simp
  | succ m ih =>
    rw [List.range_succ, List.foldl_append, ih, sum_range_succ]
    simp only [List.foldl_cons, List.foldl_nil, ho.addmul]
    ring

theorem scalarprod_exact (ho : Exact o) (v w : ℕ → ℝ) (m : ℕ) (hm : 0 < m) :
    scalarprod o v w m = ∑ i ∈ range m, v i * w i := by
  obtain ⟨k, rfl⟩ : ∃ k, m = k + 1 := ⟨m - 1, by omega⟩
  unfold scalarprod
  rw [foldl_sum ho, ho.mul, sum_range_succ']
  simp only [Nat.add_sub_cancel]; ring

theorem fpNormSq_exact (ho : Exact o) (v : ℕ → ℝ) (m : ℕ) (hm : 0 < m) :
    fpNormSq o v m = ∑ i ∈ range m, v i * v i := scalarprod_exact ho v v m hm

theorem getSiExp_one (ho : Exact o) {k : ℤ} (h0 : (o.getSiExp k).2 = 0) :
    (o.getSiExp k).1 = k := by
  have := ho.getSiExp k
  rw [h0] at this; simpa using this

theorem redR_exact (ho : Exact o) (κ i len : ℕ) (k : ℤ) (R : Mat ℝ) :
    redR o κ i len k R = setCol R κ fun r => if r < len then R κ r - k * R i r else R κ r := by
  unfold redR
  simp only []
  split
  · rename_i h0
    have hk := getSiExp_one ho h0
    split
    · rename_i h1
      rw [h1] at hk
      simp only [fsubcol, ho.sub]
      rw [← hk]; simp
    · split
      · rename_i h1
        rw [h1] at hk
        simp only [faddcol, ho.add]
        rw [← hk]; congr 1; funext r; split
        · push_cast; ring
        · rfl
      · simp only [fsubmulcol, ho.submul]
  · simp only [fsubmulcol, ho.submul]

theorem multOf_exact (ho : Exact o) (fl : Bool) (k : ℤ) : multOf o fl (k : ℝ) (k : ℝ) = -k := by
  unfold multOf
  split
  · rename_i h0
    have hk := getSiExp_one ho h0
    split
    · rename_i h1; rw [h1] at hk; omega
    · split
      · rename_i h1; rw [h1] at hk; omega
      · split
        · rw [hk]
        · rw [ho.toZ]
  · split
    · rw [neg_mul, ho.getSiExp]
    · rw [ho.toZ]

end HPLLL
