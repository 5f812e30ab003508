import Verif.Proof.SetcolFin
import Verif.Spec.ExtNum
import Verif.Model.DpeCol

namespace HPLLL
namespace PE
open Spec

theorem wrap32_eq {z : ℤ} (h1 : -2 ^ 31 ≤ z) (h2 : z < 2 ^ 31) : wrap32 z = z := by
  unfold wrap32
  rw [Int.bmod_eq_of_le] <;> norm_num <;> omega

theorem ldexpFin_zero {w : Nat} {rd : ℚ → ℤ} (h : NearestInt rd) (k : ℤ) : ldexpFin w rd 0 k = 0 := by
  unfold ldexpFin
  rw [nearest_small h] <;> norm_num

theorem ExtNormal.facts {p : Nat} {a : ℚ × ℤ} (h : ExtNormal p a) (h0 : extVal a ≠ 0) :
    (∃ n : ℤ, a.1 = n / 2 ^ p) ∧ 1 / 2 ≤ |a.1| ∧ |a.1| < 1 ∧ -2 ^ 30 < a.2 ∧ a.2 < 2 ^ 30 := by
  rcases h with h | h
  · exact absurd (by rw [h]; simp [extVal]) h0
  · exact h

theorem ExtNormal.of_zero {p : Nat} {a : ℚ × ℤ} (h : ExtNormal p a) (h0 : extVal a = 0) :
    a = (0, -2 ^ 31) := by
  rcases h with h | ⟨-, h, -⟩
  · exact h
  · exfalso
    unfold extVal at h0
    rcases mul_eq_zero.mp h0 with h1 | h1
    · rw [h1] at h; norm_num at h
    · exact zpow_ne_zero _ (by norm_num) h1

theorem extVal_abs (a : ℚ × ℤ) : |extVal a| = |a.1| * 2 ^ a.2 := by
  unfold extVal
  rw [abs_mul, abs_of_pos (zpow_pos (by norm_num : (0 : ℚ) < 2) _)]

section
variable {p w : Nat} {rd : ℚ → ℤ} {c : (Nat → ℚ) × ℤ} {vd : Nat → ℚ × ℤ} {nmax : Nat}

theorem setcolDpe_exp (h : nmax ≠ 0) :
    (setcolDpe w rd c vd nmax).2 = maxExp (fun i => (vd i).2) (-2 ^ 31) 0 nmax := by
  unfold setcolDpe; rw [if_neg h]

theorem setcolDpe_apply {i : Nat} (h : i < nmax) :
    (setcolDpe w rd c vd nmax).1 i =
      ldexpFin w rd (vd i).1 (wrap32 ((vd i).2 - maxExp (fun i => (vd i).2) (-2 ^ 31) 0 nmax)) := by
  unfold setcolDpe; rw [if_neg (by omega)]; simp [h]

/-- The exponent of the column, in a column which is not zero. -/
theorem dpe_lead (hv : ∀ i, i < nmax → ExtNormal p (vd i)) (hx : ∃ i, i < nmax ∧ extVal (vd i) ≠ 0) :
    ∃ k, k < nmax ∧ extVal (vd k) ≠ 0 ∧ maxExp (fun i => (vd i).2) (-2 ^ 31) 0 nmax = (vd k).2 ∧
      ∀ i, i < nmax → (vd i).2 ≤ (vd k).2 := by
  obtain ⟨h1, h2, h3⟩ := foldl_max_spec (fun i => (vd i).2) 0 nmax (-2 ^ 31)
  simp only [Nat.zero_add] at h1 h3
  obtain ⟨j, hj, hj0⟩ := hx
  have hf := (ExtNormal.facts (hv j hj) hj0).2.2.2.1
  have hle := h1 j hj
  rcases h3 with h3 | ⟨k, hk, h3⟩
  · rw [h3] at hle; norm_num at hle hf; omega
  · refine ⟨k, hk, fun h0 => ?_, h3, fun i hi => h3 ▸ h1 i hi⟩
    have := ExtNormal.of_zero (hv k hk) h0
    rw [h3, this] at hle
    norm_num at hle hf; omega

/-- What an entry becomes. -/
theorem setcolDpe_entry (hn : NearestInt rd) (hv : ∀ i, i < nmax → ExtNormal p (vd i))
    (hx : ∃ i, i < nmax ∧ extVal (vd i) ≠ 0) :
    ∃ k, k < nmax ∧ extVal (vd k) ≠ 0 ∧ (setcolDpe w rd c vd nmax).2 = (vd k).2 ∧
      ∀ i, i < nmax → (vd i).2 ≤ (vd k).2 ∧
        (setcolDpe w rd c vd nmax).1 i = ldexpFin w rd (vd i).1 ((vd i).2 - (vd k).2) := by
  obtain ⟨k, hk, hk0, he, hm⟩ := dpe_lead hv hx
  refine ⟨k, hk, hk0, ?_, fun i hi => ⟨hm i hi, ?_⟩⟩
  · rw [setcolDpe_exp (by omega), he]
  · rw [setcolDpe_apply hi, he]
    by_cases h0 : extVal (vd i) = 0
    · rw [ExtNormal.of_zero (hv i hi) h0]
      rw [ldexpFin_zero hn, ldexpFin_zero hn]
    · have a := (ExtNormal.facts (hv i hi) h0).2.2.2
      have b := (ExtNormal.facts (hv k hk) hk0).2.2.2
      rw [wrap32_eq] <;> norm_num at a b ⊢ <;> omega

end

theorem frexp_spec (x : ℚ) : (frexp x).1 * 2 ^ (frexp x).2 = x ∧ |(frexp x).1| < 1 ∧
    (x ≠ 0 → 1 / 2 ≤ |(frexp x).1|) := by
  by_cases hx : x = 0
  · simp [frexp, hx]
  · have hx0 : 0 < |x| := abs_pos.mpr hx
    have h1 := Int.zpow_log_le_self (b := 2) (by norm_num) hx0
    have h2 := Int.lt_zpow_succ_log_self (b := 2) (by norm_num) (r := |x|)
    push_cast at h1 h2
    have hE : (0 : ℚ) < 2 ^ (Int.log 2 |x| + 1) := zpow_pos (by norm_num) _
    have hEe : (2 : ℚ) ^ (Int.log 2 |x| + 1) = 2 ^ Int.log 2 |x| * 2 := by
      rw [zpow_add_one₀ (by norm_num)]
    unfold frexp
    rw [if_neg hx]
    refine ⟨by field_simp, ?_, fun _ => ?_⟩
    · rw [abs_div, abs_of_pos hE, div_lt_one hE]; exact h2
    · rw [abs_div, abs_of_pos hE, le_div_iff₀ hE, hEe]; linarith

end PE
end HPLLL
