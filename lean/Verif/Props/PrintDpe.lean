import Verif.Proof.PrintDpe
/-!
# Properties of the printing of numbers with extended exponents
-/

namespace HPLLL.Props
open HPLLL

/-- **C90 (value printed).** `hplllprint` prints zero for zero only; otherwise the sign of the number
`v = mant 2^e2`, a significand `d` and an exponent `e10` such that `d 10^e10` is `|v|` up to one relative
error `u` (that of a product or division by ten) for each unit of `|e2|`. -/
theorem C90_value (u : ℚ) (hu0 : 0 ≤ u) (hu : u < 1) (rd : ℚ → ℚ) (h : RelErr u rd) (mant : ℚ) (e2 : Int) :
    (hplllprint rd mant e2 = none ↔ mant * 2 ^ e2 = 0) ∧
    ∀ sign d e10, hplllprint rd mant e2 = some (sign, d, e10) →
      (sign = true ↔ mant * 2 ^ e2 < 0) ∧
      (1 - u) ^ e2.natAbs * |mant * 2 ^ e2| ≤ d * 10 ^ e10 ∧
      d * 10 ^ e10 ≤ (1 + u) ^ e2.natAbs * |mant * 2 ^ e2| := by
  have h2 : (0 : ℚ) < 2 ^ e2 := by positivity
  refine ⟨?_, fun sign d e10 he => ?_⟩
  · unfold hplllprint
    constructor
    · intro hn
      split at hn
      · rename_i hm; rw [hm, zero_mul]
      · simp at hn
    · intro hm
      rw [if_pos ((mul_eq_zero.1 hm).resolve_right h2.ne')]
  · unfold hplllprint at he
    split at he
    · simp at he
    · rename_i hm
      simp only [Option.some.injEq, Prod.mk.injEq] at he
      obtain ⟨rfl, rfl, rfl⟩ := he
      have hd : (if mant < 0 then -mant else mant) = |mant| := by
        split
        · rename_i hn; exact (abs_of_neg hn).symm
        · rename_i hn; exact (abs_of_nonneg (not_lt.1 hn)).symm
      rw [hd]
      refine ⟨by simp [mul_neg_iff, h2, h2.le, not_lt.2 h2.le], ?_⟩
      have hp : 0 < |mant| := abs_pos.2 hm
      rw [abs_mul, abs_of_pos h2]
      split
      · rename_i hp2
        obtain ⟨k, rfl⟩ := Int.eq_ofNat_of_zero_le (le_of_lt hp2)
        have := printUp_err hu0 hu h k |mant| 0 hp
        simpa using this
      · rename_i hp2
        obtain ⟨k, hk⟩ := Int.eq_ofNat_of_zero_le (show 0 ≤ -e2 by omega)
        obtain rfl : e2 = -(k : Int) := by omega
        have := printDown_err hu0 hu h k |mant| 0 hp
        simpa [zpow_neg, div_eq_mul_inv] using this

/-- With no rounding, the text is the number. -/
theorem C90_exact (mant : ℚ) (e2 : Int) (sign : Bool) (d : ℚ) (e10 : Int)
    (h : hplllprint (fun x => x) mant e2 = some (sign, d, e10)) :
    (if sign then -1 else 1) * (d * 10 ^ e10) = mant * 2 ^ e2 := by
  obtain ⟨a, b, c⟩ := (C90_value 0 le_rfl (by norm_num) (fun x => x) (fun x _ => by simp) mant e2).2 _ _ _ h
  simp only [sub_zero, add_zero, one_pow, one_mul] at b c
  have e := le_antisymm c b
  rw [e]
  cases sign with
  | true => simp [abs_of_neg (a.1 rfl)]
  | false =>
    have : ¬ mant * 2 ^ e2 < 0 := fun hn => by simpa using a.2 hn
    simp [abs_of_nonneg (not_lt.1 this)]

/-- **C90 (scientific notation).** On a normalised number (`1/2 ≤ |mant| < 1`) with a non zero exponent,
the significand is between 1 and 10 (rounding: monotone, exact on 1 and 10), and less than 10 if nothing
is rounded. -/
theorem C90_normalised (rd : ℚ → ℚ) (hm : Monotone rd) (h1 : rd 1 = 1) (h10 : rd 10 = 10) (mant : ℚ)
    (e2 : Int) (hn1 : 1 / 2 ≤ |mant|) (hn2 : |mant| < 1) (he : e2 ≠ 0) (sign : Bool) (d : ℚ) (e10 : Int)
    (h : hplllprint rd mant e2 = some (sign, d, e10)) :
    1 ≤ d ∧ d ≤ 10 ∧ ((∀ x, rd x = x) → d < 10) := by
  unfold hplllprint at h
  split at h
  · simp at h
  · simp only [Option.some.injEq, Prod.mk.injEq] at h
    obtain ⟨-, rfl, -⟩ := h
    have hd : (if mant < 0 then -mant else mant) = |mant| := by
      split
      · rename_i hn; exact (abs_of_neg hn).symm
      · rename_i hn; exact (abs_of_nonneg (not_lt.1 hn)).symm
    rw [hd]
    split
    · obtain ⟨a, b⟩ := printUp_norm hm h1 h10 e2.toNat |mant| 0 hn1 (by linarith) (Or.inr (by omega))
      refine ⟨a, b, fun hx => ?_⟩
      obtain rfl : rd = fun x => x := funext hx
      exact printUp_lt _ _ _ (by linarith) (by linarith)
    · obtain ⟨a, b⟩ := printDown_norm hm h1 h10 (-e2).toNat |mant| 0 hn1 (by linarith) (Or.inr (by omega))
      refine ⟨a, b, fun hx => ?_⟩
      obtain rfl : rd = fun x => x := funext hx
      exact printDown_lt _ _ _ (by linarith) (by linarith)

/-- The number -0.75 · 2^10 = -768 is printed as -7.68 · 10^2, and 0.75 · 2^-3 as 9.375 · 10^-2. -/
example : hplllprint (fun x => x) (-3 / 4) 10 = some (true, 768 / 100, 2) ∧
    hplllprint (fun x => x) (3 / 4) (-3) = some (false, 9375 / 1000, -2) := by
  refine ⟨by decide +kernel, by decide +kernel⟩

/-- **C90 (what does not hold).** With the exponent 0 the significand is less than 1: one half is printed as
0.5 · 10^0. -/
theorem C90_not_normalised : hplllprint (fun x => x) (1 / 2) 0 = some (false, 1 / 2, 0) ∧
    (1 / 2 : ℚ) < 1 := by
  refine ⟨by decide +kernel, by norm_num⟩

end HPLLL.Props
