import Mathlib.Data.Rat.Floor
import Mathlib.Tactic.Linarith
import Mathlib.Tactic.Ring
import Mathlib.Tactic.FieldSimp
import Mathlib.Tactic.Positivity
import Mathlib.Tactic.NormNum
import Verif.Spec.Expo
import Verif.Model.SetcolFin

namespace HPLLL
namespace PE
open Spec

theorem foldl_max_spec (e : Nat → ℤ) (beg : Nat) (l : Nat) (e0 : ℤ) :
    (∀ i, i < l → e (beg + i) ≤ maxExp e e0 beg l) ∧ e0 ≤ maxExp e e0 beg l ∧
    (maxExp e e0 beg l = e0 ∨ ∃ i, i < l ∧ maxExp e e0 beg l = e (beg + i)) := by
  induction l with
  | zero => exact ⟨fun i h => absurd h (Nat.not_lt_zero i), le_refl _, Or.inl rfl⟩
  | succ l ih =>
    have hm : maxExp e e0 beg (l + 1) = max (maxExp e e0 beg l) (e (beg + l)) := by
      simp [maxExp, List.range_succ, List.foldl_append]
    obtain ⟨h1, h2, h3⟩ := ih
    rw [hm]
    refine ⟨fun i hi => ?_, le_trans h2 (le_max_left _ _), ?_⟩
    · rcases Nat.lt_succ_iff_lt_or_eq.mp hi with h | h
      · exact le_trans (h1 i h) (le_max_left _ _)
      · subst h; exact le_max_right _ _
    · rcases le_total (maxExp e e0 beg l) (e (beg + l)) with h | h
      · rw [max_eq_right h]; exact Or.inr ⟨l, Nat.lt_succ_self l, rfl⟩
      · rw [max_eq_left h]
        rcases h3 with h3 | ⟨i, hi, h3⟩
        · exact Or.inl h3
        · exact Or.inr ⟨i, Nat.lt_succ_of_lt hi, h3⟩

theorem nearest_int {rd : ℚ → ℤ} (h : NearestInt rd) (n : ℤ) : rd n = n := by
  have h1 := abs_le.mp (h n)
  have h2 : ((rd n - n : ℤ) : ℚ) ≤ 1 / 2 := by push_cast; exact h1.2
  have h3 : (-(1 / 2) : ℚ) ≤ ((rd n - n : ℤ) : ℚ) := by push_cast; exact h1.1
  have h4 : rd n - n < 1 := by
    have : ((rd n - n : ℤ) : ℚ) < ((1 : ℤ) : ℚ) := by push_cast; push_cast at h2; linarith
    exact_mod_cast this
  have h5 : -1 < rd n - n := by
    have : ((-1 : ℤ) : ℚ) < ((rd n - n : ℤ) : ℚ) := by push_cast; push_cast at h3; linarith
    exact_mod_cast this
  omega

theorem nearest_small {rd : ℚ → ℤ} (h : NearestInt rd) {y : ℚ} (hy : |y| < 1 / 2) : rd y = 0 := by
  have h1 := abs_le.mp (h y)
  have h0 := abs_lt.mp hy
  have h4 : rd y < 1 := by
    have : (rd y : ℚ) < ((1 : ℤ) : ℚ) := by push_cast; linarith
    exact_mod_cast this
  have h5 : -1 < rd y := by
    have : ((-1 : ℤ) : ℚ) < (rd y : ℚ) := by push_cast; linarith
    exact_mod_cast this
  omega

theorem ldexpFin_err {w : Nat} {rd : ℚ → ℤ} (h : NearestInt rd) (m : ℚ) (k : ℤ) :
    |ldexpFin w rd m k - m * 2 ^ k| ≤ 1 / 2 / 2 ^ w := by
  have h2 : (0 : ℚ) < 2 ^ w := by positivity
  have e : ldexpFin w rd m k - m * 2 ^ k = ((rd (m * 2 ^ k * 2 ^ w) : ℚ) - m * 2 ^ k * 2 ^ w) / 2 ^ w := by
    unfold ldexpFin; field_simp
  rw [e, abs_div, abs_of_pos h2]
  exact div_le_div_of_nonneg_right (h _) h2.le

/-- No rounding when the shifted significand still fits. -/
theorem ldexpFin_exact {w p : Nat} {rd : ℚ → ℤ} (h : NearestInt rd) {m : ℚ} {n : ℤ} (hm : m = n / 2 ^ p)
    {k : ℤ} (hk : (p : ℤ) - w ≤ k) : ldexpFin w rd m k = m * 2 ^ k := by
  obtain ⟨s, hs⟩ : ∃ s : Nat, (s : ℤ) = k + w - p := ⟨(k + w - p).toNat, by omega⟩
  have e : m * 2 ^ k * 2 ^ w = ((n * 2 ^ s : ℤ) : ℚ) := by
    have h2 : (2 : ℚ) ≠ 0 := by norm_num
    have : (2 : ℚ) ^ s = 2 ^ k * 2 ^ w / 2 ^ p := by
      rw [← zpow_natCast (2 : ℚ) s, hs, zpow_sub₀ h2, zpow_add₀ h2, zpow_natCast, zpow_natCast]
    push_cast
    rw [this, hm]; ring
  unfold ldexpFin
  rw [e, nearest_int h, ← e]
  have h2 : (2 : ℚ) ^ w ≠ 0 := by positivity
  field_simp

section split
variable {p : Nat} {rep : ℚ → ℚ × ℤ}

theorem _root_.HPLLL.Spec.Split.up (hs : Split p rep) (hp : 3 ≤ p) (x : ℚ) :
    |(rep x).1| * 2 ^ (rep x).2 ≤ |x| * (5 / 4) := by
  have h := hs.near x
  have hq : (2 : ℚ) / 2 ^ p ≤ 1 / 4 := by
    rw [div_le_div_iff₀ (by positivity) (by norm_num)]
    have : (2 : ℚ) ^ 3 ≤ 2 ^ p := pow_le_pow_right₀ (by norm_num) hp
    linarith
  have e : |(rep x).1| * 2 ^ (rep x).2 = |(rep x).1 * 2 ^ (rep x).2| := by
    rw [abs_mul, abs_of_pos (zpow_pos (by norm_num : (0 : ℚ) < 2) _)]
  rw [e]
  have h2 := abs_sub_abs_le_abs_sub ((rep x).1 * 2 ^ (rep x).2) x
  have h3 := mul_le_mul_of_nonneg_left hq (abs_nonneg x)
  linarith

theorem _root_.HPLLL.Spec.Split.down (hs : Split p rep) (hp : 3 ≤ p) (x : ℚ) :
    |x| * (3 / 4) ≤ |(rep x).1| * 2 ^ (rep x).2 := by
  have h := hs.near x
  have hq : (2 : ℚ) / 2 ^ p ≤ 1 / 4 := by
    rw [div_le_div_iff₀ (by positivity) (by norm_num)]
    have : (2 : ℚ) ^ 3 ≤ 2 ^ p := pow_le_pow_right₀ (by norm_num) hp
    linarith
  have e : |(rep x).1| * 2 ^ (rep x).2 = |(rep x).1 * 2 ^ (rep x).2| := by
    rw [abs_mul, abs_of_pos (zpow_pos (by norm_num : (0 : ℚ) < 2) _)]
  rw [e]
  have h2 := abs_sub_abs_le_abs_sub x ((rep x).1 * 2 ^ (rep x).2)
  rw [abs_sub_comm] at h2
  have h3 := mul_le_mul_of_nonneg_left hq (abs_nonneg x)
  linarith

/-- `2^e` against the number. -/
theorem _root_.HPLLL.Spec.Split.exp_le (hs : Split p rep) (hp : 3 ≤ p) {x : ℚ} (hx : x ≠ 0) :
    (2 : ℚ) ^ (rep x).2 ≤ |x| * (5 / 2) := by
  have h1 := hs.up hp x
  have h2 := mul_le_mul_of_nonneg_right (hs.lo x hx) (zpow_pos (by norm_num : (0 : ℚ) < 2) (rep x).2).le
  linarith

theorem _root_.HPLLL.Spec.Split.lt_exp (hs : Split p rep) (hp : 3 ≤ p) (x : ℚ) :
    |x| * (3 / 4) < 2 ^ (rep x).2 := by
  have h1 := hs.down hp x
  have h2 := mul_lt_mul_of_pos_right (hs.hi x) (zpow_pos (by norm_num : (0 : ℚ) < 2) (rep x).2)
  linarith

theorem _root_.HPLLL.Spec.Split.exp_nonneg (hs : Split p rep) (hp : 3 ≤ p) {x : ℚ} (hx : 1 ≤ |x|) : 0 ≤ (rep x).2 := by
  have h := hs.lt_exp hp x
  by_contra hc
  have : (2 : ℚ) ^ (rep x).2 ≤ 2 ^ (-1 : ℤ) := zpow_le_zpow_right₀ (by norm_num) (by omega)
  rw [zpow_neg_one] at this
  linarith

end split

/-- What `setcolFin` writes. -/
theorem setcolFin_apply {w : Nat} {rd : ℚ → ℤ} {rep : ℚ → ℚ × ℤ} {e0 : ℤ} {c : (Nat → ℚ) × ℤ}
    {x : Nat → ℚ} {beg l i : Nat} (h1 : beg ≤ i) (h2 : i < beg + l) :
    (setcolFin w rd rep e0 c x beg l).1 i =
      ldexpFin w rd (rep (x i)).1 ((rep (x i)).2 - maxExp (fun i => (rep (x i)).2) e0 beg l) := by
  unfold setcolFin
  rw [if_neg (by omega)]
  simp [h1, h2]

theorem setcolFin_exp {w : Nat} {rd : ℚ → ℤ} {rep : ℚ → ℚ × ℤ} {e0 : ℤ} {c : (Nat → ℚ) × ℤ}
    {x : Nat → ℚ} {beg l : Nat} (h : l ≠ 0) :
    (setcolFin w rd rep e0 c x beg l).2 = maxExp (fun i => (rep (x i)).2) e0 beg l := by
  unfold setcolFin
  rw [if_neg h]

section col
variable {p w : Nat} {rd : ℚ → ℤ} {rep : ℚ → ℚ × ℤ} {e0 : ℤ} {x : Nat → ℚ} {beg l : Nat}

/-- The shared exponent is the exponent of a nonzero entry. -/
theorem exists_lead (hs : Split p rep) (hp : 3 ≤ p)
    (he : ∀ i, beg ≤ i → i < beg + l → e0 ≤ (rep (x i)).2)
    (hx : ∃ i, beg ≤ i ∧ i < beg + l ∧ x i ≠ 0)
    (h : (∀ i, beg ≤ i → i < beg + l → x i ≠ 0) ∨ ∃ i, beg ≤ i ∧ i < beg + l ∧ 1 ≤ |x i|) :
    ∃ k, beg ≤ k ∧ k < beg + l ∧ x k ≠ 0 ∧
      maxExp (fun i => (rep (x i)).2) e0 beg l = (rep (x k)).2 := by
  obtain ⟨h1, h2, h3⟩ := foldl_max_spec (fun i => (rep (x i)).2) beg l e0
  set me := maxExp (fun i => (rep (x i)).2) e0 beg l
  obtain ⟨i0, hi0, hi0', hne⟩ := hx
  have key : ∃ k, beg ≤ k ∧ k < beg + l ∧ me = (rep (x k)).2 := by
    rcases h3 with h3 | ⟨i, hi, h3⟩
    · refine ⟨i0, hi0, hi0', le_antisymm (h3 ▸ he i0 hi0 hi0') ?_⟩
      have := h1 (i0 - beg) (by omega)
      rwa [show beg + (i0 - beg) = i0 by omega] at this
    · exact ⟨beg + i, by omega, by omega, h3⟩
  obtain ⟨k, hk1, hk2, hk⟩ := key
  by_cases hxk : x k = 0
  · rcases h with h | ⟨j, hj1, hj2, hj⟩
    · exact absurd hxk (h k hk1 hk2)
    · have hj0 : x j ≠ 0 := by
        intro h0; rw [h0] at hj; simp at hj; exact absurd hj (by norm_num)
      refine ⟨j, hj1, hj2, hj0, le_antisymm ?_ ?_⟩
      · rw [hk, hxk, hs.zero]; exact hs.exp_nonneg hp hj
      · have := h1 (j - beg) (by omega)
        rwa [show beg + (j - beg) = j by omega] at this
  · exact ⟨k, hk1, hk2, hxk, hk⟩

theorem le_me (i : Nat) (h1 : beg ≤ i) (h2 : i < beg + l) :
    (rep (x i)).2 ≤ maxExp (fun i => (rep (x i)).2) e0 beg l := by
  have := (foldl_max_spec (fun i => (rep (x i)).2) beg l e0).1 (i - beg) (by omega)
  rwa [show beg + (i - beg) = i by omega] at this

theorem val_err (hn : NearestInt rd) (m : ℚ) (e me : ℤ) :
    |ldexpFin w rd m (e - me) * 2 ^ me - m * 2 ^ e| ≤ 2 ^ me * (1 / 2 / 2 ^ w) := by
  have h2 : (2 : ℚ) ≠ 0 := by norm_num
  have hp : (0 : ℚ) < 2 ^ me := zpow_pos (by norm_num) _
  have e1 : ldexpFin w rd m (e - me) * 2 ^ me - m * 2 ^ e =
      2 ^ me * (ldexpFin w rd m (e - me) - m * 2 ^ (e - me)) := by
    have : (2 : ℚ) ^ e = 2 ^ me * 2 ^ (e - me) := by rw [← zpow_add₀ h2]; congr 1; ring
    rw [this]; ring
  rw [e1, abs_mul, abs_of_pos hp]
  exact mul_le_mul_of_nonneg_left (ldexpFin_err hn _ _) hp.le

end col

/-- `Int.log` gives a splitting. -/
theorem getD2exp_split {p : Nat} (hp : 1 ≤ p) : Split p (getD2exp p) := by
  have main : ∀ x : ℚ, x ≠ 0 → ∃ (t : ℤ) (e : ℤ), 
      getD2exp p x = ((if x < 0 then -(t : ℚ) else t) / 2 ^ p, e) ∧
      (2 : ℚ) ^ p / 2 ≤ t ∧ (t : ℚ) < 2 ^ p ∧ |(t : ℚ) / 2 ^ p * 2 ^ e - abs x| ≤ |x| * (2 / 2 ^ p) := by
    intro x hx
    have hx0 : 0 < |x| := abs_pos.mpr hx
    have h1 := Int.zpow_log_le_self (b := 2) (by norm_num) hx0
    have h2 := Int.lt_zpow_succ_log_self (b := 2) (by norm_num) (r := |x|)
    push_cast at h1 h2
    set g := Int.log 2 |x|
    have hE : (0 : ℚ) < 2 ^ (g + 1) := zpow_pos (by norm_num) _
    have hEe : (2 : ℚ) ^ (g + 1) = 2 ^ g * 2 := by rw [zpow_add_one₀ (by norm_num)]
    have hP : (0 : ℚ) < 2 ^ p := by positivity
    refine ⟨⌊|x| / 2 ^ (g + 1) * 2 ^ p⌋, g + 1, ?_, ?_, ?_, ?_⟩
    · unfold getD2exp; rw [if_neg hx]
    · obtain ⟨q, rfl⟩ : ∃ q, p = q + 1 := ⟨p - 1, by omega⟩
      have : (2 ^ q : ℤ) ≤ ⌊|x| / 2 ^ (g + 1) * 2 ^ (q + 1)⌋ := by
        apply Int.le_floor.mpr
        push_cast
        rw [pow_succ, div_mul_eq_mul_div, le_div_iff₀ hE, hEe]
        have : (0 : ℚ) < 2 ^ q := by positivity
        nlinarith
      have h3 : ((2 ^ q : ℤ) : ℚ) ≤ (⌊|x| / 2 ^ (g + 1) * 2 ^ (q + 1)⌋ : ℤ) := by exact_mod_cast this
      push_cast at h3
      rw [pow_succ]; rw [pow_succ] at h3; linarith
    · refine lt_of_le_of_lt (Int.floor_le _) ?_
      have : |x| / 2 ^ (g + 1) < 1 := by rw [div_lt_one hE]; exact h2
      nlinarith
    · have f1 := Int.floor_le (|x| / 2 ^ (g + 1) * 2 ^ p)
      have f2 := Int.lt_floor_add_one (|x| / 2 ^ (g + 1) * 2 ^ p)
      set t : ℚ := ((⌊|x| / 2 ^ (g + 1) * 2 ^ p⌋ : ℤ) : ℚ)
      have a1 : t / 2 ^ p * 2 ^ (g + 1) ≤ |x| := by
        have := mul_le_mul_of_nonneg_right (div_le_div_of_nonneg_right f1 hP.le) hE.le
        calc _ ≤ _ := this
          _ = |x| := by field_simp
      have a2 : |x| ≤ t / 2 ^ p * 2 ^ (g + 1) + 2 ^ (g + 1) / 2 ^ p := by
        have := mul_le_mul_of_nonneg_right (div_le_div_of_nonneg_right f2.le hP.le) hE.le
        calc |x| = |x| / 2 ^ (g + 1) * 2 ^ p / 2 ^ p * 2 ^ (g + 1) := by field_simp
          _ ≤ _ := this
          _ = _ := by ring
      have a3 : (2 : ℚ) ^ (g + 1) / 2 ^ p ≤ |x| * (2 / 2 ^ p) := by
        rw [hEe, ← mul_div_assoc]
        exact div_le_div_of_nonneg_right (by linarith) hP.le
      rw [abs_le]; constructor <;> linarith
  have hP : (0 : ℚ) < 2 ^ p := by positivity
  have hab : ∀ x : ℚ, x ≠ 0 → ∃ (t : ℤ) (e : ℤ), 
      getD2exp p x = ((if x < 0 then -(t : ℚ) else t) / 2 ^ p, e) ∧ |(getD2exp p x).1| = t / 2 ^ p ∧
      (2 : ℚ) ^ p / 2 ≤ t ∧ (t : ℚ) < 2 ^ p ∧ |(t : ℚ) / 2 ^ p * 2 ^ e - abs x| ≤ |x| * (2 / 2 ^ p) := by
    intro x hx
    obtain ⟨t, e, h1, h2, h3, h4⟩ := main x hx
    refine ⟨t, e, h1, ?_, h2, h3, h4⟩
    have ht : (0 : ℚ) ≤ t := by linarith
    rw [h1]
    show |(if x < 0 then -(t : ℚ) else t) / 2 ^ p| = _
    rw [abs_div, abs_of_pos hP]
    split
    · rw [abs_neg, abs_of_nonneg ht]
    · rw [abs_of_nonneg ht]
  refine ⟨by simp [getD2exp], fun x => ?_, fun x hx => ?_, fun x => ?_, fun x => ?_⟩
  · by_cases hx : x = 0
    · exact ⟨0, by simp [getD2exp, hx]⟩
    · obtain ⟨t, e, h, -⟩ := main x hx
      rw [h]
      refine ⟨if x < 0 then -t else t, ?_⟩
      split <;> simp
  · obtain ⟨t, e, h, ha, h2, -⟩ := hab x hx
    rw [ha, le_div_iff₀ hP]; linarith
  · by_cases hx : x = 0
    · simp [getD2exp, hx]
    · obtain ⟨t, e, h, ha, h2, h3, -⟩ := hab x hx
      rw [ha, div_lt_one hP]; exact h3
  · by_cases hx : x = 0
    · simp [getD2exp, hx]
    · obtain ⟨t, e, h, ha, h2, h3, h4⟩ := hab x hx
      rw [h]
      by_cases hneg : x < 0
      · simp only [hneg, if_true]
        rw [abs_of_neg hneg] at h4 ⊢
        rw [show -(t : ℚ) / 2 ^ p * 2 ^ e - x = -((t : ℚ) / 2 ^ p * 2 ^ e - -x) by ring, abs_neg]
        exact h4
      · simp only [hneg, if_false]
        rw [abs_of_nonneg (not_lt.mp hneg)] at h4 ⊢
        exact h4

end PE
end HPLLL
