import Verif.Model.PrintDpe
import Mathlib.Algebra.Order.Field.Power
import Mathlib.Tactic.Linarith
import Mathlib.Tactic.Ring
import Mathlib.Tactic.FieldSimp
import Mathlib.Tactic.Positivity
import Mathlib.Tactic.NormNum
/-! The loops of `hplllprint`. -/

namespace HPLLL

/-- Relative error at most `u`. -/
def RelErr (u : ℚ) (rd : ℚ → ℚ) : Prop := ∀ x, 0 < x → (1 - u) * x ≤ rd x ∧ rd x ≤ (1 + u) * x

section
variable {u : ℚ} {rd : ℚ → ℚ}

/-- One step multiplies the value by a factor in `[1-u, 1+u]`. -/
theorem printUp_err (hu0 : 0 ≤ u) (hu : u < 1) (h : RelErr u rd) (k : Nat) : ∀ (d : ℚ) (e : Int), 0 < d →
    (1 - u) ^ k * (d * 10 ^ e * 2 ^ k) ≤ (printUp rd k (d, e)).1 * 10 ^ (printUp rd k (d, e)).2 ∧
    (printUp rd k (d, e)).1 * 10 ^ (printUp rd k (d, e)).2 ≤ (1 + u) ^ k * (d * 10 ^ e * 2 ^ k) := by
  induction k with
  | zero => intro d e hd; simp [printUp]
  | succ k ih =>
    intro d e hd
    have h10 : (0 : ℚ) < 10 ^ e := by positivity
    have hk1 : 0 < (1 - u) ^ k := pow_pos (by linarith) _
    have hk2 : 0 < (1 + u) ^ k := pow_pos (by linarith) _
    have h2 : (0 : ℚ) < 2 ^ k := by positivity
    simp only [printUp]
    split
    · obtain ⟨a, b⟩ := h (d * 2 / 10) (by positivity)
      have hp : 0 < rd (d * 2 / 10) := lt_of_lt_of_le (mul_pos (by linarith) (by positivity)) a
      obtain ⟨c1, c2⟩ := ih (rd (d * 2 / 10)) (e + 1) hp
      have e10 : (10 : ℚ) ^ (e + 1) = 10 ^ e * 10 := by rw [zpow_add₀ (by norm_num), zpow_one]
      rw [e10] at c1 c2
      constructor
      · refine le_trans ?_ c1
        calc (1 - u) ^ (k + 1) * (d * 10 ^ e * 2 ^ (k + 1))
            = (1 - u) ^ k * ((1 - u) * (d * 2 / 10) * (10 ^ e * 10) * 2 ^ k) := by ring
          _ ≤ _ := by gcongr
      · refine le_trans c2 ?_
        calc (1 + u) ^ k * (rd (d * 2 / 10) * (10 ^ e * 10) * 2 ^ k)
            ≤ (1 + u) ^ k * ((1 + u) * (d * 2 / 10) * (10 ^ e * 10) * 2 ^ k) := by gcongr
          _ = _ := by ring
    · obtain ⟨c1, c2⟩ := ih (d * 2) e (by positivity)
      constructor
      · refine le_trans ?_ c1
        calc (1 - u) ^ (k + 1) * (d * 10 ^ e * 2 ^ (k + 1))
            = (1 - u) * ((1 - u) ^ k * (d * 2 * 10 ^ e * 2 ^ k)) := by ring
          _ ≤ 1 * ((1 - u) ^ k * (d * 2 * 10 ^ e * 2 ^ k)) := by gcongr; linarith
          _ = _ := one_mul _
      · refine le_trans c2 ?_
        calc (1 + u) ^ k * (d * 2 * 10 ^ e * 2 ^ k)
            = 1 * ((1 + u) ^ k * (d * 2 * 10 ^ e * 2 ^ k)) := (one_mul _).symm
          _ ≤ (1 + u) * ((1 + u) ^ k * (d * 2 * 10 ^ e * 2 ^ k)) := by gcongr; linarith
          _ = _ := by ring

theorem printDown_err (hu0 : 0 ≤ u) (hu : u < 1) (h : RelErr u rd) (k : Nat) : ∀ (d : ℚ) (e : Int), 0 < d →
    (1 - u) ^ k * (d * 10 ^ e / 2 ^ k) ≤ (printDown rd k (d, e)).1 * 10 ^ (printDown rd k (d, e)).2 ∧
    (printDown rd k (d, e)).1 * 10 ^ (printDown rd k (d, e)).2 ≤ (1 + u) ^ k * (d * 10 ^ e / 2 ^ k) := by
  induction k with
  | zero => intro d e hd; simp [printDown]
  | succ k ih =>
    intro d e hd
    have h10 : (0 : ℚ) < 10 ^ e := by positivity
    have hk1 : 0 < (1 - u) ^ k := pow_pos (by linarith) _
    have hk2 : 0 < (1 + u) ^ k := pow_pos (by linarith) _
    have h2 : (0 : ℚ) < 2 ^ k := by positivity
    simp only [printDown]
    split
    · obtain ⟨a, b⟩ := h (d / 2 * 10) (by positivity)
      have hp : 0 < rd (d / 2 * 10) := lt_of_lt_of_le (mul_pos (by linarith) (by positivity)) a
      obtain ⟨c1, c2⟩ := ih (rd (d / 2 * 10)) (e - 1) hp
      have e10 : (10 : ℚ) ^ (e - 1) = 10 ^ e / 10 := by rw [zpow_sub₀ (by norm_num), zpow_one]
      rw [e10] at c1 c2
      constructor
      · refine le_trans ?_ c1
        calc (1 - u) ^ (k + 1) * (d * 10 ^ e / 2 ^ (k + 1))
            = (1 - u) ^ k * ((1 - u) * (d / 2 * 10) * (10 ^ e / 10) / 2 ^ k) := by
              simp only [pow_succ (2 : ℚ), div_eq_mul_inv, mul_inv]; ring
          _ ≤ _ := by gcongr
      · refine le_trans c2 ?_
        calc (1 + u) ^ k * (rd (d / 2 * 10) * (10 ^ e / 10) / 2 ^ k)
            ≤ (1 + u) ^ k * ((1 + u) * (d / 2 * 10) * (10 ^ e / 10) / 2 ^ k) := by gcongr
          _ = _ := by simp only [pow_succ (2 : ℚ), div_eq_mul_inv, mul_inv]; ring
    · obtain ⟨c1, c2⟩ := ih (d / 2) e (by positivity)
      constructor
      · refine le_trans ?_ c1
        calc (1 - u) ^ (k + 1) * (d * 10 ^ e / 2 ^ (k + 1))
            = (1 - u) * ((1 - u) ^ k * (d / 2 * 10 ^ e / 2 ^ k)) := by
              simp only [pow_succ (2 : ℚ), div_eq_mul_inv, mul_inv]; ring
          _ ≤ 1 * ((1 - u) ^ k * (d / 2 * 10 ^ e / 2 ^ k)) := by gcongr; linarith
          _ = _ := one_mul _
      · refine le_trans c2 ?_
        calc (1 + u) ^ k * (d / 2 * 10 ^ e / 2 ^ k)
            = 1 * ((1 + u) ^ k * (d / 2 * 10 ^ e / 2 ^ k)) := (one_mul _).symm
          _ ≤ (1 + u) * ((1 + u) ^ k * (d / 2 * 10 ^ e / 2 ^ k)) := by gcongr; linarith
          _ = _ := by simp only [pow_succ (2 : ℚ), div_eq_mul_inv, mul_inv]; ring

theorem printUp_norm (hm : Monotone rd) (h1 : rd 1 = 1) (h10 : rd 10 = 10) (k : Nat) : ∀ (d : ℚ) (e : Int),
    1 / 2 ≤ d → d ≤ 10 → (1 ≤ d ∨ 0 < k) →
    1 ≤ (printUp rd k (d, e)).1 ∧ (printUp rd k (d, e)).1 ≤ 10 := by
  induction k with
  | zero => intro d e h2 h3 h4; simp only [printUp]; exact ⟨by rcases h4 with h | h <;> [exact h; omega], h3⟩
  | succ k ih =>
    intro d e h2 h3 _
    simp only [printUp]
    split
    · rename_i h
      have a := hm (show 1 ≤ d * 2 / 10 by linarith)
      rw [h1] at a
      have b := hm (show d * 2 / 10 ≤ 10 by linarith)
      rw [h10] at b
      exact ih _ _ (by linarith) b (Or.inl a)
    · rename_i h
      exact ih _ _ (by linarith) (by linarith) (Or.inl (by linarith))

theorem printDown_norm (hm : Monotone rd) (h1 : rd 1 = 1) (h10 : rd 10 = 10) (k : Nat) : ∀ (d : ℚ) (e : Int),
    1 / 2 ≤ d → d ≤ 10 → (1 ≤ d ∨ 0 < k) →
    1 ≤ (printDown rd k (d, e)).1 ∧ (printDown rd k (d, e)).1 ≤ 10 := by
  induction k with
  | zero => intro d e h2 h3 h4; simp only [printDown]; exact ⟨by rcases h4 with h | h <;> [exact h; omega], h3⟩
  | succ k ih =>
    intro d e h2 h3 _
    simp only [printDown]
    split
    · rename_i h
      have a := hm (show 1 ≤ d / 2 * 10 by linarith)
      rw [h1] at a
      have b := hm (show d / 2 * 10 ≤ 10 by linarith)
      rw [h10] at b
      exact ih _ _ (by linarith) b (Or.inl a)
    · rename_i h
      exact ih _ _ (by linarith) (by linarith) (Or.inl (by linarith))

theorem printUp_lt (k : Nat) : ∀ (d : ℚ) (e : Int), 0 < d → d < 10 →
    (printUp (fun x => x) k (d, e)).1 < 10 := by
  induction k with
  | zero => intro d e _ h3; exact h3
  | succ k ih =>
    intro d e h2 h3
    simp only [printUp]
    split
    · exact ih _ _ (by linarith) (by linarith)
    · exact ih _ _ (by linarith) (by linarith)

theorem printDown_lt (k : Nat) : ∀ (d : ℚ) (e : Int), 0 < d → d < 10 →
    (printDown (fun x => x) k (d, e)).1 < 10 := by
  induction k with
  | zero => intro d e _ h3; exact h3
  | succ k ih =>
    intro d e h2 h3
    simp only [printDown]
    split
    · exact ih _ _ (by linarith) (by linarith)
    · exact ih _ _ (by linarith) (by linarith)

end
end HPLLL
