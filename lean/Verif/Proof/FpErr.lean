import Verif.Spec.FpErr
import Mathlib.Tactic.Linarith
import Mathlib.Tactic.Ring
import Mathlib.Tactic.Positivity
import Mathlib.Tactic.FieldSimp
import Mathlib.Analysis.InnerProductSpace.Projection.Reflection
/-! Rounding error analysis of the Householder factorisation. -/

namespace HPLLL.Err
open Spec Finset

/-- `y` is `x` up to a factor between `κ^-m` and `κ^m`. -/
def Rel (κ : ℝ) (m : ℕ) (x y : ℝ) : Prop := ∃ f, 0 < f ∧ f ≤ κ ^ m ∧ 1 ≤ f * κ ^ m ∧ y = x * f

theorem Rel.rfl' {κ : ℝ} (x : ℝ) : Rel κ 0 x x := ⟨1, by norm_num, by simp, by simp, by ring⟩

theorem Rel.mono {κ : ℝ} (hκ : 1 ≤ κ) {m m' : ℕ} {x y : ℝ} (h : Rel κ m x y) (hm : m ≤ m') :
    Rel κ m' x y := by
  obtain ⟨f, h0, h1, h2, h3⟩ := h
  have := pow_le_pow_right₀ hκ hm
  exact ⟨f, h0, h1.trans this, h2.trans (mul_le_mul_of_nonneg_left this h0.le), h3⟩

theorem Rel.mul {κ : ℝ} {m m' : ℕ} {x y x' y' : ℝ} (h : Rel κ m x y) (h' : Rel κ m' x' y') :
    Rel κ (m + m') (x * x') (y * y') := by
  obtain ⟨f, h0, h1, h2, h3⟩ := h
  obtain ⟨f', h0', h1', h2', h3'⟩ := h'
  refine ⟨f * f', by positivity, ?_, ?_, by rw [h3, h3']; ring⟩
  · rw [pow_add]; exact mul_le_mul h1 h1' h0'.le (h0.le.trans h1)
  · rw [pow_add]
    calc (1 : ℝ) = 1 * 1 := by ring
      _ ≤ (f * κ ^ m) * (f' * κ ^ m') := mul_le_mul h2 h2' (by norm_num) (by linarith)
      _ = _ := by ring

theorem Rel.inv {κ : ℝ} {m : ℕ} {x y : ℝ} (h : Rel κ m x y) :
    Rel κ m x⁻¹ y⁻¹ := by
  obtain ⟨f, h0, h1, h2, h3⟩ := h
  have hp : 0 < κ ^ m := h0.trans_le h1
  refine ⟨f⁻¹, by positivity, ?_, ?_, by rw [h3, mul_inv]⟩
  · rw [inv_le_iff_one_le_mul₀ h0, mul_comm]; exact h2
  · rw [inv_mul_eq_div, one_le_div h0]; exact h1

theorem Rel.div {κ : ℝ} {m m' : ℕ} {x y x' y' : ℝ} (h : Rel κ m x y) (h' : Rel κ m' x' y') :
    Rel κ (m + m') (x / x') (y / y') := by
  rw [div_eq_mul_inv, div_eq_mul_inv]; exact h.mul h'.inv

theorem Rel.trans {κ : ℝ} {m m' : ℕ} {x y z : ℝ} (h : Rel κ m x y) (h' : Rel κ m' y z) :
    Rel κ (m + m') x z := by
  obtain ⟨f, h0, h1, h2, h3⟩ := h
  obtain ⟨f', h0', h1', h2', h3'⟩ := h'
  have := Rel.mul (κ := κ) (x := x) (y := x * f) ⟨f, h0, h1, h2, rfl⟩
    (x' := 1) (y' := f') ⟨f', h0', h1', h2', by ring⟩
  rw [mul_one] at this
  rw [h3', h3]; exact this

theorem Rel.neg {κ : ℝ} {m : ℕ} {x y : ℝ} (h : Rel κ m x y) : Rel κ m (-x) (-y) := by
  obtain ⟨f, h0, h1, h2, h3⟩ := h
  exact ⟨f, h0, h1, h2, by rw [h3]; ring⟩

theorem Rel.sqrt {κ : ℝ} (hκ : 1 ≤ κ) {m : ℕ} {x y : ℝ} (h : Rel κ (2 * m) x y) (hx : 0 ≤ x) :
    Rel κ m (Real.sqrt x) (Real.sqrt y) := by
  obtain ⟨f, h0, h1, h2, h3⟩ := h
  have hp : 0 ≤ κ ^ m := by positivity
  have e : κ ^ (2 * m) = (κ ^ m) ^ 2 := by rw [← pow_mul, mul_comm]
  rw [e] at h1 h2
  refine ⟨Real.sqrt f, Real.sqrt_pos.mpr h0, ?_, ?_, by rw [h3, Real.sqrt_mul hx]⟩
  · rw [Real.sqrt_le_left hp]; exact h1
  · have := Real.sqrt_le_sqrt h2
    rw [Real.sqrt_one, Real.sqrt_mul h0.le, Real.sqrt_sq hp] at this
    exact this

theorem Rel.of_err {u e x y : ℝ} (u1 : u < 1) (he : |e| ≤ u) (h : y = x * (1 + e)) :
    Rel (1 / (1 - u)) 1 x y := by
  obtain ⟨h1, h2⟩ := abs_le.mp he
  have hu : 0 < 1 - u := by linarith
  have hu0 : 0 ≤ u := (abs_nonneg e).trans he
  refine ⟨1 + e, by linarith, ?_, ?_, h⟩
  · rw [pow_one, le_div_iff₀ hu]; nlinarith
  · rw [pow_one, mul_one_div, le_div_iff₀ hu]; linarith

theorem Rel.add {κ : ℝ} {m : ℕ} {x y x' y' : ℝ} (hκ : 1 ≤ κ) (h : Rel κ m x y) (h' : Rel κ m x' y')
    (hx : 0 ≤ x) (hx' : 0 ≤ x') : Rel κ m (x + x') (y + y') := by
  obtain ⟨f, h0, h1, h2, h3⟩ := h
  obtain ⟨f', h0', h1', h2', h3'⟩ := h'
  have hp : 1 ≤ κ ^ m := one_le_pow₀ hκ
  by_cases hs : x + x' = 0
  · have hx0 : x = 0 := by linarith
    have hx0' : x' = 0 := by linarith
    exact ⟨1, by norm_num, hp, by simpa using hp, by rw [h3, h3', hx0, hx0']; ring⟩
  · have hs' : 0 < x + x' := lt_of_le_of_ne (by linarith) (Ne.symm hs)
    refine ⟨(x * f + x' * f') / (x + x'), ?_, ?_, ?_, ?_⟩
    · apply div_pos _ hs'
      rcases hx.lt_or_eq with h | h
      · have := mul_pos h h0; have := mul_nonneg hx' h0'.le; linarith
      · have : 0 < x' := by linarith
        have := mul_pos this h0'; have := mul_nonneg hx h0.le; linarith
    · rw [div_le_iff₀ hs']; nlinarith
    · rw [div_mul_eq_mul_div, le_div_iff₀ hs']; nlinarith
    · rw [h3, h3']; field_simp

theorem Rel.abs_sub {κ : ℝ} {m : ℕ} {x y : ℝ} (h : Rel κ m x y) : |y - x| ≤ (κ ^ m - 1) * |x| := by
  obtain ⟨f, h0, h1, h2, h3⟩ := h
  rw [h3, show x * f - x = (f - 1) * x by ring, abs_mul]
  refine mul_le_mul_of_nonneg_right ?_ (abs_nonneg x)
  have hp : 0 < κ ^ m := h0.trans_le h1
  rw [abs_le]
  constructor
  · nlinarith
  · linarith

theorem Rel.pos {κ : ℝ} {m : ℕ} {x y : ℝ} (h : Rel κ m x y) (hx : 0 < x) : 0 < y := by
  obtain ⟨f, h0, h1, h2, h3⟩ := h
  rw [h3]; positivity

theorem Rel.nonneg {κ : ℝ} {m : ℕ} {x y : ℝ} (h : Rel κ m x y) (hx : 0 ≤ x) : 0 ≤ y := by
  obtain ⟨f, h0, h1, h2, h3⟩ := h
  rw [h3]; positivity

theorem Rel.abs_le {κ : ℝ} {m : ℕ} {x y : ℝ} (h : Rel κ m x y) : |y| ≤ κ ^ m * |x| := by
  obtain ⟨f, h0, h1, h2, h3⟩ := h
  rw [h3, abs_mul, abs_of_pos h0, mul_comm]
  exact mul_le_mul_of_nonneg_right h1 (abs_nonneg x)

theorem Rel.zero_iff {κ : ℝ} {m : ℕ} {x y : ℝ} (h : Rel κ m x y) : y = 0 ↔ x = 0 := by
  obtain ⟨f, h0, h1, h2, h3⟩ := h
  rw [h3]; constructor
  · intro h; rcases mul_eq_zero.mp h with h | h
    · exact h
    · linarith
  · intro h; rw [h]; ring

end HPLLL.Err
