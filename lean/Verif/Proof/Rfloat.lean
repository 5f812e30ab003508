import Verif.Model.Rfloat
import Verif.Spec.FpErr
import Mathlib.Data.Nat.Log
import Mathlib.Data.Rat.Floor
import Mathlib.Tactic.Linarith
import Mathlib.Tactic.Positivity
import Mathlib.Tactic.FieldSimp
import Mathlib.Tactic.Ring
/-! The example arithmetic `ratOps` satisfies the standard model. -/

namespace HPLLL
open Spec

theorem rdQ_zero (p : Nat) : rdQ p 0 = 0 := by
  unfold rdQ; simp

theorem rdQ_err (p : Nat) (x : Rat) : |rdQ p x - x| ≤ 2 / 2 ^ p * |x| := by
  by_cases hx : x = 0
  · subst hx; rw [rdQ_zero]; simp
  have hnum : x.num ≠ 0 := Rat.num_ne_zero.mpr hx
  have hden : 0 < x.den := x.den_pos
  unfold rdQ
  simp only []
  set ln := x.num.natAbs.log2 with hln
  set ld := x.den.log2 with hld
  set m : Int := x.num * 2 ^ (p + ld) / (x.den * 2 ^ ln : Nat) with hm
  have hD : (0 : Int) < (x.den * 2 ^ ln : Nat) := by positivity
  have h1 := Int.emod_add_mul_ediv (x.num * 2 ^ (p + ld)) (x.den * 2 ^ ln : Nat)
  have h2 := Int.emod_nonneg (x.num * 2 ^ (p + ld)) hD.ne'
  have h3 := Int.emod_lt_of_pos (x.num * 2 ^ (p + ld)) hD
  rw [← hm] at h1
  set r := (x.num * 2 ^ (p + ld)) % (x.den * 2 ^ ln : Nat) with hr
  have hlnum : (2 : Rat) ^ ln ≤ |(x.num : Rat)| := by
    have : 2 ^ ln ≤ x.num.natAbs := Nat.log2_self_le (Int.natAbs_ne_zero.mpr hnum)
    have h4 : ((2 ^ ln : Nat) : Rat) ≤ (x.num.natAbs : Rat) := by exact_mod_cast this
    rw [Nat.cast_natAbs] at h4
    push_cast at h4
    exact h4
  have hlden : (x.den : Rat) ≤ 2 * 2 ^ ld := by
    have : x.den < 2 ^ (ld + 1) := Nat.lt_log2_self
    rw [pow_succ] at this
    have h4 : ((x.den : Nat) : Rat) < ((2 ^ ld * 2 : Nat) : Rat) := by exact_mod_cast this
    push_cast at h4
    linarith
  have h1q : (r : Rat) + x.den * 2 ^ ln * m = x.num * 2 ^ (p + ld) := by exact_mod_cast h1
  have h2q : (0 : Rat) ≤ r := by exact_mod_cast h2
  have h3q : (r : Rat) < x.den * 2 ^ ln := by exact_mod_cast h3
  have hdq : (0 : Rat) < x.den := by exact_mod_cast hden
  have hx2 : x = x.num / x.den := (Rat.num_div_den x).symm
  rw [Rat.mkRat_eq_div]
  push_cast
  have e : (m : Rat) * 2 ^ ln / 2 ^ (p + ld) - x = - (r / (x.den * 2 ^ (p + ld))) := by
    have : x = (r + x.den * 2 ^ ln * m) / (x.den * 2 ^ (p + ld)) := by
      rw [h1q]; nth_rewrite 1 [hx2]; field_simp
    nth_rewrite 1 [this]
    field_simp
    ring
  rw [e, abs_neg, abs_of_nonneg (by positivity)]
  have e2 : |x| = |(x.num : Rat)| / x.den := by
    nth_rewrite 1 [hx2]; rw [abs_div, abs_of_pos hdq]
  rw [e2, div_mul_div_comm, div_le_div_iff₀ (by positivity) (by positivity), pow_add]
  have hp : (0 : Rat) < 2 ^ p := by positivity
  calc (r : Rat) * (2 ^ p * x.den) ≤ (x.den * 2 ^ ln) * (2 ^ p * x.den) :=
        mul_le_mul_of_nonneg_right h3q.le (by positivity)
    _ ≤ (x.den * |(x.num : Rat)|) * (2 ^ p * (2 * 2 ^ ld)) :=
        mul_le_mul (mul_le_mul_of_nonneg_left hlnum hdq.le)
          (mul_le_mul_of_nonneg_left hlden hp.le) (by positivity) (by positivity)
    _ = _ := by ring

theorem rdQ_rel (p : Nat) (x : Rat) : ∃ e : ℝ, |e| ≤ 2 / 2 ^ p ∧ ((rdQ p x : Rat) : ℝ) = x * (1 + e) := by
  by_cases hx : x = 0
  · exact ⟨0, by rw [abs_zero]; positivity, by subst hx; rw [rdQ_zero]; simp⟩
  · have h := rdQ_err p x
    have hx' : (x : ℝ) ≠ 0 := by exact_mod_cast hx
    have h' : |((rdQ p x : Rat) : ℝ) - x| ≤ 2 / 2 ^ p * |(x : ℝ)| := by
      have := (Rat.cast_le (K := ℝ)).mpr h
      push_cast at this
      exact this
    refine ⟨((rdQ p x : Rat) : ℝ) / x - 1, ?_, ?_⟩
    · have e : ((rdQ p x : Rat) : ℝ) / x - 1 = (((rdQ p x : Rat) : ℝ) - x) / x := by field_simp
      rw [e, abs_div, div_le_iff₀ (abs_pos.mpr hx')]
      exact h'
    · field_simp; ring

theorem isqrtC_spec (n : Nat) : isqrtC n * isqrtC n ≤ n ∧ n < (isqrtC n + 1) * (isqrtC n + 1) := by
  unfold isqrtC
  simp only []
  split
  · assumption
  · exact ⟨Nat.sqrt_le n, Nat.lt_succ_sqrt n⟩

theorem sqrtQ_rel (p : Nat) (x : Rat) (hx : 0 ≤ x) :
    ∃ e : ℝ, |e| ≤ 4 / 2 ^ p ∧ ((sqrtQ p x : Rat) : ℝ) = Real.sqrt x * (1 + e) := by
  by_cases h0 : x = 0
  · refine ⟨0, by rw [abs_zero]; positivity, ?_⟩
    subst h0
    have : isqrtC 0 = 0 := by
      have := (isqrtC_spec 0).1
      by_contra hc
      have : 0 < isqrtC 0 * isqrtC 0 := Nat.mul_pos (Nat.pos_of_ne_zero hc) (Nat.pos_of_ne_zero hc)
      omega
    unfold sqrtQ
    simp [this, rdQ_zero]
  have hxp : 0 < x := lt_of_le_of_ne hx (Ne.symm h0)
  unfold sqrtQ
  set N := x.num.toNat with hN
  set D := x.den with hD
  have hD0 : 0 < D := x.den_pos
  have hNp : 0 < x.num := Rat.num_pos.mpr hxp
  have hN0 : 0 < N := by omega
  obtain ⟨h1, h2⟩ := isqrtC_spec (N * D * 4 ^ p)
  set c := isqrtC (N * D * 4 ^ p) with hc
  obtain ⟨e2, he2, h3⟩ := rdQ_rel p (mkRat c (D * 2 ^ p))
  have hDr : (0 : ℝ) < D := by exact_mod_cast hD0
  have hpr : (0 : ℝ) < 2 ^ p := by positivity
  have h1p : (1 : ℝ) ≤ 2 ^ p := one_le_pow₀ (by norm_num)
  have hxr : (x : ℝ) = N / D := by
    have e1 : (x.num : ℝ) = N := by
      have : ((N : Int)) = x.num := by omega
      rw [← this]; push_cast; rfl
    rw [← e1]
    have := Rat.num_div_den x
    have e : ((x.num / x.den : Rat) : ℝ) = x := by rw [this]
    push_cast at e
    exact e.symm
  set q := Real.sqrt x with hq
  have hq0 : 0 ≤ q := Real.sqrt_nonneg _
  have hqq : q * q = x := Real.mul_self_sqrt (by exact_mod_cast hx)
  set z := q * D with hz
  have hz0 : 0 ≤ z := by positivity
  have hzz : z * z = N * D := by
    rw [hz, show q * D * (q * D) = q * q * (D * D) by ring, hqq, hxr]; field_simp
  have hz1 : 1 ≤ z := by
    have : (1 : ℝ) ≤ N * D := by
      have : 1 ≤ N * D := Nat.mul_pos hN0 hD0
      exact_mod_cast this
    nlinarith
  have e4 : (4 : ℝ) ^ p = 2 ^ p * 2 ^ p := by rw [← mul_pow]; norm_num
  have h1r : (c : ℝ) * c ≤ (z * 2 ^ p) * (z * 2 ^ p) := by
    have : (c : ℝ) * c ≤ N * D * 4 ^ p := by exact_mod_cast h1
    rw [show z * 2 ^ p * (z * 2 ^ p) = z * z * (2 ^ p * 2 ^ p) by ring, hzz, ← e4]; exact this
  have h2r : (z * 2 ^ p) * (z * 2 ^ p) < ((c : ℝ) + 1) * (c + 1) := by
    have : (N : ℝ) * D * 4 ^ p < (c + 1) * (c + 1) := by exact_mod_cast h2
    rw [show z * 2 ^ p * (z * 2 ^ p) = z * z * (2 ^ p * 2 ^ p) by ring, hzz, ← e4]; exact this
  have h1s : (c : ℝ) ≤ z * 2 ^ p := (mul_self_le_mul_self_iff (by positivity) (by positivity)).mpr h1r
  have h2s : z * 2 ^ p < (c : ℝ) + 1 := (mul_self_lt_mul_self_iff (by positivity) (by positivity)).mpr h2r
  set e1 := (c : ℝ) / (z * 2 ^ p) - 1 with he1
  have hzp : 0 < z * 2 ^ p := by positivity
  have he1a : |e1| ≤ 1 / 2 ^ p := by
    rw [he1, abs_le]
    constructor
    · rw [neg_le_sub_iff_le_add, ← sub_le_iff_le_add, le_div_iff₀ hzp]
      have : (1 - 1 / 2 ^ p) * (z * 2 ^ p) = z * 2 ^ p - z := by field_simp
      rw [this]; linarith
    · have : (c : ℝ) / (z * 2 ^ p) ≤ 1 := by rw [div_le_one hzp]; exact h1s
      have : (0 : ℝ) ≤ 1 / 2 ^ p := by positivity
      linarith
  refine ⟨(1 + e1) * (1 + e2) - 1, ?_, ?_⟩
  · have hs1 : (1 : ℝ) / 2 ^ p ≤ 1 := by rw [div_le_one hpr]; exact h1p
    have e2' : (2 : ℝ) / 2 ^ p = 2 * (1 / 2 ^ p) := by ring
    have e4' : (4 : ℝ) / 2 ^ p = 4 * (1 / 2 ^ p) := by ring
    rw [e2'] at he2
    rw [e4']
    set t := (1 : ℝ) / 2 ^ p
    have ht0 : 0 ≤ t := (abs_nonneg _).trans he1a
    have hneg : e1 ≤ 0 := by
      have : (c : ℝ) / (z * 2 ^ p) ≤ 1 := by rw [div_le_one hzp]; exact h1s
      linarith
    obtain ⟨a1, b1⟩ := abs_le.mp he1a
    obtain ⟨a2, b2⟩ := abs_le.mp he2
    rw [abs_le]
    constructor <;> nlinarith
  · rw [h3, Rat.mkRat_eq_div]
    push_cast
    rw [he1, show 1 + ((1 + ((c : ℝ) / (z * 2 ^ p) - 1)) * (1 + e2) - 1) = (c : ℝ) / (z * 2 ^ p) * (1 + e2) by
      ring, hz]
    have hqp : 0 < q := by
      rcases hq0.lt_or_eq with h | h
      · exact h
      · rw [hz, ← h] at hz1; norm_num at hz1
    field_simp

theorem ratOps_zero (p : Nat) : ZeroLaws (ratOps p) where
  ofZ := by simp [ratOps, rdQ_zero]
  addmul := by intro a v; simp [ratOps]
  submul := by
    intro a; simp only [ratOps]
    split
    · rfl
    · rw [zero_mul, rdQ_zero, sub_zero, rdQ_zero]
  div := by intro a _; simp [ratOps, rdQ_zero]

theorem ratOps_std (p : Nat) (hp : 3 ≤ p) : StdModel (ratOps p) (fun x => (x : ℝ)) (4 / 2 ^ p) := by
  have hpr : (0 : ℝ) < 2 ^ p := by positivity
  have h8 : (8 : ℝ) ≤ 2 ^ p := by
    calc (8 : ℝ) = 2 ^ 3 := by norm_num
      _ ≤ 2 ^ p := pow_le_pow_right₀ (by norm_num) hp
  have h24 : (2 : ℝ) / 2 ^ p ≤ 4 / 2 ^ p := div_le_div_of_nonneg_right (by norm_num) hpr.le
  have rd : ∀ x : Rat, ∃ e : ℝ, |e| ≤ 4 / 2 ^ p ∧ ((rdQ p x : Rat) : ℝ) = x * (1 + e) := fun x => by
    obtain ⟨e, h1, h2⟩ := rdQ_rel p x; exact ⟨e, h1.trans h24, h2⟩
  have hn0 : ∀ x : Rat, x.num = 0 ↔ (x : ℝ) = 0 := fun x => by
    rw [Rat.num_eq_zero]; exact_mod_cast Iff.rfl
  have h0 : |(0 : ℝ)| ≤ 4 / 2 ^ p := by rw [abs_zero]; positivity
  constructor
  · positivity
  · rw [div_lt_one hpr]; linarith
  · simp [ratOps]
  · simp [ratOps]
  · obtain ⟨e, h1, h2⟩ := rd (mkRat 1 100000000000)
    refine ⟨e, h1, ?_⟩
    simp only [ratOps]
    rw [h2, Rat.mkRat_eq_div]; push_cast; rfl
  · intro z
    obtain ⟨e, h1, h2⟩ := rd z
    exact ⟨e, h1, by simp only [ratOps]; rw [h2]; push_cast; rfl⟩
  · intro a b
    obtain ⟨e, h1, h2⟩ := rd (a + b)
    exact ⟨e, h1, by simp only [ratOps]; rw [h2]; push_cast; rfl⟩
  · intro a b
    obtain ⟨e, h1, h2⟩ := rd (a * b)
    exact ⟨e, h1, by simp only [ratOps]; rw [h2]; push_cast; rfl⟩
  · intro a b _
    obtain ⟨e, h1, h2⟩ := rd (a / b)
    exact ⟨e, h1, by simp only [ratOps]; rw [h2]; push_cast; rfl⟩
  · intro a ha
    exact sqrtQ_rel p a (by exact_mod_cast ha)
  · intro r a b
    simp only [ratOps]
    split
    · rename_i h
      exact ⟨0, 0, h0, h0, by rw [(hn0 b).mp h]; ring⟩
    · obtain ⟨e, h1, h2⟩ := rd (a * b)
      obtain ⟨e', h1', h2'⟩ := rd (r + rdQ p (a * b))
      refine ⟨e, e', h1, h1', ?_⟩
      rw [h2']; push_cast; rw [h2]; push_cast; rfl
  · intro r a b
    simp only [ratOps]
    split
    · rename_i h
      exact ⟨0, 0, h0, h0, by rw [(hn0 b).mp h]; ring⟩
    · obtain ⟨e, h1, h2⟩ := rd (a * b)
      obtain ⟨e', h1', h2'⟩ := rd (r - rdQ p (a * b))
      refine ⟨e, e', h1, h1', ?_⟩
      rw [h2']; push_cast; rw [h2]; push_cast; rfl
  · intro a; simp [ratOps]
  · intro a
    simp only [ratOps]
    split
    · rename_i h
      have : a < 0 := Rat.num_neg.mp h
      have : (a : ℝ) < 0 := by exact_mod_cast this
      rw [abs_of_neg this]; push_cast; rfl
    · rename_i h
      have : 0 ≤ a := Rat.num_nonneg.mp (by omega)
      have : (0 : ℝ) ≤ a := by exact_mod_cast this
      rw [abs_of_nonneg this]
  · intro a
    simp only [ratOps, decide_eq_true_eq]
    exact hn0 a
  · intro a b; simp [ratOps]
  · intro a b; simp [ratOps]
  · intro a
    simp only [ratOps]
    have h1 := Int.floor_le (a + mkRat 1 2)
    have h2 := Int.lt_floor_add_one (a + mkRat 1 2)
    have e : mkRat 1 2 = (1 / 2 : Rat) := by rw [Rat.mkRat_eq_div]; norm_num
    have ef : ⌊a + mkRat 1 2⌋ = (a + mkRat 1 2).floor := rfl
    rw [ef] at h1 h2
    set f := (a + mkRat 1 2).floor
    rw [e] at h1 h2
    have h1' : ((f : Rat) : ℝ) ≤ a + 1 / 2 := by
      have := (Rat.cast_le (K := ℝ)).mpr h1
      push_cast at this; push_cast; linarith
    have h2' : (a : ℝ) + 1 / 2 < ((f : Rat) : ℝ) + 1 := by
      have := (Rat.cast_lt (K := ℝ)).mpr h2
      push_cast at this; push_cast; linarith
    rw [abs_le]; constructor <;> linarith

end HPLLL
