import Verif.Model.Near
import Verif.Proof.Rfloat
/-! Binary floating point arithmetic with round to nearest even satisfies the standard model. -/

namespace HPLLL
open Spec

theorem divNear_err (N D : Nat) (hD : 0 < D) : |(divNear N D : Rat) - N / D| ≤ 1 / 2 := by
  have h1 := Nat.div_add_mod N D
  have h2 := Nat.mod_lt N hD
  have hDq : (0 : Rat) < D := by exact_mod_cast hD
  set q := N / D with hq
  set r := N % D with hr
  have h1q : (N : Rat) = D * q + r := by exact_mod_cast h1.symm
  have e : (N : Rat) / D = q + r / D := by rw [h1q]; field_simp
  have up : ∀ {c : Rat}, (r : Rat) ≤ c * D → (r : Rat) / D ≤ c := fun h => by
    rw [div_le_iff₀ hDq]; exact h
  have lo : ∀ {c : Rat}, c * D ≤ (r : Rat) → c ≤ (r : Rat) / D := fun h => by
    rw [le_div_iff₀ hDq]; exact h
  have h2q : (r : Rat) < D := by exact_mod_cast h2
  have h0q : (0 : Rat) ≤ r := by positivity
  have a0 : (0 : Rat) ≤ r / D := by positivity
  have a1 : (r : Rat) / D ≤ 1 := up (by linarith)
  unfold divNear
  simp only [← hq, ← hr]
  rw [e, abs_le]
  split
  · rename_i h
    have : (2 * r : Rat) < D := by exact_mod_cast h
    have a2 : (r : Rat) / D ≤ 1 / 2 := up (by linarith)
    constructor <;> linarith
  · rename_i h
    have h3 : (D : Rat) ≤ 2 * r := by exact_mod_cast not_lt.mp h
    have a2 : (1 : Rat) / 2 ≤ r / D := lo (by linarith)
    split
    · push_cast; constructor <;> linarith
    · rename_i h'
      have h4 : (2 * r : Rat) ≤ D := by exact_mod_cast not_lt.mp h'
      have a3 : (r : Rat) / D ≤ 1 / 2 := up (by linarith)
      split
      · constructor <;> linarith
      · push_cast; constructor <;> linarith

theorem rnQ_zero (p : Nat) : rnQ p 0 = 0 := by
  unfold rnQ; simp

theorem num_sign_mul (x : Rat) : ((x.num.sign : Int) : Rat) * (x.num.natAbs : Rat) = x.num := by
  have h := Int.sign_mul_natAbs x.num
  have h2 := congrArg (fun z : Int => (z : Rat)) h
  simp only [Int.cast_mul, Int.cast_natCast] at h2
  exact h2

theorem sign_abs_le (x : Rat) : |((x.num.sign : Int) : Rat)| ≤ 1 := by
  rcases lt_trichotomy x.num 0 with h | h | h
  · rw [Int.sign_eq_neg_one_of_neg h]; norm_num
  · rw [h]; norm_num
  · rw [Int.sign_eq_one_of_pos h]; norm_num

theorem rnQ_err (p : Nat) (x : Rat) : |rnQ p x - x| ≤ 1 / 2 ^ p * |x| := by
  by_cases hx : x = 0
  · subst hx; rw [rnQ_zero]; simp
  have hnum : x.num ≠ 0 := Rat.num_ne_zero.mpr hx
  have hden : 0 < x.den := x.den_pos
  unfold rnQ
  simp only []
  set a := x.num.natAbs with ha
  set ln := a.log2 with hln
  set ld := x.den.log2 with hld
  set N := a * 2 ^ (p + ld) with hN
  set k := if 2 ^ p ≤ N / (x.den * 2 ^ ln) then ln + 1 else ln with hk
  have ha0 : a ≠ 0 := Int.natAbs_ne_zero.mpr hnum
  have hdq : (0 : Rat) < x.den := by exact_mod_cast hden
  have hlnum : 2 ^ ln ≤ a := Nat.log2_self_le ha0
  have hlden : x.den < 2 ^ ld * 2 := by
    have : x.den < 2 ^ (ld + 1) := Nat.lt_log2_self
    rwa [pow_succ] at this
  have hD : 0 < x.den * 2 ^ k := by positivity
  set D := x.den * 2 ^ k with hDd
  -- N / D >= 2^(p-1)
  have hND : 2 ^ p * D ≤ 2 * N := by
    rw [hDd]
    by_cases hc : 2 ^ p ≤ N / (x.den * 2 ^ ln)
    · rw [if_pos hc] at hk
      rw [hk]
      have := (Nat.le_div_iff_mul_le (by positivity)).mp hc
      calc 2 ^ p * (x.den * 2 ^ (ln + 1)) = 2 * (2 ^ p * (x.den * 2 ^ ln)) := by ring
        _ ≤ 2 * N := by omega
    · rw [if_neg hc] at hk
      rw [hk, hN]
      calc 2 ^ p * (x.den * 2 ^ ln) ≤ 2 ^ p * ((2 ^ ld * 2) * a) :=
            Nat.mul_le_mul_left _ (Nat.mul_le_mul hlden.le hlnum)
        _ = 2 * (a * 2 ^ (p + ld)) := by rw [pow_add]; ring
  have herr := divNear_err N D hD
  set m := divNear N D with hm
  have hDq : (0 : Rat) < D := by exact_mod_cast hD
  have hpq : (0 : Rat) < 2 ^ (p + ld) := by positivity
  have hkq : (0 : Rat) < 2 ^ k := by positivity
  have hDq' : (D : Rat) = x.den * 2 ^ k := by rw [hDd]; push_cast; rfl
  have hNq : (N : Rat) = a * 2 ^ (p + ld) := by rw [hN]; push_cast; rfl
  have hx2 : x = x.num.sign * ((N : Rat) / D) * 2 ^ k / 2 ^ (p + ld) := by
    have h1 : x = x.num / x.den := (Rat.num_div_den x).symm
    have h2 := num_sign_mul x
    rw [hNq, hDq']
    have : (x.num.sign : Rat) * ((a : Rat) * 2 ^ (p + ld) / (x.den * 2 ^ k)) * 2 ^ k / 2 ^ (p + ld) =
        (x.num.sign : Rat) * a / x.den := by field_simp
    rw [this, h2]; exact h1
  rw [Rat.mkRat_eq_div]
  push_cast
  have e : (x.num.sign : Rat) * (m * 2 ^ k) / 2 ^ (p + ld) - x =
      x.num.sign * ((m - (N : Rat) / D) * (2 ^ k / 2 ^ (p + ld))) := by
    nth_rewrite 2 [hx2]; ring
  have hsgn : |((x.num.sign : Int) : Rat)| = 1 := by
    rcases lt_or_gt_of_ne hnum with h | h
    · rw [Int.sign_eq_neg_one_of_neg h]; norm_num
    · rw [Int.sign_eq_one_of_pos h]; norm_num
  have eabs : |x| = (N : Rat) / D * (2 ^ k / 2 ^ (p + ld)) := by
    nth_rewrite 1 [hx2]
    rw [abs_div, abs_mul, abs_mul, hsgn, abs_of_pos hpq, abs_of_pos hkq,
      abs_of_nonneg (by positivity : (0 : Rat) ≤ (N : Rat) / D)]
    ring
  rw [e, abs_mul, hsgn, one_mul, abs_mul, abs_of_pos (by positivity : (0 : Rat) < 2 ^ k / 2 ^ (p + ld)), eabs,
    ← mul_assoc]
  refine mul_le_mul_of_nonneg_right (herr.trans ?_) (by positivity)
  have h3 : (2 ^ p * D : Rat) ≤ 2 * N := by exact_mod_cast hND
  rw [div_mul_div_comm, one_mul, div_le_div_iff₀ (by norm_num) (by positivity)]
  linarith

theorem rnQ_rel (p : Nat) (x : Rat) : ∃ e : ℝ, |e| ≤ 1 / 2 ^ p ∧ ((rnQ p x : Rat) : ℝ) = x * (1 + e) := by
  by_cases hx : x = 0
  · exact ⟨0, by rw [abs_zero]; positivity, by subst hx; rw [rnQ_zero]; simp⟩
  · have h := rnQ_err p x
    have hx' : (x : ℝ) ≠ 0 := by exact_mod_cast hx
    have h' : |((rnQ p x : Rat) : ℝ) - x| ≤ 1 / 2 ^ p * |(x : ℝ)| := by
      have := (Rat.cast_le (K := ℝ)).mpr h
      push_cast at this
      exact this
    refine ⟨((rnQ p x : Rat) : ℝ) / x - 1, ?_, ?_⟩
    · have e : ((rnQ p x : Rat) : ℝ) / x - 1 = (((rnQ p x : Rat) : ℝ) - x) / x := by field_simp
      rw [e, abs_div, div_le_iff₀ (abs_pos.mpr hx')]
      exact h'
    · field_simp; ring

theorem rintQ_err (x : Rat) : |(rintQ x : Rat) - x| ≤ 1 / 2 := by
  have h := divNear_err x.num.natAbs x.den x.den_pos
  have hdq : (0 : Rat) < x.den := by exact_mod_cast x.den_pos
  unfold rintQ
  push_cast
  have hx2 : x = x.num.sign * ((x.num.natAbs : Rat) / x.den) := by
    have h2 := num_sign_mul x
    rw [← mul_div_assoc, h2]; exact (Rat.num_div_den x).symm
  have e : (x.num.sign : Rat) * (divNear x.num.natAbs x.den : Rat) - x =
      x.num.sign * ((divNear x.num.natAbs x.den : Rat) - (x.num.natAbs : Rat) / x.den) := by
    nth_rewrite 4 [hx2]; ring
  rw [e, abs_mul]
  calc _ ≤ 1 * |(divNear x.num.natAbs x.den : Rat) - (x.num.natAbs : Rat) / x.den| :=
        mul_le_mul_of_nonneg_right (sign_abs_le x) (abs_nonneg _)
    _ ≤ _ := by rw [one_mul]; exact h

theorem rnSqrt_rel (p : Nat) (x : Rat) (hx : 0 ≤ x) :
    ∃ e : ℝ, |e| ≤ 2 / 2 ^ p ∧ ((rnSqrt p x : Rat) : ℝ) = Real.sqrt x * (1 + e) := by
  by_cases h0 : x = 0
  · refine ⟨0, by rw [abs_zero]; positivity, ?_⟩
    subst h0
    have : isqrtC 0 = 0 := by
      have := (isqrtC_spec 0).1
      by_contra hc
      have : 0 < isqrtC 0 * isqrtC 0 := Nat.mul_pos (Nat.pos_of_ne_zero hc) (Nat.pos_of_ne_zero hc)
      omega
    unfold rnSqrt
    simp [this, rnQ_zero]
  have hxp : 0 < x := lt_of_le_of_ne hx (Ne.symm h0)
  unfold rnSqrt
  simp only []
  set N := x.num.toNat with hN
  set D := x.den with hD
  have hD0 : 0 < D := x.den_pos
  have hNp : 0 < x.num := Rat.num_pos.mpr hxp
  have hN0 : 0 < N := by omega
  obtain ⟨P, hP⟩ : ∃ P, P = p + 8 := ⟨_, rfl⟩
  rw [← hP]
  obtain ⟨h1, h2⟩ := isqrtC_spec (N * D * 4 ^ P)
  generalize isqrtC (N * D * 4 ^ P) = c at h1 h2 ⊢
  obtain ⟨y, hy⟩ : ∃ y : Nat, y = if c * c = N * D * 4 ^ P then 2 * c else 2 * c + 1 := ⟨_, rfl⟩
  rw [show (if c * c = N * D * 4 ^ P then 2 * (c : Int) else 2 * (c : Int) + 1) = (y : Int) by
    rw [hy]; split <;> push_cast <;> rfl]
  obtain ⟨e2, he2, h3⟩ := rnQ_rel p (mkRat y (D * 2 ^ (p + 9)))
  have hDr : (0 : ℝ) < D := by exact_mod_cast hD0
  have hpr : (0 : ℝ) < 2 ^ P := by positivity
  have hxr : (x : ℝ) = N / D := by
    have e1 : (x.num : ℝ) = N := by
      have : ((N : Int)) = x.num := by omega
      rw [← this]; push_cast; rfl
    rw [← e1]
    have := Rat.num_div_den x
    have e : ((x.num / x.den : Rat) : ℝ) = x := by rw [this]
    push_cast at e
    exact e.symm
  set q := Real.sqrt x with hq
  have hq0 : 0 ≤ q := Real.sqrt_nonneg _
  have hqq : q * q = x := Real.mul_self_sqrt (by exact_mod_cast hx)
  set z := q * D with hz
  have hz0 : 0 ≤ z := by positivity
  have hzz : z * z = N * D := by
    rw [hz, show q * D * (q * D) = q * q * (D * D) by ring, hqq, hxr]; field_simp
  have hz1 : 1 ≤ z := by
    have : (1 : ℝ) ≤ N * D := by
      have : 1 ≤ N * D := Nat.mul_pos hN0 hD0
      exact_mod_cast this
    by_contra hlt
    have hlt := not_le.mp hlt
    have h9 := mul_lt_one_of_nonneg_of_lt_one_left hz0 hlt hlt.le
    rw [hzz] at h9
    exact absurd this (not_le.mpr h9)
  have e4 : (4 : ℝ) ^ P = 2 ^ P * 2 ^ P := by rw [← mul_pow]; norm_num
  have h1r : (c : ℝ) * c ≤ (z * 2 ^ P) * (z * 2 ^ P) := by
    have : (c : ℝ) * c ≤ N * D * 4 ^ P := by exact_mod_cast h1
    rw [show z * 2 ^ P * (z * 2 ^ P) = z * z * (2 ^ P * 2 ^ P) by ring, hzz, ← e4]; exact this
  have h2r : (z * 2 ^ P) * (z * 2 ^ P) < ((c : ℝ) + 1) * (c + 1) := by
    have : (N : ℝ) * D * 4 ^ P < (c + 1) * (c + 1) := by exact_mod_cast h2
    rw [show z * 2 ^ P * (z * 2 ^ P) = z * z * (2 ^ P * 2 ^ P) by ring, hzz, ← e4]; exact this
  have h1s : (c : ℝ) ≤ z * 2 ^ P := (mul_self_le_mul_self_iff (Nat.cast_nonneg c) (mul_nonneg hz0 hpr.le)).mpr h1r
  have h2s : z * 2 ^ P < (c : ℝ) + 1 := (mul_self_lt_mul_self_iff (mul_nonneg hz0 hpr.le) (by linarith [Nat.cast_nonneg (α := ℝ) c])).mpr h2r
  have hyc : |(y : ℝ) - 2 * (z * 2 ^ P)| ≤ 1 := by
    by_cases hcc : c * c = N * D * 4 ^ P
    · rw [if_pos hcc] at hy
      have : (c : ℝ) * c = (z * 2 ^ P) * (z * 2 ^ P) := by
        have : (c : ℝ) * c = N * D * 4 ^ P := by exact_mod_cast hcc
        rw [show z * 2 ^ P * (z * 2 ^ P) = z * z * (2 ^ P * 2 ^ P) by ring, hzz, ← e4]; exact this
      have h5 : (c : ℝ) = z * 2 ^ P := by
        refine le_antisymm h1s ?_
        exact (mul_self_le_mul_self_iff (mul_nonneg hz0 hpr.le) (Nat.cast_nonneg c)).mpr this.ge
      rw [hy]; push_cast; rw [h5]; simp
    · rw [if_neg hcc] at hy
      rw [hy]; push_cast; rw [abs_le]; constructor <;> linarith
  set e1 := (y : ℝ) / (2 * (z * 2 ^ P)) - 1 with he1
  have hzp : 0 < 2 * (z * 2 ^ P) := mul_pos two_pos (mul_pos (lt_of_lt_of_le one_pos hz1) hpr)
  have he1a : |e1| ≤ 1 / 2 ^ (P + 1) := by
    have e : e1 = ((y : ℝ) - 2 * (z * 2 ^ P)) / (2 * (z * 2 ^ P)) := by rw [he1]; field_simp
    rw [e, abs_div, abs_of_pos hzp]
    refine (div_le_div_of_nonneg_right hyc hzp.le).trans ?_
    apply one_div_le_one_div_of_le (by positivity)
    rw [pow_succ]
    nlinarith
  have hP2 : (1 : ℝ) / 2 ^ (P + 1) ≤ 1 / 4 * (1 / 2 ^ p) := by
    rw [hP, pow_add, pow_add, show (1 : ℝ) / (2 ^ p * 2 ^ 8 * 2 ^ 1) = 1 / 512 * (1 / 2 ^ p) by
      field_simp; norm_num]
    have : (0 : ℝ) ≤ 1 / 2 ^ p := by positivity
    linarith
  refine ⟨(1 + e1) * (1 + e2) - 1, ?_, ?_⟩
  · have hs1 : (1 : ℝ) / 2 ^ p ≤ 1 := by
      rw [div_le_one (by positivity)]; exact one_le_pow₀ (by norm_num)
    have e2' : (2 : ℝ) / 2 ^ p = 2 * (1 / 2 ^ p) := by ring
    rw [e2']
    set t := (1 : ℝ) / 2 ^ p
    have ht0 : 0 ≤ t := (abs_nonneg _).trans he2
    have he1b := he1a.trans hP2
    calc |(1 + e1) * (1 + e2) - 1| = |e1 + e2 + e1 * e2| := by ring_nf
      _ ≤ |e1 + e2| + |e1 * e2| := abs_add_le _ _
      _ ≤ |e1| + |e2| + |e1| * |e2| := by rw [abs_mul]; linarith [abs_add_le e1 e2]
      _ ≤ 1 / 4 * t + t + 1 / 4 * t * t := by
        have := mul_le_mul he1b he2 (abs_nonneg _) (by positivity)
        linarith
      _ ≤ 2 * t := by nlinarith
  · rw [h3, Rat.mkRat_eq_div]
    push_cast
    rw [he1, show 1 + ((1 + ((y : ℝ) / (2 * (z * 2 ^ P)) - 1)) * (1 + e2) - 1) =
      (y : ℝ) / (2 * (z * 2 ^ P)) * (1 + e2) by ring, hz]
    have hqp : 0 < q := by
      rcases hq0.lt_or_eq with h | h
      · exact h
      · rw [hz, ← h] at hz1; norm_num at hz1
    have e9 : (2 : ℝ) ^ (p + 9) = 2 * 2 ^ P := by rw [hP, show p + 9 = p + 8 + 1 by ring, pow_succ]; ring
    rw [e9]
    field_simp

attribute [local irreducible] rnSqrt in
theorem nearOps_std (p : Nat) (hp : 2 ≤ p) : StdModel (nearOps p) (fun x => (x : ℝ)) (2 / 2 ^ p) := by
  have hpr : (0 : ℝ) < 2 ^ p := by positivity
  have h8 : (4 : ℝ) ≤ 2 ^ p := by
    calc (4 : ℝ) = 2 ^ 2 := by norm_num
      _ ≤ 2 ^ p := pow_le_pow_right₀ (by norm_num) hp
  have h24 : (1 : ℝ) / 2 ^ p ≤ 2 / 2 ^ p := div_le_div_of_nonneg_right (by norm_num) hpr.le
  have rd : ∀ x : Rat, ∃ e : ℝ, |e| ≤ 2 / 2 ^ p ∧ ((rnQ p x : Rat) : ℝ) = x * (1 + e) := fun x => by
    obtain ⟨e, h1, h2⟩ := rnQ_rel p x; exact ⟨e, h1.trans h24, h2⟩
  have hn0 : ∀ x : Rat, x.num = 0 ↔ (x : ℝ) = 0 := fun x => by
    rw [Rat.num_eq_zero]; exact_mod_cast Iff.rfl
  constructor
  · positivity
  · rw [div_lt_one hpr]; linarith
  · simp [nearOps]
  · simp [nearOps]
  · obtain ⟨e, h1, h2⟩ := rd (mkRat 1 100000000000)
    refine ⟨e, h1, ?_⟩
    simp only [nearOps]
    rw [h2, Rat.mkRat_eq_div]; push_cast; rfl
  · intro z
    obtain ⟨e, h1, h2⟩ := rd z
    exact ⟨e, h1, by simp only [nearOps]; rw [h2]; push_cast; rfl⟩
  · intro a b
    obtain ⟨e, h1, h2⟩ := rd (a + b)
    exact ⟨e, h1, by simp only [nearOps]; rw [h2]; push_cast; rfl⟩
  · intro a b
    obtain ⟨e, h1, h2⟩ := rd (a * b)
    exact ⟨e, h1, by simp only [nearOps]; rw [h2]; push_cast; rfl⟩
  · intro a b _
    obtain ⟨e, h1, h2⟩ := rd (a / b)
    exact ⟨e, h1, by simp only [nearOps]; rw [h2]; push_cast; rfl⟩
  · intro a ha
    have ha' : 0 ≤ a := by exact_mod_cast ha
    have h := rnSqrt_rel p a ha'
    generalize hw : rnSqrt p a = w at h
    have : (nearOps p).sqrt a = w := hw
    rw [this]; exact h
  · intro r a b
    simp only [nearOps]
    split
    · rename_i hb
      have hb : b = 0 := Rat.num_eq_zero.mp hb
      have h0 : (0 : ℝ) ≤ 2 / 2 ^ p := by positivity
      refine ⟨0, 0, by rw [abs_zero]; exact h0, by rw [abs_zero]; exact h0, ?_⟩
      rw [hb]; push_cast; ring
    obtain ⟨e, h1, h2⟩ := rd (a * b)
    obtain ⟨e', h1', h2'⟩ := rd (r + rnQ p (a * b))
    refine ⟨e, e', h1, h1', ?_⟩
    rw [h2']; push_cast; rw [h2]; push_cast; rfl
  · intro r a b
    simp only [nearOps]
    obtain ⟨e, h1, h2⟩ := rd (a * b)
    obtain ⟨e', h1', h2'⟩ := rd (r - rnQ p (a * b))
    refine ⟨e, e', h1, h1', ?_⟩
    rw [h2']; push_cast; rw [h2]; push_cast; rfl
  · intro a; simp [nearOps]
  · intro a
    simp only [nearOps]
    split
    · rename_i h
      have : a < 0 := Rat.num_neg.mp h
      have : (a : ℝ) < 0 := by exact_mod_cast this
      rw [abs_of_neg this]; push_cast; rfl
    · rename_i h
      have : 0 ≤ a := Rat.num_nonneg.mp (by omega)
      have : (0 : ℝ) ≤ a := by exact_mod_cast this
      rw [abs_of_nonneg this]
  · intro a
    simp only [nearOps, decide_eq_true_eq]
    exact hn0 a
  · intro a b; simp [nearOps]
  · intro a b; simp [nearOps]
  · intro a
    have h := (Rat.cast_le (K := ℝ)).mpr (rintQ_err a)
    simp only [nearOps]
    push_cast at h ⊢
    exact h

theorem nearOps_zero (p : Nat) : ZeroLaws (nearOps p) where
  ofZ := by simp [nearOps, rnQ_zero]
  addmul := by intro a v; simp [nearOps]
  submul := by
    intro a; simp only [nearOps]
    rw [zero_mul, rnQ_zero, sub_zero, rnQ_zero]
  div := by intro a _; simp [nearOps, rnQ_zero]

end HPLLL
