import Verif.Proof.Ldpe

/-!
# Early exits of `ldpe_add`, square root, comparison
-/

namespace HPLLL.Ldpe
open HPLLL.Spec

theorem nearestQ {p : ℕ} {x q : ℚ} :
    Nearest p x q ↔ IsFloat p q ∧ ∀ f : ℚ, IsFloat p f → |x - q| ≤ |x - f| := by
  unfold Nearest
  have : ∀ f : ℚ, (|(x : ℝ) - q| ≤ |(x : ℝ) - f|) ↔ |x - q| ≤ |x - f| := by
    intro f
    rw [← Rat.cast_le (K := ℝ)]
    push_cast
    rfl
  simp only [this]

theorem Num.Normal.bounds {x : Num} (h : x.Normal) (h0 : x.mant ≠ 0) :
    (2 : ℚ) ^ (x.exp - 1) ≤ |x.val| ∧ |x.val| < 2 ^ x.exp := by
  rcases h with h | h
  · exact absurd h.1 h0
  have hp : (0 : ℚ) < 2 ^ x.exp := by positivity
  unfold Num.val
  rw [abs_mul, abs_of_pos hp, zpow_sub₀ (by norm_num)]
  constructor
  · have := mul_le_mul_of_nonneg_right h.1 hp.le
    simp only [zpow_one]
    linarith
  · have := mul_lt_mul_of_pos_right h.2.1 hp
    linarith

theorem Num.Normal.lt_pow {x : Num} (h : x.Normal) : |x.val| < 2 ^ x.exp := by
  by_cases h0 : x.mant = 0
  · have : (0 : ℚ) < 2 ^ x.exp := by positivity
    rw [Num.val_eq_zero.mpr h0]; simpa using this
  · exact (h.bounds h0).2

/-- Gap around a float. -/
theorem float_gap {k b : ℤ} (h1 : 2 ^ 63 ≤ k) (h2 : k < 2 ^ 64) {f : ℚ} (hf : IsFloat 64 f)
    (hne : f ≠ k * 2 ^ (b - 64)) :
    (2 : ℚ) ^ (b - 64) ≤ |f - k * 2 ^ (b - 64)| ∨
      (k = 2 ^ 63 ∧ f + 2 ^ (b - 65) ≤ k * 2 ^ (b - 64)) := by
  have two : (2 : ℚ) ≠ 0 := by norm_num
  have one : (1 : ℚ) ≤ 2 := by norm_num
  obtain ⟨j, e, hj, rfl⟩ := hf
  set u : ℚ := 2 ^ (b - 64) with hu
  have hu0 : 0 < u := by positivity
  by_cases he : b - 64 ≤ e
  · left
    obtain ⟨n, hn⟩ : ∃ n : ℤ, (j : ℚ) * 2 ^ e = n * u := by
      refine ⟨j * 2 ^ (e - (b - 64)).toNat, ?_⟩
      push_cast
      rw [hu, mul_assoc, ← zpow_natCast, ← zpow_add₀ two]
      congr 2
      have := Int.toNat_of_nonneg (show 0 ≤ e - (b - 64) by omega)
      omega
    rw [hn] at hne ⊢
    rw [← sub_mul, abs_mul, abs_of_pos hu0]
    have : (1 : ℤ) ≤ |n - k| := by
      apply Int.one_le_abs
      intro h
      apply hne
      rw [show n = k by omega]
    have : (1 : ℚ) ≤ |(n : ℚ) - k| := by exact_mod_cast this
    nlinarith
  · push Not at he
    have hj' : (j : ℚ) ≤ 2 ^ 64 - 1 := by
      have : j ≤ 2 ^ 64 - 1 := by have := (abs_lt.mp hj).2; omega
      exact_mod_cast this
    have hf1 : (j : ℚ) * 2 ^ e + 2 ^ (b - 65) ≤ 2 ^ 63 * u := by
      by_cases he' : e = b - 65
      · subst he'
        have e1 : u = 2 * 2 ^ (b - 65) := by
          rw [hu, ← zpow_one_add₀ two]; congr 1; ring
        rw [e1]
        have : (0 : ℚ) < 2 ^ (b - 65) := by positivity
        nlinarith
      · have e1 : u = 4 * 2 ^ (b - 66) := by
          rw [hu, show (4 : ℚ) = 2 ^ (2 : ℤ) by norm_num, ← zpow_add₀ two]; congr 1; ring
        have e2 : (2 : ℚ) ^ (b - 65) = 2 * 2 ^ (b - 66) := by
          rw [← zpow_one_add₀ two]; congr 1; ring
        have e3 : (2 : ℚ) ^ e ≤ 2 ^ (b - 66) := zpow_le_zpow_right₀ one (by omega)
        have e4 : (0 : ℚ) < 2 ^ e := by positivity
        rw [e1, e2]
        nlinarith
    rcases eq_or_lt_of_le h1 with h | h
    · right
      refine ⟨h.symm, ?_⟩
      rw [← h]; push_cast; exact hf1
    · left
      have : (2 : ℚ) ^ 63 + 1 ≤ k := by
        have : (2 : ℤ) ^ 63 + 1 ≤ k := h
        exact_mod_cast this
      have h65 : (0 : ℚ) < 2 ^ (b - 65) := by positivity
      rw [abs_sub_comm, abs_of_nonneg (by nlinarith)]
      nlinarith

theorem Num.Normal.int {x : Num} (h : x.Normal) (h0 : 0 < x.mant) :
    ∃ k : ℤ, 2 ^ 63 ≤ k ∧ k < 2 ^ 64 ∧ x.mant = k * 2 ^ (-64 : ℤ) := by
  have two : (2 : ℚ) ≠ 0 := by norm_num
  rcases h with h | ⟨h1, h2, ⟨j, e, hj, hm⟩, -⟩
  · exact absurd h.1 h0.ne'
  rw [abs_of_pos h0] at h1 h2
  -- the mantissa is fixed by the rounding on 64 bits
  have hr := rnd_float (p := 64) (by norm_num) ⟨j, e, hj, hm⟩
  have hb : bexp x.mant = 0 := bexp_eq (by rw [abs_of_pos h0]; simpa using h1)
    (by rw [abs_of_pos h0]; simpa using h2)
  simp only [rnd, h0.ne', if_false, hb, pow2_eq] at hr
  set k := rne (x.mant / 2 ^ ((0 : ℤ) - ((64 : ℕ) : ℤ)))
  have hk : x.mant = k * 2 ^ (-64 : ℤ) := by rw [← hr]; norm_num
  have e1 : (2 : ℚ) ^ (-64 : ℤ) * 2 ^ 64 = 1 := by norm_num
  have hk' : (k : ℚ) = x.mant * 2 ^ 64 := by rw [hk, mul_assoc, e1, mul_one]
  refine ⟨k, ?_, ?_, hk⟩
  · have : (2 : ℚ) ^ 63 ≤ k := by rw [hk']; linarith
    exact_mod_cast this
  · have : (k : ℚ) < 2 ^ 64 := by rw [hk']; linarith
    exact_mod_cast this

theorem exit_near_pos {y z : Num} (hy : y.Normal) (hz : z.Normal) (h : y.exp > z.exp + 64)
    (hpos : 0 < y.mant) : Nearest 64 ((y.val + z.val : ℚ)) y.val ↔ ¬ Missed y z := by
  have two : (2 : ℚ) ≠ 0 := by norm_num
  have one : (1 : ℚ) ≤ 2 := by norm_num
  obtain ⟨k, hk1, hk2, hk⟩ := hy.int hpos
  have hyv : y.val = k * 2 ^ (y.exp - 64) := by
    unfold Num.val
    rw [hk, mul_assoc, ← zpow_add₀ two]; congr 2; ring
  have hzl := hz.lt_pow
  have e64 : (2 : ℚ) ^ (y.exp - 64) = 4 * 2 ^ (y.exp - 66) := by
    rw [show (4 : ℚ) = 2 ^ (2 : ℤ) by norm_num, ← zpow_add₀ two]; congr 1; ring
  have e65 : (2 : ℚ) ^ (y.exp - 65) = 2 * 2 ^ (y.exp - 66) := by
    rw [← zpow_one_add₀ two]; congr 1; ring
  have hzb : |z.val| < 2 * 2 ^ (y.exp - 66) := by
    refine hzl.trans_le ?_
    rw [← e65]
    exact zpow_le_zpow_right₀ one (by omega)
  have hw : (0 : ℚ) < 2 ^ (y.exp - 66) := by positivity
  rw [nearestQ]
  constructor
  · rintro ⟨-, hn⟩ ⟨m1, m2, m3, m4⟩
    rw [abs_of_pos hpos] at m1
    have hk63 : k = 2 ^ 63 := by
      rw [m1] at hk
      have : (k : ℚ) = 2 ^ 63 := by
        have e1 : (2 : ℚ) ^ (-64 : ℤ) * 2 ^ 64 = 1 := by norm_num
        calc (k : ℚ) = k * (2 ^ (-64 : ℤ) * 2 ^ 64) := by rw [e1, mul_one]
          _ = 1 / 2 * 2 ^ 64 := by rw [← mul_assoc, ← hk]
          _ = 2 ^ 63 := by norm_num
      exact_mod_cast this
    have hz0 : z.mant < 0 := by nlinarith
    rw [abs_of_neg hz0] at m4
    have hzv : z.val = z.mant * (2 * 2 ^ (y.exp - 66)) := by
      unfold Num.val; rw [m3, e65]
    have := hn (((2 ^ 64 - 1 : ℤ) : ℚ) * 2 ^ (y.exp - 65)) ⟨2 ^ 64 - 1, y.exp - 65, by norm_num, rfl⟩
    have hyv' : y.val = 2 ^ 63 * (4 * 2 ^ (y.exp - 66)) := by rw [hyv, e64, hk63]; push_cast; rfl
    rw [e65] at this
    have h1 : y.val + z.val - ((2 ^ 64 - 1 : ℤ) : ℚ) * (2 * 2 ^ (y.exp - 66))
        = (z.mant + 1) * (2 * 2 ^ (y.exp - 66)) := by rw [hyv', hzv]; push_cast; ring
    rw [h1, add_sub_cancel_left, hzv] at this
    have hz1 : 0 ≤ z.mant + 1 := by
      rcases hz with hz | hz
      · linarith [hz.1]
      · have := (abs_lt.mp hz.2.1).1; linarith
    have ea : ∀ w : ℚ, |w * (2 * 2 ^ (y.exp - 66))| = |w| * (2 * 2 ^ (y.exp - 66)) := fun w => by
      rw [abs_mul w, abs_of_pos (by positivity : (0 : ℚ) < 2 * 2 ^ (y.exp - 66))]
    rw [ea, ea, abs_of_neg hz0, abs_of_nonneg hz1] at this
    nlinarith
  · intro hm
    refine ⟨?_, fun f hf => ?_⟩
    · rw [hyv]; exact ⟨k, y.exp - 64, by rw [abs_of_pos (by omega)]; exact hk2, rfl⟩
    · rw [add_sub_cancel_left]
      by_cases hfy : f = y.val
      · subst hfy; simp
      rw [hyv] at hfy
      rcases float_gap hk1 hk2 hf hfy with hg | ⟨hk63, hg⟩
      · rw [← hyv, e64] at hg
        have : |f - y.val| ≤ |y.val + z.val - f| + |z.val| := by
          have := abs_sub (z.val) (y.val + z.val - f)
          rw [show z.val - (y.val + z.val - f) = f - y.val by ring] at this
          linarith
        linarith
      · rw [← hyv, e65] at hg
        by_cases hz0 : 0 ≤ z.val
        · rw [abs_of_nonneg hz0, abs_of_nonneg (by linarith)]
          linarith
        · push Not at hz0
          rw [abs_of_neg hz0]
          have hzm : z.mant < 0 := by
            have : (0 : ℚ) < 2 ^ z.exp := by positivity
            unfold Num.val at hz0
            by_contra hc
            push Not at hc
            have := mul_nonneg hc this.le
            linarith
          have hzh : -z.val ≤ 2 ^ (y.exp - 66) := by
            by_cases he : z.exp = y.exp - 65
            · have : |z.mant| ≤ 1 / 2 := by
                by_contra hc
                push Not at hc
                refine hm ⟨?_, mul_neg_of_pos_of_neg hpos hzm, he, hc⟩
                rw [hk, hk63, abs_of_pos (by positivity)]
                norm_num
              rw [abs_of_neg hzm] at this
              unfold Num.val
              rw [he, e65]
              nlinarith
            · rw [abs_of_neg hz0] at hzl
              refine hzl.le.trans (zpow_le_zpow_right₀ one (by omega))
          rw [abs_of_nonneg (by linarith)]
          linarith

theorem nearest_neg {p : ℕ} {x q : ℚ} : Nearest p ((-x : ℚ)) (-q) ↔ Nearest p x q := by
  have key : ∀ {x q : ℚ}, Nearest p x q → Nearest p ((-x : ℚ)) (-q) := by
    intro x q h
    rw [nearestQ] at h ⊢
    refine ⟨h.1.neg, fun f hf => ?_⟩
    have := h.2 (-f) hf.neg
    rw [← abs_neg, ← abs_neg (-x - f)]
    convert this using 2 <;> ring
  refine ⟨fun h => ?_, key⟩
  have := key h
  simpa using this

theorem exit_near {y z : Num} (hy : y.Normal) (hz : z.Normal) (h : y.exp > z.exp + 64) :
    Nearest 64 ((y.val + z.val : ℚ)) y.val ↔ ¬ Missed y z := by
  have hy0 : y.mant ≠ 0 := by
    intro h0
    rcases hy with hy | hy
    · rcases hz with hz | hz
      · rw [hy.2, hz.2] at h; omega
      · have := hz.2.2.2.1; omega
    · rw [h0] at hy; norm_num at hy
  rcases lt_or_gt_of_ne hy0 with h0 | h0
  · have := exit_near_pos hy.neg hz.neg h (by simpa using h0)
    rw [← nearest_neg]
    convert this using 2
    · simp [Num.val]; ring_nf
    · simp [Num.val]
    · simp [Missed]
  · exact exit_near_pos hy hz h h0

theorem exit_err {y z : Num} (hy : y.Normal) (hz : z.Normal) (h : y.exp > z.exp + 64) :
    |z.val| ≤ 2 ^ (-64 : ℤ) * |y.val| := by
  have two : (2 : ℚ) ≠ 0 := by norm_num
  have hy0 : y.mant ≠ 0 := by
    intro h0
    rcases hy with hy | hy
    · rcases hz with hz | hz
      · rw [hy.2, hz.2] at h; omega
      · have := hz.2.2.2.1; omega
    · rw [h0] at hy; norm_num at hy
  have h1 := (hy.bounds hy0).1
  refine hz.lt_pow.le.trans ?_
  calc (2 : ℚ) ^ z.exp ≤ 2 ^ (y.exp - 65) := zpow_le_zpow_right₀ (by norm_num) (by omega)
    _ = 2 ^ (-64 : ℤ) * 2 ^ (y.exp - 1) := by rw [← zpow_add₀ two]; congr 1; ring
    _ ≤ _ := by gcongr

/-- Error of the rounding, relative to the result. -/
theorem rnd_err' (q : ℚ) : |q - rnd 64 q| ≤ 2 ^ (-64 : ℤ) * |rnd 64 q| := by
  by_cases hq : q = 0
  · subst hq; simp [rnd]
  obtain ⟨a, b⟩ := bexp_spec hq
  have two : (2 : ℚ) ≠ 0 := by norm_num
  have hn := rnd_near (p := 64) (by norm_num) q
  rw [nearestQ] at hn
  simp only [Nat.cast_ofNat] at hn
  have hr : |q - rnd 64 q| ≤ 2 ^ (bexp q - 65) := by
    simp only [rnd, hq, if_false, pow2_eq]
    set u : ℚ := 2 ^ (bexp q - 64) with hu
    have hu0 : 0 < u := by positivity
    have h := rne_err (q / u)
    have e : q - rne (q / u) * u = (q / u - rne (q / u)) * u := by field_simp
    rw [e, abs_mul, abs_of_pos hu0]
    calc |q / u - rne (q / u)| * u ≤ 1 / 2 * u := by gcongr
      _ = 2 ^ (bexp q - 65) := by
          have : (1 / 2 : ℚ) = 2 ^ (-1 : ℤ) := by norm_num
          rw [hu, this, ← zpow_add₀ two]; congr 1; ring
  -- the result is at least `2^(bexp - 1)`
  have hge : (2 : ℚ) ^ (bexp q - 1) ≤ |rnd 64 q| := by
    by_contra hc
    push Not at hc
    rcases lt_or_gt_of_ne hq with h0 | h0
    · have := hn.2 (-2 ^ (bexp q - 1)) ⟨-1, bexp q - 1, by norm_num, by simp⟩
      rw [abs_of_neg h0] at a
      have h2 := (abs_lt.mp hc).1
      rw [abs_of_nonpos (by linarith), abs_of_nonpos (by linarith)] at this
      simp at this
      linarith
    · have := hn.2 (2 ^ (bexp q - 1)) ⟨1, bexp q - 1, by norm_num, by simp⟩
      rw [abs_of_pos h0] at a
      have h2 := (abs_lt.mp hc).2
      rw [abs_of_nonneg (by simp; linarith), abs_of_nonneg (by linarith)] at this
      simp at this
      linarith
  calc |q - rnd 64 q| ≤ 2 ^ (bexp q - 65) := hr
    _ = 2 ^ (-64 : ℤ) * 2 ^ (bexp q - 1) := by rw [← zpow_add₀ two]; congr 1; ring
    _ ≤ _ := by gcongr

/-! ## Square root -/

theorem sqrtRnd_spec {q : ℚ} {n : ℕ} (hn : q = n * 2 ^ (-128 : ℤ)) (h1 : 2 ^ 126 ≤ n)
    (h2 : n ≤ 2 ^ 128 - 2 ^ 64) : Nearest 64 (Real.sqrt q) (sqrtRnd q) ∧
      1 / 2 ≤ sqrtRnd q ∧ sqrtRnd q < 1 := by
  have hnum : (q * pow2 128).num.toNat = n := by
    rw [hn, pow2_eq, mul_assoc, ← zpow_add₀ (by norm_num)]; simp
  set r := Nat.sqrt n with hr
  have hr1 : r * r ≤ n := Nat.sqrt_le n
  have hr2 : n < (r + 1) * (r + 1) := Nat.lt_succ_sqrt n
  have hlo : 2 ^ 63 ≤ r := by rw [hr, Nat.le_sqrt]; omega
  have hhi : r < 2 ^ 64 := by rw [hr, Nat.sqrt_lt]; omega
  set s : ℕ := if n ≤ r * r + r then r else r + 1 with hs
  have hse : sqrtRnd q = s * 2 ^ (-64 : ℤ) := by
    unfold sqrtRnd
    simp only [hnum]
    rw [← hr, ← hs, pow2_eq]
  have hs1 : 2 ^ 63 ≤ s := by rw [hs]; split_ifs <;> omega
  have hs2 : s < 2 ^ 64 := by
    rw [hs]; split_ifs with hc
    · exact hhi
    · by_contra hc2
      have : r = 2 ^ 64 - 1 := by omega
      rw [this] at hc
      apply hc
      refine h2.trans ?_
      norm_num
  -- the real square root
  set t : ℝ := Real.sqrt n with ht
  have ht0 : 0 ≤ t := Real.sqrt_nonneg _
  have ht2 : t * t = n := Real.mul_self_sqrt (by positivity)
  have hq : Real.sqrt q = t * 2 ^ (-64 : ℤ) := by
    rw [hn]
    push_cast
    rw [Real.sqrt_mul (by positivity)]
    congr 1
    rw [Real.sqrt_eq_iff_mul_self_eq_of_pos (by positivity)]
    norm_num
  have hrt : (r : ℝ) ≤ t := by
    have : (r * r : ℝ) ≤ n := by exact_mod_cast hr1
    nlinarith
  have htr : t < r + 1 := by
    have : (n : ℝ) < (r + 1) * (r + 1) := by exact_mod_cast hr2
    nlinarith
  have hst : |t - s| ≤ 1 / 2 := by
    rw [hs]
    split_ifs with hc
    · have hc' : (n : ℝ) ≤ r * r + r := by exact_mod_cast hc
      rw [abs_of_nonneg (by linarith)]
      by_contra hcc
      push Not at hcc
      nlinarith
    · have hc' : (r * r + r + 1 : ℝ) ≤ n := by
        have : r * r + r + 1 ≤ n := by omega
        exact_mod_cast this
      push_cast
      rw [abs_of_nonpos (by linarith)]
      by_contra hcc
      push Not at hcc
      nlinarith
  refine ⟨?_, ?_, ?_⟩
  · rw [hse]
    have := near_of_int (p := 64) (by norm_num) (x := Real.sqrt q) (b := 0) (k := s) ?_ ?_ ?_
    · exact_mod_cast this
    · rw [abs_of_nonneg (Real.sqrt_nonneg _), hq]
      have : (2 : ℝ) ^ 63 ≤ r := by exact_mod_cast hlo
      have e : (2 : ℝ) ^ (0 - 1 : ℤ) = 2 ^ 63 * 2 ^ (-64 : ℤ) := by norm_num
      rw [e]; gcongr; linarith
    · rw [abs_of_nonneg (Real.sqrt_nonneg _), hq]
      have h3 : (r : ℝ) + 1 ≤ 2 ^ 64 := by exact_mod_cast hhi
      have e : (2 : ℝ) ^ (0 : ℤ) = 2 ^ 64 * 2 ^ (-64 : ℤ) := by norm_num
      rw [e]; gcongr; linarith
    · intro j
      have e : Real.sqrt q / 2 ^ ((0 : ℤ) - ((64 : ℕ) : ℤ)) = t := by
        rw [hq]; norm_num
      rw [e]
      by_cases hj : j = s
      · subst hj; exact le_refl _
      · have : (1 : ℝ) ≤ |((s : ℤ) : ℝ) - j| := by
          have : (1 : ℤ) ≤ |(s : ℤ) - j| := Int.one_le_abs (by omega)
          exact_mod_cast this
        have h3 : |((s : ℤ) : ℝ) - j| ≤ |t - (s : ℤ)| + |t - j| := by
          rw [abs_sub_comm t]
          have := abs_add_le (((s : ℤ) : ℝ) - t) (t - j)
          simpa using this
        have h4 : |t - ((s : ℤ) : ℝ)| ≤ 1 / 2 := by exact_mod_cast hst
        linarith
  · rw [hse]
    have : (2 : ℚ) ^ 63 ≤ s := by exact_mod_cast hs1
    have e : (1 / 2 : ℚ) = 2 ^ 63 * 2 ^ (-64 : ℤ) := by norm_num
    rw [e]; gcongr
  · rw [hse]
    have : (s : ℚ) < 2 ^ 64 := by exact_mod_cast hs2
    have e : (1 : ℚ) = 2 ^ 64 * 2 ^ (-64 : ℤ) := by norm_num
    rw [e]; gcongr

theorem nearest_scale {p : ℕ} {x : ℝ} {q : ℚ} (h : Nearest p x q) (k : ℤ) :
    Nearest p (x * 2 ^ k) (q * 2 ^ k) := by
  have hk : (0 : ℝ) < 2 ^ k := by positivity
  refine ⟨h.1.mul k, fun f hf => ?_⟩
  have := h.2 _ (hf.mul (-k))
  have e1 : x * 2 ^ k - ((q * 2 ^ k : ℚ) : ℝ) = (x - q) * 2 ^ k := by push_cast; ring
  have e2 : x * 2 ^ k - (f : ℝ) = (x - ((f * 2 ^ (-k) : ℚ) : ℝ)) * 2 ^ k := by
    push_cast
    rw [sub_mul, mul_assoc, ← zpow_add₀ (by norm_num)]
    simp
  rw [e1, e2, abs_mul, abs_mul]
  gcongr

theorem sqrt_spec {m m' : Mem} {x y : Nat} (h : sqrt m x y = some m') (hy : (m y).Normal)
    (h0 : 0 < (m y).mant) :
    Only x m m' ∧ (m' x).Normal ∧ Nearest 64 (Real.sqrt ((m y).val : ℝ)) (m' x).val := by
  have two : (2 : ℝ) ≠ 0 := by norm_num
  obtain ⟨k, hk1, hk2, hk⟩ := hy.int h0
  have hy' := hy
  rcases hy' with hy' | hy'
  · exact absurd hy'.1 h0.ne'
  obtain ⟨K, rfl⟩ : ∃ K : ℕ, k = K := ⟨k.toNat, (Int.toNat_of_nonneg (by omega)).symm⟩
  have hK1 : 2 ^ 63 ≤ K := by exact_mod_cast hk1
  have hK2 : K < 2 ^ 64 := by exact_mod_cast hk2
  unfold sqrt at h
  simp only [Option.bind_eq_bind, h0.ne', if_false] at h
  have key : ∀ (q : ℚ) (e : ℤ), Nearest 64 (Real.sqrt q) (sqrtRnd q) →
      (m y).val = q * 2 ^ (2 * e) → Nearest 64 (Real.sqrt ((m y).val : ℝ)) (sqrtRnd q * 2 ^ e) := by
    intro q e hn hv
    have : Real.sqrt ((m y).val : ℝ) = Real.sqrt q * 2 ^ e := by
      rw [hv]
      push_cast
      rw [Real.sqrt_mul' _ (by positivity)]
      congr 1
      rw [Real.sqrt_eq_iff_mul_self_eq_of_pos (by positivity), ← zpow_add₀ two]
      congr 1; ring
    rw [this]
    exact nearest_scale hn e
  split_ifs at h with hodd
  · simp only [Option.bind_eq_some_iff, Option.some.injEq] at h
    obtain ⟨e, he, rfl⟩ := h
    obtain ⟨rfl, he1, he2⟩ := chk_some he
    set q := rnd 64 (1 / 2 * (m y).mant) with hq
    have hqe : q = 1 / 2 * (m y).mant := by
      rw [hq]
      have : (1 / 2 * (m y).mant) = (m y).mant * 2 ^ (-1 : ℤ) := by rw [zpow_neg_one]; ring
      rw [this]
      exact rnd_float (p := 64) (by norm_num) (hy.float.mul (-1))
    have hqn : q = ((K * 2 ^ 63 : ℕ) : ℚ) * 2 ^ (-128 : ℤ) := by
      rw [hqe, hk]; push_cast
      have : (2 : ℚ) ^ (-64 : ℤ) = 2 ^ 64 * 2 ^ (-128 : ℤ) := by norm_num
      rw [this]; ring
    obtain ⟨s1, s2, s3⟩ := sqrtRnd_spec hqn (by omega) (by omega)
    have htd : Int.tdiv ((m y).exp + 1) 2 * 2 = (m y).exp + 1 := by
      apply Int.tdiv_mul_cancel
      have : ¬ (2 ∣ (m y).exp) := fun hd => hodd (Int.tmod_eq_zero_of_dvd hd)
      omega
    refine ⟨(only_setMant m x _).trans (only_setExp _ x _), ?_, ?_⟩
    · right
      simp only [setExp_self, setMant_self]
      rw [abs_of_nonneg (by linarith)]
      simp only [intMin, intMax] at *
      exact ⟨s2, s3, s1.1, by omega, by omega⟩
    · simp only [Num.val, setExp_self, setMant_self]
      refine key q _ s1 ?_
      rw [mul_comm 2, htd, hqe, Num.val, zpow_add₀ (by norm_num)]
      simp only [zpow_one]; ring
  · simp only [Option.some.injEq] at h
    subst h
    have hqn : (m y).mant = ((K * 2 ^ 64 : ℕ) : ℚ) * 2 ^ (-128 : ℤ) := by
      rw [hk]; push_cast
      have : (2 : ℚ) ^ (-64 : ℤ) = 2 ^ 64 * 2 ^ (-128 : ℤ) := by norm_num
      rw [this]; ring
    obtain ⟨s1, s2, s3⟩ := sqrtRnd_spec hqn (by omega) (by omega)
    have htd : Int.tdiv ((m y).exp) 2 * 2 = (m y).exp :=
      Int.tdiv_mul_cancel (Int.dvd_of_tmod_eq_zero (not_not.mp hodd))
    refine ⟨(only_setMant m x _).trans (only_setExp _ x _), ?_, ?_⟩
    · right
      simp only [setExp_self, setMant_self]
      rw [abs_of_nonneg (by linarith)]
      simp only [intMin, intMax] at *
      exact ⟨s2, s3, s1.1, by omega, by omega⟩
    · simp only [Num.val, setExp_self, setMant_self]
      refine key _ _ s1 ?_
      rw [mul_comm 2, htd, Num.val]

/-! ## Comparison -/

theorem sign_val (x : Num) : sign x.mant = sign x.val := by
  have hp : (0 : ℚ) < 2 ^ x.exp := by positivity
  unfold sign Num.val
  simp only [mul_pos_iff_of_pos_right hp]
  by_cases h : x.mant < 0
  · simp [h, mul_neg_of_neg_of_pos h hp]
  · have : ¬ x.mant * 2 ^ x.exp < 0 := by
      push Not at h ⊢; positivity
    simp [h, this]

theorem cmp_spec {x y : Num} (hx : x.Normal) (hy : y.Normal) :
    (cmp x y < 0 ↔ x.val < y.val) ∧ (cmp x y = 0 ↔ x.val = y.val) ∧ (0 < cmp x y ↔ y.val < x.val) := by
  -- it is enough to have one direction in each case
  suffices h : (x.val < y.val ∧ cmp x y < 0) ∨ (x.val = y.val ∧ cmp x y = 0) ∨
      (y.val < x.val ∧ 0 < cmp x y) by
    rcases h with ⟨a, b⟩ | ⟨a, b⟩ | ⟨a, b⟩
    · exact ⟨by tauto, ⟨fun h => by omega, fun h => absurd h a.ne⟩,
        ⟨fun h => by omega, fun h => absurd h a.le.not_gt⟩⟩
    · rw [a, b]; simp
    · exact ⟨⟨fun h => by omega, fun h => absurd h a.le.not_gt⟩,
        ⟨fun h => by omega, fun h => absurd h a.ne'⟩, by tauto⟩
  have sgn : ∀ q : ℚ, (sign q = -1 ∧ q < 0) ∨ (sign q = 0 ∧ q = 0) ∨ (sign q = 1 ∧ 0 < q) := by
    intro q
    unfold sign
    rcases lt_trichotomy q 0 with h | h | h
    · simp [h]
    · simp [h]
    · simp [h, h.le.not_gt, h.ne', h.le]
  have hlt : ∀ {a b : Num}, a.Normal → b.Normal → b.mant ≠ 0 → a.exp < b.exp → |a.val| < |b.val| := by
    intro a b ha hb hb0 hab
    refine ha.lt_pow.trans_le (le_trans ?_ (hb.bounds hb0).1)
    exact zpow_le_zpow_right₀ (by norm_num) (by omega)
  have hpx : (0 : ℚ) < 2 ^ x.exp := by positivity
  have sx := sgn x.val
  have sy := sgn y.val
  unfold cmp
  simp only [sign_val]
  rcases sx with ⟨ax, bx⟩ | ⟨ax, bx⟩ | ⟨ax, bx⟩ <;> rcases sy with ⟨ay, by'⟩ | ⟨ay, by'⟩ | ⟨ay, by'⟩ <;>
    simp only [ax, ay]
  · -- both negative
    have x0 : x.mant ≠ 0 := fun h => bx.ne (Num.val_eq_zero.mpr h)
    have y0 : y.mant ≠ 0 := fun h => by'.ne (Num.val_eq_zero.mpr h)
    simp
    split_ifs with h1 h2 h3 h4
    · left
      have := hlt hy hx x0 h1
      rw [abs_of_neg bx, abs_of_neg by'] at this
      exact ⟨by linarith, by norm_num⟩
    · right; right
      have := hlt hx hy y0 h2
      rw [abs_of_neg bx, abs_of_neg by'] at this
      exact ⟨by linarith, by norm_num⟩
    · left
      have he : x.exp = y.exp := by omega
      refine ⟨?_, by norm_num⟩
      unfold Num.val; rw [← he]; gcongr
    · right; right
      have he : x.exp = y.exp := by omega
      refine ⟨?_, by norm_num⟩
      unfold Num.val; rw [← he]; gcongr
    · right; left
      have he : x.exp = y.exp := by omega
      refine ⟨?_, rfl⟩
      unfold Num.val; rw [← he, le_antisymm (not_lt.mp h4) (not_lt.mp h3)]
  · left; exact ⟨by linarith, by norm_num⟩
  · left; exact ⟨by linarith, by norm_num⟩
  · right; right; exact ⟨by linarith, by norm_num⟩
  · -- both zero
    have x0 := Num.val_eq_zero.mp bx
    have y0 := Num.val_eq_zero.mp by'
    right; left
    refine ⟨by rw [bx, by'], ?_⟩
    have hxe : x.exp = intMin := by
      rcases hx with h | h
      · exact h.2
      · rw [x0] at h; norm_num at h
    have hye : y.exp = intMin := by
      rcases hy with h | h
      · exact h.2
      · rw [y0] at h; norm_num at h
    simp [x0, y0, hxe, hye]
  · left; exact ⟨by linarith, by norm_num⟩
  · right; right; exact ⟨by linarith, by norm_num⟩
  · right; right; exact ⟨by linarith, by norm_num⟩
  · -- both positive
    have x0 : x.mant ≠ 0 := fun h => bx.ne' (Num.val_eq_zero.mpr h)
    have y0 : y.mant ≠ 0 := fun h => by'.ne' (Num.val_eq_zero.mpr h)
    simp
    split_ifs with h1 h2 h3 h4
    · right; right
      have := hlt hy hx x0 h1
      rw [abs_of_pos bx, abs_of_pos by'] at this
      exact ⟨by linarith, by norm_num⟩
    · left
      have := hlt hx hy y0 h2
      rw [abs_of_pos bx, abs_of_pos by'] at this
      exact ⟨by linarith, by norm_num⟩
    · left
      have he : x.exp = y.exp := by omega
      refine ⟨?_, by norm_num⟩
      unfold Num.val; rw [← he]; gcongr
    · right; right
      have he : x.exp = y.exp := by omega
      refine ⟨?_, by norm_num⟩
      unfold Num.val; rw [← he]; gcongr
    · right; left
      have he : x.exp = y.exp := by omega
      refine ⟨?_, rfl⟩
      unfold Num.val; rw [← he, le_antisymm (not_lt.mp h4) (not_lt.mp h3)]

end HPLLL.Ldpe
