import Verif.Model.Ldpe
import Verif.Spec.Ldpe
import Mathlib.Tactic.Linarith
import Mathlib.Tactic.FieldSimp
import Mathlib.Tactic.Positivity
import Mathlib.Tactic.Ring
import Mathlib.Tactic.NormNum
import Mathlib.Data.Nat.Log
import Mathlib.Algebra.Order.Field.Power

/-!
# Rounding, and the arithmetic of `ldpe_t`
-/

namespace HPLLL.Ldpe
open HPLLL.Spec

theorem pow2_eq (e : ℤ) : pow2 e = (2 : ℚ) ^ e := by
  cases e with
  | ofNat n => simp [pow2]
  | negSucc n => simp [pow2, zpow_negSucc]

theorem bexp_spec {q : ℚ} (hq : q ≠ 0) : (2 : ℚ) ^ (bexp q - 1) ≤ |q| ∧ |q| < 2 ^ bexp q := by
  have hn : q.num.natAbs ≠ 0 := by simpa using hq
  have hd : q.den ≠ 0 := q.den_nz
  set a := q.num.natAbs with ha
  set b := q.den with hb
  have hqe : |q| = (a : ℚ) / b := by
    conv_lhs => rw [← Rat.num_div_den q]
    rw [abs_div, ha, hb]
    congr 1
    · rw [Nat.cast_natAbs]; simp
    · simp
  have hb0 : (0 : ℚ) < b := by positivity
  have ha1 : (2 : ℚ) ^ (Nat.log2 a) ≤ a := by exact_mod_cast Nat.log2_self_le hn
  have ha2 : (a : ℚ) < 2 ^ (Nat.log2 a + 1) := by exact_mod_cast Nat.lt_log2_self
  have hb1 : (2 : ℚ) ^ (Nat.log2 b) ≤ b := by exact_mod_cast Nat.log2_self_le hd
  have hb2 : (b : ℚ) < 2 ^ (Nat.log2 b + 1) := by exact_mod_cast Nat.lt_log2_self
  have two : (2 : ℚ) ≠ 0 := by norm_num
  have lo : (2 : ℚ) ^ ((Nat.log2 a : ℤ) - Nat.log2 b - 1) ≤ |q| := by
    rw [hqe, le_div_iff₀ hb0]
    calc (2 : ℚ) ^ ((Nat.log2 a : ℤ) - Nat.log2 b - 1) * b
        ≤ (2 : ℚ) ^ ((Nat.log2 a : ℤ) - Nat.log2 b - 1) * 2 ^ (Nat.log2 b + 1) := by gcongr
      _ = 2 ^ (Nat.log2 a) := by
          rw [← zpow_natCast, ← zpow_natCast, ← zpow_add₀ two]; congr 1; push_cast; ring
      _ ≤ a := ha1
  have hi : |q| < (2 : ℚ) ^ ((Nat.log2 a : ℤ) - Nat.log2 b + 1) := by
    rw [hqe, div_lt_iff₀ hb0]
    calc (a : ℚ) < 2 ^ (Nat.log2 a + 1) := ha2
      _ = (2 : ℚ) ^ ((Nat.log2 a : ℤ) - Nat.log2 b + 1) * 2 ^ (Nat.log2 b) := by
          rw [← zpow_natCast, ← zpow_natCast, ← zpow_add₀ two]; congr 1; push_cast; ring
      _ ≤ _ := by gcongr
  unfold bexp
  simp only [← ha, ← hb, pow2_eq]
  split_ifs with h
  · refine ⟨by simpa using h, hi⟩
  · exact ⟨lo, not_le.mp h⟩

theorem bexp_eq {q : ℚ} {k : ℤ} (h1 : (2 : ℚ) ^ (k - 1) ≤ |q|) (h2 : |q| < 2 ^ k) : bexp q = k := by
  have hq : q ≠ 0 := by
    rintro rfl
    have : (0 : ℚ) < 2 ^ (k - 1) := by positivity
    simp at h1; linarith
  obtain ⟨a, b⟩ := bexp_spec hq
  have one : (1 : ℚ) < 2 := by norm_num
  have h3 := (zpow_lt_zpow_iff_right₀ one).mp (lt_of_le_of_lt a h2)
  have h4 := (zpow_lt_zpow_iff_right₀ one).mp (lt_of_le_of_lt h1 b)
  omega

theorem bexp_mul {q : ℚ} (hq : q ≠ 0) (k : ℤ) : bexp (q * 2 ^ k) = bexp q + k := by
  obtain ⟨a, b⟩ := bexp_spec hq
  have two : (2 : ℚ) ≠ 0 := by norm_num
  have hp : (0 : ℚ) < 2 ^ k := by positivity
  apply bexp_eq
  · rw [abs_mul, abs_of_pos hp, show bexp q + k - 1 = bexp q - 1 + k by ring, zpow_add₀ two]
    gcongr
  · rw [abs_mul, abs_of_pos hp, zpow_add₀ two]
    gcongr

theorem rne_err (q : ℚ) : |q - rne q| ≤ 1 / 2 := by
  have h1 := Int.floor_le q
  have h2 := Int.lt_floor_add_one q
  unfold rne
  simp only
  split_ifs <;> push_cast <;> rw [abs_le] <;> constructor <;> linarith

theorem rne_near (q : ℚ) (n : ℤ) : |q - rne q| ≤ |q - n| := by
  by_cases h : n = rne q
  · rw [h]
  · have h1 := rne_err q
    have h2 : (1 : ℚ) ≤ |(rne q : ℚ) - n| := by
      have : (1 : ℤ) ≤ |rne q - n| := Int.one_le_abs (by omega)
      exact_mod_cast this
    have h3 : |(rne q : ℚ) - n| ≤ |q - rne q| + |q - n| := by
      rw [abs_sub_comm q (rne q)]
      have := abs_add_le ((rne q : ℚ) - q) (q - n)
      simpa using this
    linarith

/-- Nearest integer to the scaled number gives the nearest float. -/
theorem near_of_int {p : ℕ} (hp : 1 ≤ p) {x : ℝ} {b k : ℤ} (h1 : (2 : ℝ) ^ (b - 1) ≤ |x|)
    (h2 : |x| < 2 ^ b) (hk : ∀ n : ℤ, |x / 2 ^ (b - p) - k| ≤ |x / 2 ^ (b - p) - n|) :
    Nearest p x (k * 2 ^ (b - p)) := by
  have two : (2 : ℝ) ≠ 0 := by norm_num
  have one : (1 : ℝ) < 2 := by norm_num
  set u : ℝ := 2 ^ (b - (p : ℤ)) with hu
  have hu0 : 0 < u := by positivity
  have e1 : (2 : ℝ) ^ b = 2 ^ p * u := by
    rw [hu, ← zpow_natCast, ← zpow_add₀ two]; congr 1; ring
  have e2 : (2 : ℝ) ^ (b - 1) = 2 ^ (p - 1) * u := by
    rw [hu, ← zpow_natCast, ← zpow_add₀ two]; congr 1; push_cast [hp]; ring
  have hx : x = x / u * u := by field_simp
  set y := x / u with hy
  have hy1 : (2 : ℝ) ^ (p - 1) ≤ |y| := by
    rw [e2, hx, abs_mul, abs_of_pos hu0] at h1
    exact le_of_mul_le_mul_right h1 hu0
  have hy2 : |y| < 2 ^ p := by
    rw [e1, hx, abs_mul, abs_of_pos hu0] at h2
    exact lt_of_mul_lt_mul_right h2 hu0.le
  have key : ∀ n : ℤ, |x - (k : ℝ) * u| ≤ |x - n * u| := by
    intro n
    have := mul_le_mul_of_nonneg_right (hk n) hu0.le
    have ea : ∀ w : ℝ, |w| * u = |w * u| := fun w => by rw [abs_mul, abs_of_pos hu0]
    rw [ea, ea, sub_mul, sub_mul, ← hx] at this
    exact this
  have hcast : (((k : ℚ) * 2 ^ (b - (p : ℤ)) : ℚ) : ℝ) = k * u := by rw [hu]; push_cast; rfl
  refine ⟨?_, ?_⟩
  · -- |k| ≤ 2^p
    have hkp : |k| ≤ 2 ^ p := by
      by_contra hc
      push Not at hc
      have hc' : (2 : ℝ) ^ p + 1 ≤ |(k : ℝ)| := by
        have : (2 : ℤ) ^ p + 1 ≤ |k| := hc
        exact_mod_cast this
      rcases le_total 0 k with hk0 | hk0
      · have := hk (2 ^ p)
        push_cast at this
        have hk0' : (0 : ℝ) ≤ k := by exact_mod_cast hk0
        rw [abs_of_nonneg hk0'] at hc'
        have hyy := abs_lt.mp hy2
        rw [abs_of_nonpos (by linarith), abs_of_nonpos (by linarith)] at this
        linarith
      · have := hk (-2 ^ p)
        push_cast at this
        have hk0' : (k : ℝ) ≤ 0 := by exact_mod_cast hk0
        rw [abs_of_nonpos hk0'] at hc'
        have hyy := abs_lt.mp hy2
        rw [abs_of_nonneg (by linarith), abs_of_nonneg (by linarith)] at this
        linarith
    rcases lt_or_eq_of_le hkp with h | h
    · exact ⟨k, b - p, h, rfl⟩
    · rcases abs_eq (by positivity) |>.mp h with h | h
      · refine ⟨1, b, ?_, ?_⟩
        · simpa using Nat.one_lt_two_pow (by omega : p ≠ 0) |> fun h => (by exact_mod_cast h : (1:ℤ) < 2 ^ p)
        · rw [h]; push_cast
          rw [← zpow_natCast, ← zpow_add₀ (by norm_num : (2 : ℚ) ≠ 0)]
          simp
      · refine ⟨-1, b, ?_, ?_⟩
        · simpa using Nat.one_lt_two_pow (by omega : p ≠ 0) |> fun h => (by exact_mod_cast h : (1:ℤ) < 2 ^ p)
        · rw [h]; push_cast
          rw [neg_mul, ← zpow_natCast, ← zpow_add₀ (by norm_num : (2 : ℚ) ≠ 0)]
          simp
  · rintro f ⟨j, e, hj, rfl⟩
    rw [hcast]
    by_cases he : b - p ≤ e
    · have := key (j * 2 ^ (e - (b - p)).toNat)
      refine this.trans (le_of_eq ?_)
      congr 2
      push_cast
      rw [hu, mul_assoc, ← zpow_natCast, ← zpow_add₀ two]
      congr 2
      have := Int.toNat_of_nonneg (show 0 ≤ e - (b - (p : ℤ)) by omega)
      omega
    · push Not at he
      have hf : |((((j : ℚ) * 2 ^ e : ℚ)) : ℝ)| ≤ 2 ^ (p - 1) * u := by
        push_cast
        rw [abs_mul, abs_of_pos (by positivity : (0 : ℝ) < 2 ^ e), ← e2]
        calc |(j : ℝ)| * 2 ^ e ≤ 2 ^ p * 2 ^ e := by
              gcongr
              have : |j| ≤ 2 ^ p := hj.le
              exact_mod_cast this
          _ = 2 ^ ((p : ℤ) + e) := by rw [← zpow_natCast, ← zpow_add₀ two]
          _ ≤ 2 ^ (b - 1) := zpow_le_zpow_right₀ one.le (by omega)
      set F : ℝ := ((((j : ℚ) * 2 ^ e : ℚ)) : ℝ)
      have hF := abs_le.mp hf
      rcases le_total 0 x with hx0 | hx0
      · have k1 := key (2 ^ (p - 1))
        push_cast at k1
        rw [abs_of_nonneg hx0, e2] at h1
        rw [abs_of_nonneg (by linarith : 0 ≤ x - 2 ^ (p - 1) * u)] at k1
        rw [abs_of_nonneg (by linarith : 0 ≤ x - F)]
        linarith
      · have k1 := key (-2 ^ (p - 1))
        push_cast at k1
        rw [abs_of_nonpos hx0, e2] at h1
        rw [abs_of_nonpos (by linarith : x - -2 ^ (p - 1) * u ≤ 0)] at k1
        rw [abs_of_nonpos (by linarith : x - F ≤ 0)]
        linarith

theorem rnd_near {p : ℕ} (hp : 1 ≤ p) (q : ℚ) : Nearest p q (rnd p q) := by
  by_cases hq : q = 0
  · subst hq
    simp only [rnd, if_true]
    refine ⟨⟨0, 0, by positivity, by simp⟩, fun f _ => by simp⟩
  · obtain ⟨a, b⟩ := bexp_spec hq
    simp only [rnd, hq, if_false, pow2_eq]
    have := near_of_int (p := p) hp (x := (q : ℝ)) (b := bexp q) (k := rne (q / 2 ^ (bexp q - p)))
      (by have := (Rat.cast_le (K := ℝ)).mpr a; push_cast at this; exact this)
      (by have := (Rat.cast_lt (K := ℝ)).mpr b; push_cast at this; exact this) (by
        intro n
        have := (Rat.cast_le (K := ℝ)).mpr (rne_near (q / 2 ^ (bexp q - (p : ℤ))) n)
        push_cast at this
        exact this)
    exact this

theorem rnd_err {p : ℕ} (q : ℚ) : |q - rnd p q| ≤ 2 ^ (-(p : ℤ)) * |q| := by
  by_cases hq : q = 0
  · subst hq; simp [rnd]
  · obtain ⟨a, b⟩ := bexp_spec hq
    simp only [rnd, hq, if_false, pow2_eq]
    set u : ℚ := 2 ^ (bexp q - (p : ℤ)) with hu
    have hu0 : 0 < u := by positivity
    have h := rne_err (q / u)
    have e : q - rne (q / u) * u = (q / u - rne (q / u)) * u := by field_simp
    rw [e, abs_mul, abs_of_pos hu0]
    calc |q / u - rne (q / u)| * u ≤ 1 / 2 * u := by gcongr
      _ = 2 ^ (-(p : ℤ)) * 2 ^ (bexp q - 1) := by
          have two : (2 : ℚ) ≠ 0 := by norm_num
          have : (1 / 2 : ℚ) = 2 ^ (-1 : ℤ) := by norm_num
          rw [hu, this, ← zpow_add₀ two, ← zpow_add₀ two]; congr 1; ring
      _ ≤ _ := by gcongr

theorem rnd_mul (p : ℤ) (q : ℚ) (k : ℤ) : rnd p (q * 2 ^ k) = rnd p q * 2 ^ k := by
  have two : (2 : ℚ) ≠ 0 := by norm_num
  have hk : (2 : ℚ) ^ k ≠ 0 := by positivity
  by_cases hq : q = 0
  · subst hq; simp [rnd]
  · have hq' : q * 2 ^ k ≠ 0 := mul_ne_zero hq hk
    simp only [rnd, hq, hq', if_false, pow2_eq, bexp_mul hq]
    have e : (2 : ℚ) ^ (bexp q + k - p) = 2 ^ (bexp q - p) * 2 ^ k := by
      rw [← zpow_add₀ two]; congr 1; ring
    rw [e, mul_div_mul_right _ _ hk]
    ring

theorem rnd_float {p : ℕ} (hp : 1 ≤ p) {q : ℚ} (h : IsFloat p q) : rnd p q = q := by
  have := (rnd_near hp q).2 q h
  simp at this
  have h2 : (q : ℝ) - rnd p q = 0 := this
  have : (q : ℝ) = rnd p q := by linarith
  exact_mod_cast this.symm

theorem rnd_eq_zero {p : ℕ} (hp : 1 ≤ p) {q : ℚ} : rnd p q = 0 ↔ q = 0 := by
  constructor
  · intro h
    have := rnd_err (p := p) q
    rw [h, sub_zero] at this
    by_contra hq
    have hq' : 0 < |q| := abs_pos.mpr hq
    have : (2 : ℚ) ^ (-(p : ℤ)) < 1 := by
      rw [zpow_neg, zpow_natCast]
      apply inv_lt_one_of_one_lt₀
      exact one_lt_pow₀ (by norm_num) (by omega)
    nlinarith
  · rintro rfl; simp [rnd]

theorem _root_.HPLLL.Spec.IsFloat.mul {p : ℕ} {q : ℚ} (h : IsFloat p q) (k : ℤ) : IsFloat p (q * 2 ^ k) := by
  obtain ⟨j, e, hj, rfl⟩ := h
  exact ⟨j, e + k, hj, by rw [zpow_add₀ (by norm_num)]; ring⟩

theorem _root_.HPLLL.Spec.IsFloat.neg {p : ℕ} {q : ℚ} (h : IsFloat p q) : IsFloat p (-q) := by
  obtain ⟨j, e, hj, rfl⟩ := h
  exact ⟨-j, e, by rwa [abs_neg], by push_cast; ring⟩

theorem _root_.HPLLL.Spec.IsFloat.int {p : ℕ} {n : ℤ} (h : |n| ≤ 2 ^ p) (hp : 1 ≤ p) : IsFloat p n := by
  rcases lt_or_eq_of_le h with h | h
  · exact ⟨n, 0, h, by simp⟩
  · have h1 : (1 : ℤ) < 2 ^ p := by
      exact_mod_cast Nat.one_lt_two_pow (by omega : p ≠ 0)
    rcases abs_eq (by positivity) |>.mp h with h | h
    · exact ⟨1, p, by simpa using h1, by rw [h]; push_cast; simp⟩
    · exact ⟨-1, p, by simpa using h1, by rw [h]; push_cast; simp⟩

/-! ## Memory -/

@[simp] theorem setMant_self (m : Mem) (x v) : (setMant m x v x) = ⟨v, (m x).exp⟩ := by
  simp [setMant]
@[simp] theorem setExp_self (m : Mem) (x e) : (setExp m x e x) = ⟨(m x).mant, e⟩ := by
  simp [setExp]
@[simp] theorem setMant_exp (m : Mem) (x v y) : (setMant m x v y).exp = (m y).exp := by
  unfold setMant Function.update
  split_ifs with h
  · subst h; rfl
  · rfl
@[simp] theorem setExp_mant (m : Mem) (x v y) : (setExp m x v y).mant = (m y).mant := by
  unfold setExp Function.update
  split_ifs with h
  · subst h; rfl
  · rfl
theorem setMant_ne (m : Mem) {x v y} (h : y ≠ x) : setMant m x v y = m y := by
  simp [setMant, h]
theorem setExp_ne (m : Mem) {x v y} (h : y ≠ x) : setExp m x v y = m y := by
  simp [setExp, h]

theorem only_setMant (m : Mem) (x v) : Only x m (setMant m x v) := fun _ h => setMant_ne m h
theorem only_setExp (m : Mem) (x v) : Only x m (setExp m x v) := fun _ h => setExp_ne m h
theorem Only.trans {x : Nat} {a b c : Mem} (h : Only x a b) (h' : Only x b c) : Only x a c :=
  fun i hi => (h' i hi).trans (h i hi)

theorem chk_some {e e' : ℤ} (h : chk e = some e') : e' = e ∧ intMin ≤ e ∧ e ≤ intMax := by
  unfold chk at h
  split_ifs at h with hc
  · exact ⟨(Option.some.inj h).symm, hc⟩

theorem chk_ok {e : ℤ} (h1 : intMin ≤ e) (h2 : e ≤ intMax) : chk e = some e := by
  simp [chk, h1, h2]

theorem set_spec (m : Mem) (x y : Nat) : Only x m (set m x y) ∧ set m x y x = m y := by
  refine ⟨(only_setMant m x _).trans (only_setExp _ x _), ?_⟩
  simp [set]

theorem neg_spec (m : Mem) (x y : Nat) :
    Only x m (neg m x y) ∧ neg m x y x = ⟨-(m y).mant, (m y).exp⟩ := by
  refine ⟨(only_setMant m x _).trans (only_setExp _ x _), ?_⟩
  simp [neg]

theorem abs_spec (m : Mem) (x y : Nat) :
    Only x m (abs m x y) ∧ abs m x y x = ⟨|(m y).mant|, (m y).exp⟩ := by
  refine ⟨(only_setMant m x _).trans (only_setExp _ x _), ?_⟩
  simp only [abs, setExp_self, setMant_self, setMant_exp]
  split_ifs with h
  · rw [abs_of_nonneg h]
  · rw [abs_of_neg (not_le.mp h)]

theorem Num.Normal.float {x : Num} (h : x.Normal) : IsFloat 64 x.mant := by
  rcases h with h | h
  · rw [h.1]; exact ⟨0, 0, by norm_num, by simp⟩
  · exact h.2.2.1

theorem Num.Normal.neg {x : Num} (h : x.Normal) : Num.Normal ⟨-x.mant, x.exp⟩ := by
  rcases h with h | h
  · left; simpa using h
  · right; exact ⟨by simpa using h.1, by simpa using h.2.1, h.2.2.1.neg, h.2.2.2⟩

theorem Num.Normal.abs {x : Num} (h : x.Normal) : Num.Normal ⟨|x.mant|, x.exp⟩ := by
  rcases abs_cases x.mant with hc | hc
  · rw [hc.1]; exact h
  · rw [hc.1]; exact h.neg

theorem Num.val_eq_zero {x : Num} : x.val = 0 ↔ x.mant = 0 := by
  unfold Num.val
  simp [zpow_ne_zero]

theorem frexp_range {q : ℚ} (hq : q ≠ 0) : 1 / 2 ≤ |q * pow2 (-bexp q)| ∧
    |q * pow2 (-bexp q)| < 1 := by
  obtain ⟨a, b⟩ := bexp_spec hq
  have two : (2 : ℚ) ≠ 0 := by norm_num
  have hp : (0 : ℚ) < 2 ^ (-bexp q) := by positivity
  rw [pow2_eq, abs_mul, abs_of_pos hp]
  constructor
  · calc (1 / 2 : ℚ) = 2 ^ (bexp q - 1) * 2 ^ (-bexp q) := by
          rw [← zpow_add₀ two]; ring_nf; norm_num
      _ ≤ _ := by gcongr
  · calc |q| * 2 ^ (-bexp q) < 2 ^ (bexp q) * 2 ^ (-bexp q) := by gcongr
      _ = 1 := by rw [← zpow_add₀ two]; simp

theorem normalize_spec {m m' : Mem} {x : Nat} (h : normalize m x = some m')
    (hf : IsFloat 64 (m x).mant) :
    Only x m m' ∧ (m' x).Normal ∧ (m' x).val = (m x).val := by
  unfold normalize at h
  split_ifs at h with h0
  · cases Option.some.inj h
    refine ⟨only_setExp _ _ _, ?_, ?_⟩
    · left; simp [h0]
    · simp [Num.val, h0]
  · simp only [Option.bind_eq_bind, Option.bind_eq_some_iff, Option.some.injEq] at h
    obtain ⟨e', he, rfl⟩ := h
    obtain ⟨rfl, h1, h2⟩ := chk_some he
    simp only [setMant_exp] at h1 h2
    have two : (2 : ℚ) ≠ 0 := by norm_num
    refine ⟨(only_setMant m x _).trans (only_setExp _ x _), ?_, ?_⟩
    · right
      obtain ⟨a, b⟩ := frexp_range h0
      simp only [setExp_self, setMant_self, setMant_exp]
      refine ⟨a, b, ?_, h1, h2⟩
      rw [pow2_eq]
      exact hf.mul _
    · simp only [Num.val, setExp_self, setMant_self, setMant_exp, pow2_eq]
      rw [mul_assoc, ← zpow_add₀ two]
      congr 2; ring

theorem normalize_isSome {m : Mem} {x : Nat} (h : (m x).mant ≠ 0 →
    intMin ≤ (m x).exp + bexp (m x).mant ∧ (m x).exp + bexp (m x).mant ≤ intMax) :
    ∃ m', normalize m x = some m' := by
  unfold normalize
  by_cases h0 : (m x).mant = 0
  · simp [h0]
  · obtain ⟨h1, h2⟩ := h h0
    simp [h0, chk_ok h1 h2]

theorem rnd_isFloat (q : ℚ) : IsFloat 64 (rnd 64 q) := (rnd_near (p := 64) (by norm_num) q).1

/-- Mantissa then exponent written, then normalisation. -/
theorem put_spec {m m' : Mem} {x : Nat} {q : ℚ} {e : ℤ}
    (h : normalize (setExp (setMant m x (rnd 64 q)) x e) x = some m') :
    Only x m m' ∧ (m' x).Normal ∧ (m' x).val = rnd 64 (q * 2 ^ e) := by
  obtain ⟨a, b, c⟩ := normalize_spec h (by simpa using rnd_isFloat q)
  refine ⟨((only_setMant m x _).trans (only_setExp _ x _)).trans a, b, ?_⟩
  rw [c]
  simp only [Num.val, setExp_self, setMant_self]
  exact (rnd_mul 64 q e).symm

theorem scale_eq (q : ℚ) (e : ℤ) : scale q e = q * 2 ^ e := by simp [scale, pow2_eq]

theorem val_align (y z : Num) : (y.mant + scale z.mant (-(y.exp - z.exp))) * 2 ^ y.exp
    = y.val + z.val := by
  have two : (2 : ℚ) ≠ 0 := by norm_num
  rw [scale_eq, add_mul, mul_assoc, ← zpow_add₀ two]
  simp [Num.val]

theorem val_align_sub (y z : Num) : (y.mant - scale z.mant (-(y.exp - z.exp))) * 2 ^ y.exp
    = y.val - z.val := by
  have two : (2 : ℚ) ≠ 0 := by norm_num
  rw [scale_eq, sub_mul, mul_assoc, ← zpow_add₀ two]
  simp [Num.val]

/-- Result of `ldpe_add`. -/
theorem add_cases {m m' : Mem} {x y z : Nat} (h : add m x y z = some m') (hy : (m y).Normal)
    (hz : (m z).Normal) : Only x m m' ∧ (m' x).Normal ∧
    (((m y).exp > (m z).exp + 64 ∧ m' x = m y) ∨ ((m z).exp > (m y).exp + 64 ∧ m' x = m z) ∨
      ((m y).exp ≤ (m z).exp + 64 ∧ (m z).exp ≤ (m y).exp + 64 ∧
        (m' x).val = rnd 64 ((m y).val + (m z).val))) := by
  unfold add at h
  simp only [Option.bind_eq_bind, Option.bind_eq_some_iff] at h
  obtain ⟨t, ht, h⟩ := h
  obtain ⟨rfl, -⟩ := chk_some ht
  split_ifs at h with h1
  · cases Option.some.inj h
    obtain ⟨a, b⟩ := set_spec m x y
    exact ⟨a, b ▸ hy, Or.inl ⟨h1, b⟩⟩
  simp only [Option.bind_eq_some_iff] at h
  obtain ⟨t, ht, h⟩ := h
  obtain ⟨rfl, -⟩ := chk_some ht
  split_ifs at h with h2
  · cases Option.some.inj h
    obtain ⟨a, b⟩ := set_spec m x z
    exact ⟨a, b ▸ hz, Or.inr (Or.inl ⟨h2, b⟩)⟩
  simp only [Option.bind_eq_some_iff] at h
  obtain ⟨d, hd, h⟩ := h
  obtain ⟨rfl, -⟩ := chk_some hd
  split_ifs at h with h3
  · obtain ⟨a, b, c⟩ := put_spec h
    refine ⟨a, b, Or.inr (Or.inr ⟨by omega, by omega, ?_⟩)⟩
    rw [c, setMant_exp, val_align]
  · obtain ⟨a, b, c⟩ := put_spec h
    refine ⟨a, b, Or.inr (Or.inr ⟨by omega, by omega, ?_⟩)⟩
    rw [c, setMant_exp, add_comm (m y).val, ← val_align (m z) (m y), neg_sub]

theorem sub_cases {m m' : Mem} {x y z : Nat} (h : sub m x y z = some m') (hy : (m y).Normal)
    (hz : (m z).Normal) : Only x m m' ∧ (m' x).Normal ∧
    (((m y).exp > (m z).exp + 64 ∧ m' x = m y) ∨
      ((m z).exp > (m y).exp + 64 ∧ m' x = ⟨-(m z).mant, (m z).exp⟩) ∨
      ((m y).exp ≤ (m z).exp + 64 ∧ (m z).exp ≤ (m y).exp + 64 ∧
        (m' x).val = rnd 64 ((m y).val - (m z).val))) := by
  unfold sub at h
  simp only [Option.bind_eq_bind, Option.bind_eq_some_iff] at h
  obtain ⟨t, ht, h⟩ := h
  obtain ⟨rfl, -⟩ := chk_some ht
  split_ifs at h with h1
  · cases Option.some.inj h
    obtain ⟨a, b⟩ := set_spec m x y
    exact ⟨a, b ▸ hy, Or.inl ⟨h1, b⟩⟩
  simp only [Option.bind_eq_some_iff] at h
  obtain ⟨t, ht, h⟩ := h
  obtain ⟨rfl, -⟩ := chk_some ht
  split_ifs at h with h2
  · cases Option.some.inj h
    obtain ⟨a, b⟩ := neg_spec m x z
    exact ⟨a, b ▸ hz.neg, Or.inr (Or.inl ⟨h2, b⟩)⟩
  simp only [Option.bind_eq_some_iff] at h
  obtain ⟨d, hd, h⟩ := h
  obtain ⟨rfl, -⟩ := chk_some hd
  split_ifs at h with h3
  · obtain ⟨a, b, c⟩ := put_spec h
    refine ⟨a, b, Or.inr (Or.inr ⟨by omega, by omega, ?_⟩)⟩
    rw [c, setMant_exp, val_align_sub]
  · obtain ⟨a, b, c⟩ := put_spec h
    refine ⟨a, b, Or.inr (Or.inr ⟨by omega, by omega, ?_⟩)⟩
    rw [c, setMant_exp]
    congr 1
    have := val_align_sub (m z) (m y)
    rw [neg_sub] at this
    rw [← neg_sub (m z).val, ← this]
    ring

theorem mul_spec {m m' : Mem} {x y z : Nat} (h : mul m x y z = some m') :
    Only x m m' ∧ (m' x).Normal ∧ (m' x).val = rnd 64 ((m y).val * (m z).val) := by
  unfold mul at h
  simp only [Option.bind_eq_bind, Option.bind_eq_some_iff, setMant_exp] at h
  obtain ⟨t, ht, h⟩ := h
  obtain ⟨rfl, -⟩ := chk_some ht
  obtain ⟨a, b, c⟩ := put_spec h
  refine ⟨a, b, c.trans ?_⟩
  rw [zpow_add₀ (by norm_num)]
  congr 1; simp only [Num.val]; ring

theorem div_spec {m m' : Mem} {x y z : Nat} (h : div m x y z = some m') :
    Only x m m' ∧ (m' x).Normal ∧ (m' x).val = rnd 64 ((m y).val / (m z).val) := by
  unfold div at h
  simp only [Option.bind_eq_bind, Option.bind_eq_some_iff, setMant_exp] at h
  obtain ⟨t, ht, h⟩ := h
  obtain ⟨rfl, -⟩ := chk_some ht
  obtain ⟨a, b, c⟩ := put_spec h
  refine ⟨a, b, c.trans ?_⟩
  rw [zpow_sub₀ (by norm_num)]
  congr 1; simp only [Num.val]
  rw [div_mul_div_comm]

end HPLLL.Ldpe
