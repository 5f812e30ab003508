import Verif.Proof.SetcolFin

/-!
# C91: columns converted to one shared exponent, with machine significands
-/

namespace HPLLL
namespace Props
open Spec PE

/-- The number an entry of a column stands for. -/
def sharedVal (c : (Nat → ℚ) × ℤ) (i : Nat) : ℚ := c.1 i * 2 ^ c.2

section
variable {p w : Nat} {rd : ℚ → ℤ} {rep : ℚ → ℚ × ℤ} {e0 : ℤ} {c : (Nat → ℚ) × ℤ} {x : Nat → ℚ}
  {beg l : Nat}

/-- Error of every entry: the rounding of the entry to `p` bits, plus `2^(1-w)` times the largest
entry.  The column has no zero in the range, or an entry of size at least one. -/
theorem C91_close (hs : Split p rep) (hp : 3 ≤ p) (hn : NearestInt rd)
    (he : ∀ i, beg ≤ i → i < beg + l → e0 ≤ (rep (x i)).2)
    (h : (∀ i, beg ≤ i → i < beg + l → x i ≠ 0) ∨ ∃ i, beg ≤ i ∧ i < beg + l ∧ 1 ≤ |x i|)
    {X : ℚ} (hX : ∀ i, beg ≤ i → i < beg + l → |x i| ≤ X) {i : Nat} (h1 : beg ≤ i) (h2 : i < beg + l) :
    |sharedVal (setcolFin w rd rep e0 c x beg l) i - x i| ≤ |x i| * (2 / 2 ^ p) + X * (2 / 2 ^ w) := by
  unfold sharedVal
  rw [setcolFin_apply h1 h2, setcolFin_exp (by omega)]
  have hx : ∃ i, beg ≤ i ∧ i < beg + l ∧ x i ≠ 0 := by
    rcases h with h | ⟨j, a, b, hj⟩
    · exact ⟨i, h1, h2, h i h1 h2⟩
    · refine ⟨j, a, b, fun h0 => ?_⟩
      rw [h0] at hj; norm_num at hj
  obtain ⟨k, hk1, hk2, hk0, hk⟩ := exists_lead hs hp he hx h
  rw [hk]
  have e1 := val_err (w := w) hn (rep (x i)).1 (rep (x i)).2 (rep (x k)).2
  have e2 := hs.near (x i)
  have e3 : (2 : ℚ) ^ (rep (x k)).2 * (1 / 2 / 2 ^ w) ≤ X * (2 / 2 ^ w) := by
    have a := hs.exp_le hp hk0
    have b := hX k hk1 hk2
    have : (0 : ℚ) < 2 ^ w := by positivity
    rw [show (2 : ℚ) ^ (rep (x k)).2 * (1 / 2 / 2 ^ w) = 2 ^ (rep (x k)).2 / 2 / 2 ^ w by ring,
      show X * (2 / 2 ^ w) = X * 2 / 2 ^ w by ring]
    apply div_le_div_of_nonneg_right _ this.le
    linarith [abs_nonneg (x k)]
  have := abs_sub_le (ldexpFin w rd (rep (x i)).1 ((rep (x i)).2 - (rep (x k)).2) * 2 ^ (rep (x k)).2)
    ((rep (x i)).1 * 2 ^ (rep (x i)).2) (x i)
  linarith

/-- Such a column is never stored as zero: some entry, a quarter of the largest at least, keeps the
precision of the significands. -/
theorem C91_lead (hs : Split p rep) (hp : 3 ≤ p) (hpw : p ≤ w) (hn : NearestInt rd)
    (he : ∀ i, beg ≤ i → i < beg + l → e0 ≤ (rep (x i)).2)
    (hx : ∃ i, beg ≤ i ∧ i < beg + l ∧ x i ≠ 0)
    (h : (∀ i, beg ≤ i → i < beg + l → x i ≠ 0) ∨ ∃ i, beg ≤ i ∧ i < beg + l ∧ 1 ≤ |x i|) :
    ∃ k, beg ≤ k ∧ k < beg + l ∧ (∀ i, beg ≤ i → i < beg + l → |x i| ≤ 4 * |x k|) ∧
      sharedVal (setcolFin w rd rep e0 c x beg l) k ≠ 0 ∧
      1 / 2 ≤ |(setcolFin w rd rep e0 c x beg l).1 k| ∧
      |sharedVal (setcolFin w rd rep e0 c x beg l) k - x k| ≤ |x k| * (2 / 2 ^ p) := by
  obtain ⟨k, hk1, hk2, hk0, hk⟩ := exists_lead hs hp he hx h
  refine ⟨k, hk1, hk2, fun i h1 h2 => ?_, ?_⟩
  · have a := hs.exp_le hp hk0
    have b := hs.lt_exp hp (x i)
    have d : (2 : ℚ) ^ (rep (x i)).2 ≤ 2 ^ (rep (x k)).2 :=
      zpow_le_zpow_right₀ (by norm_num) (hk ▸ le_me (e0 := e0) i h1 h2)
    have := abs_nonneg (x k)
    linarith
  · have hv : sharedVal (setcolFin w rd rep e0 c x beg l) k = (rep (x k)).1 * 2 ^ (rep (x k)).2 := by
      unfold sharedVal
      rw [setcolFin_apply hk1 hk2, setcolFin_exp (by omega), hk]
      obtain ⟨n, hb⟩ := hs.bits (x k)
      rw [ldexpFin_exact hn hb (by omega)]
      simp
    rw [hv]
    refine ⟨mul_ne_zero (fun h0 => ?_) (zpow_ne_zero _ (by norm_num)), ?_, hs.near _⟩
    · have := hs.lo _ hk0
      rw [h0] at this; norm_num at this
    · rw [setcolFin_apply hk1 hk2, hk]
      obtain ⟨n, hb⟩ := hs.bits (x k)
      rw [ldexpFin_exact hn hb (by omega)]
      simpa using hs.lo _ hk0

/-- Every significand written is at most one in size. -/
theorem C91_range (hs : Split p rep) (hn : NearestInt rd) {i : Nat} (h1 : beg ≤ i)
    (h2 : i < beg + l) : |(setcolFin w rd rep e0 c x beg l).1 i| ≤ 1 := by
  rw [setcolFin_apply h1 h2]
  have hd := le_me (rep := rep) (x := x) (e0 := e0) i h1 h2
  set me := maxExp (fun i => (rep (x i)).2) e0 beg l
  have hw : (0 : ℚ) < 2 ^ w := by positivity
  have hk : (2 : ℚ) ^ ((rep (x i)).2 - me) ≤ 1 := zpow_le_one_of_nonpos₀ (by norm_num) (by omega)
  have hk0 : (0 : ℚ) < 2 ^ ((rep (x i)).2 - me) := zpow_pos (by norm_num) _
  have hm := abs_lt.mp (hs.hi (x i))
  set q := (2 : ℚ) ^ ((rep (x i)).2 - me)
  have hy : |(rep (x i)).1 * q * 2 ^ w| ≤ 2 ^ w := by
    rw [abs_mul, abs_mul, abs_of_pos hw, abs_of_pos hk0]
    have := hs.hi (x i)
    have := abs_nonneg (rep (x i)).1
    have : |(rep (x i)).1| * q ≤ 1 := by nlinarith
    nlinarith
  have hr := abs_le.mp (hn ((rep (x i)).1 * q * 2 ^ w))
  have hy' := abs_le.mp hy
  have a : rd ((rep (x i)).1 * q * 2 ^ w) < 2 ^ w + 1 := by
    have : (rd ((rep (x i)).1 * q * 2 ^ w) : ℚ) < ((2 ^ w + 1 : ℤ) : ℚ) := by push_cast; linarith
    exact_mod_cast this
  have b : -(2 ^ w) - 1 < rd ((rep (x i)).1 * q * 2 ^ w) := by
    have : ((-(2 ^ w) - 1 : ℤ) : ℚ) < (rd ((rep (x i)).1 * q * 2 ^ w) : ℚ) := by push_cast; linarith
    exact_mod_cast this
  have a' : rd ((rep (x i)).1 * q * 2 ^ w) ≤ 2 ^ w := by omega
  have b' : -(2 ^ w) ≤ rd ((rep (x i)).1 * q * 2 ^ w) := by omega
  unfold ldexpFin
  rw [abs_div, abs_of_pos hw, div_le_one hw, abs_le]
  constructor
  · exact_mod_cast b'
  · exact_mod_cast a'

/-- Integer columns of at most `w - p - 1` bits (`1020` for `double`): no error but that of the
conversion of each entry. -/
theorem C91_int (hs : Split p rep) (hp : 3 ≤ p) (hn : NearestInt rd) {z : Nat → ℤ} {B : Nat}
    (hB : B + p + 1 ≤ w) (hz : ∀ i, beg ≤ i → i < beg + l → |z i| < 2 ^ B)
    (he : e0 ≤ 0) {i : Nat} (h1 : beg ≤ i) (h2 : i < beg + l) :
    sharedVal (setcolFin w rd rep e0 c (fun i => (z i : ℚ)) beg l) i =
      (rep (z i)).1 * 2 ^ (rep (z i)).2 := by
  have hge : ∀ j, 0 ≤ (rep (z j)).2 := by
    intro j
    by_cases h0 : z j = 0
    · rw [h0, Int.cast_zero, hs.zero]
    · refine hs.exp_nonneg hp ?_
      exact_mod_cast Int.one_le_abs h0
  have hme : maxExp (fun i => (rep ((z i : ℚ))).2) e0 beg l ≤ B + 1 := by
    rcases (foldl_max_spec (fun i => (rep ((z i : ℚ))).2) beg l e0).2.2 with h | ⟨j, hj, h⟩
    · rw [h]; omega
    · rw [h]
      by_cases h0 : z (beg + j) = 0
      · simp only [h0, Int.cast_zero, hs.zero]; omega
      · have a := hs.exp_le hp (x := (z (beg + j) : ℚ)) (by exact_mod_cast h0)
        have b : |(z (beg + j) : ℚ)| < 2 ^ B := by exact_mod_cast hz (beg + j) (by omega) (by omega)
        have d : (2 : ℚ) ^ (rep (z (beg + j))).2 < 2 ^ ((B : ℤ) + 2) := by
          have e4 : (2 : ℚ) ^ ((B : ℤ) + 2) = 2 ^ B * 4 := by
            rw [zpow_add₀ (by norm_num), zpow_natCast]; norm_num
          have : (0 : ℚ) < 2 ^ B := by positivity
          rw [e4]; linarith
        have := (zpow_lt_zpow_iff_right₀ (by norm_num : (1 : ℚ) < 2)).mp d
        omega
  unfold sharedVal
  rw [setcolFin_apply h1 h2, setcolFin_exp (by omega)]
  obtain ⟨n, hb⟩ := hs.bits (z i)
  have := hge i
  rw [ldexpFin_exact hn hb (by omega), mul_assoc, ← zpow_add₀ (by norm_num)]
  congr 2
  ring

/-- An entry far below the largest one is stored as zero. -/
theorem C91_tiny (hs : Split p rep) (hp : 3 ≤ p) (hn : NearestInt rd) {i k : Nat}
    (h1 : beg ≤ i) (h2 : i < beg + l) (h3 : beg ≤ k) (h4 : k < beg + l)
    (h : |x i| * (4 * 2 ^ w) < |x k|) :
    (setcolFin w rd rep e0 c x beg l).1 i = 0 := by
  rw [setcolFin_apply h1 h2]
  set me := maxExp (fun i => (rep (x i)).2) e0 beg l with hme
  have a := hs.up hp (x i)
  have b := hs.lt_exp hp (x k)
  have d : (2 : ℚ) ^ (rep (x k)).2 ≤ 2 ^ me :=
    zpow_le_zpow_right₀ (by norm_num) (le_me (e0 := e0) k h3 h4)
  unfold ldexpFin
  rw [nearest_small hn]
  · simp
  · have hw : (0 : ℚ) < 2 ^ w := by positivity
    have hm : (0 : ℚ) < 2 ^ me := zpow_pos (by norm_num) _
    rw [abs_mul, abs_mul, abs_of_pos hw, abs_of_pos (zpow_pos (by norm_num : (0 : ℚ) < 2) _),
      zpow_sub₀ (by norm_num), ← mul_div_assoc, div_mul_eq_mul_div, div_lt_iff₀ hm]
    have := mul_le_mul_of_nonneg_right a hw.le
    nlinarith [abs_nonneg (x i)]

/-- **Not held.** A column of small numbers which contains a zero is stored as zero: the exponent of the
zero is `0` and becomes the shared exponent. -/
theorem C91_flush (hs : Split p rep) (hp : 3 ≤ p) (hn : NearestInt rd) {k : Nat}
    (hk1 : beg ≤ k) (hk2 : k < beg + l) (hk : x k = 0)
    (h : ∀ i, beg ≤ i → i < beg + l → |x i| * (4 * 2 ^ w) < 1) {i : Nat} (h1 : beg ≤ i)
    (h2 : i < beg + l) : (setcolFin w rd rep e0 c x beg l).1 i = 0 := by
  rw [setcolFin_apply h1 h2]
  set me := maxExp (fun i => (rep (x i)).2) e0 beg l with hme
  have h0 : 0 ≤ me := by
    have := le_me (rep := rep) (x := x) (e0 := e0) k hk1 hk2
    rw [hk, hs.zero] at this
    exact this
  have a := hs.up hp (x i)
  have d : (1 : ℚ) ≤ 2 ^ me := one_le_zpow₀ (by norm_num) h0
  unfold ldexpFin
  rw [nearest_small hn]
  · simp
  · have hw : (0 : ℚ) < 2 ^ w := by positivity
    have hm : (0 : ℚ) < 2 ^ me := zpow_pos (by norm_num) _
    rw [abs_mul, abs_mul, abs_of_pos hw, abs_of_pos (zpow_pos (by norm_num : (0 : ℚ) < 2) _),
      zpow_sub₀ (by norm_num), ← mul_div_assoc, div_mul_eq_mul_div, div_lt_iff₀ hm]
    have := mul_le_mul_of_nonneg_right a hw.le
    nlinarith [abs_nonneg (x i), h i h1 h2]

/-- Rows outside the range keep their significand (but the exponent is replaced, see `C43`); an empty
range changes nothing. -/
theorem C91_outside {i : Nat} (h : i < beg ∨ beg + l ≤ i) :
    (setcolFin w rd rep e0 c x beg l).1 i = c.1 i := by
  unfold setcolFin
  split
  · rfl
  · dsimp only
    rw [if_neg (by omega)]

theorem C91_empty : setcolFin w rd rep e0 c x beg 0 = c := rfl

end

/-- The conversion used for `mpz_t`: a splitting, which truncates, and is exact on integers of at most
`p` bits. -/
theorem C91_getD2exp_split {p : Nat} (hp : 1 ≤ p) : Split p (getD2exp p) := PE.getD2exp_split hp

theorem C91_getD2exp_trunc {p : Nat} (x : ℚ) : |(getD2exp p x).1 * 2 ^ (getD2exp p x).2| ≤ |x| := by
  by_cases hx : x = 0
  · simp [getD2exp, hx]
  · have hx0 : 0 < |x| := abs_pos.mpr hx
    unfold getD2exp
    rw [if_neg hx]
    set g := Int.log 2 |x|
    have hE : (0 : ℚ) < 2 ^ (g + 1) := zpow_pos (by norm_num) _
    have hP : (0 : ℚ) < 2 ^ p := by positivity
    have f1 := Int.floor_le (|x| / 2 ^ (g + 1) * 2 ^ p)
    have f0 : (0 : ℤ) ≤ ⌊|x| / 2 ^ (g + 1) * 2 ^ p⌋ := Int.floor_nonneg.mpr (by positivity)
    have f0' : (0 : ℚ) ≤ (⌊|x| / 2 ^ (g + 1) * 2 ^ p⌋ : ℤ) := by exact_mod_cast f0
    have e : |(if x < 0 then -((⌊|x| / 2 ^ (g + 1) * 2 ^ p⌋ : ℤ) : ℚ) else
        ((⌊|x| / 2 ^ (g + 1) * 2 ^ p⌋ : ℤ) : ℚ))| = (⌊|x| / 2 ^ (g + 1) * 2 ^ p⌋ : ℤ) := by
      split
      · rw [abs_neg, abs_of_nonneg f0']
      · rw [abs_of_nonneg f0']
    show |_ / 2 ^ p * 2 ^ (g + 1)| ≤ |x|
    rw [abs_mul, abs_div, e, abs_of_pos hP, abs_of_pos hE]
    have := mul_le_mul_of_nonneg_right (div_le_div_of_nonneg_right f1 hP.le) hE.le
    calc _ ≤ _ := this
      _ = |x| := by field_simp

theorem C91_getD2exp_exact {p : Nat} {n : ℤ} (hn : |n| < 2 ^ p) :
    (getD2exp p n).1 * 2 ^ (getD2exp p n).2 = n := by
  by_cases hx : (n : ℚ) = 0
  · simp [getD2exp, hx]
  · have hx0 : 0 < |(n : ℚ)| := abs_pos.mpr hx
    unfold getD2exp
    rw [if_neg hx]
    have h1 := Int.zpow_log_le_self (b := 2) (by norm_num) hx0
    push_cast at h1
    set g := Int.log 2 |(n : ℚ)|
    have hnq : |(n : ℚ)| < 2 ^ p := by exact_mod_cast hn
    have hg : g < p := by
      have : (2 : ℚ) ^ g < 2 ^ (p : ℤ) := by rw [zpow_natCast]; linarith
      exact (zpow_lt_zpow_iff_right₀ (by norm_num : (1 : ℚ) < 2)).mp this
    obtain ⟨s, hs⟩ : ∃ s : Nat, (s : ℤ) = p - (g + 1) := ⟨(p - (g + 1)).toNat, by omega⟩
    have h2 : (2 : ℚ) ≠ 0 := by norm_num
    have e : |(n : ℚ)| / 2 ^ (g + 1) * 2 ^ p = ((|n| * 2 ^ s : ℤ) : ℚ) := by
      have : (2 : ℚ) ^ s = 2 ^ p / 2 ^ (g + 1) := by
        rw [← zpow_natCast (2 : ℚ) s, hs, zpow_sub₀ h2, zpow_natCast]
      push_cast
      rw [this]; ring
    have hE : (2 : ℚ) ^ (g + 1) ≠ 0 := zpow_ne_zero _ h2
    have hP : (2 : ℚ) ^ p ≠ 0 := by positivity
    simp only []
    rw [e, Int.floor_intCast, ← e]
    by_cases hneg : (n : ℚ) < 0
    · rw [if_pos hneg, abs_of_neg hneg]; field_simp
    · rw [if_neg hneg, abs_of_nonneg (not_lt.mp hneg)]; field_simp

/-- Integer columns: columns converted by truncation, entries below `2^53` exactly, in `double`. -/
theorem C91_exact {rd : ℚ → ℤ} (hn : NearestInt rd) {p w B : Nat} (hp : 3 ≤ p) (hB : B + p + 1 ≤ w)
    {e0 : ℤ} (he : e0 ≤ 0) {c : (Nat → ℚ) × ℤ} {z : Nat → ℤ} {beg l : Nat}
    (hz : ∀ i, beg ≤ i → i < beg + l → |z i| < 2 ^ B) {i : Nat} (h1 : beg ≤ i) (h2 : i < beg + l)
    (hi : |z i| < 2 ^ p) :
    sharedVal (setcolFin w rd (getD2exp p) e0 c (fun i => (z i : ℚ)) beg l) i = z i := by
  rw [C91_int (PE.getD2exp_split (by omega)) hp hn hB hz he h1 h2]
  exact C91_getD2exp_exact hi

/-- Rounding half up is a rounding to nearest: the hypotheses can be met. -/
theorem nearest_round : NearestInt (fun y : ℚ => round y) := fun y => by
  rw [abs_sub_comm]; exact abs_sub_round y

/-- `(0, 2^-1200)` of type `mpfr_t` becomes the zero column of `double`s. -/
example : ∀ i < 2, (setcolFin 1074 (fun y => round y) (getD2exp 53) (-2 ^ 31) (fun _ => 0, 0)
    (fun i => if i = 0 then 0 else 1 / 2 ^ 1200) 0 2).1 i = 0 := by
  intro i hi
  refine C91_flush (PE.getD2exp_split (by norm_num)) (by norm_num) nearest_round (k := 0)
    (by omega) (by omega) (by simp) ?_ (by omega) (by omega)
  intro j _ hj
  obtain rfl | rfl : j = 0 ∨ j = 1 := by omega
  · norm_num
  · rw [if_neg (by norm_num), abs_of_pos (by positivity), div_mul_eq_mul_div,
      div_lt_one (by positivity), one_mul, show 1200 = 2 + 1074 + 124 from rfl, pow_add, pow_add]
    have : (0 : ℚ) < 2 ^ 1074 := by positivity
    have h2 : (1 : ℚ) < 2 ^ 124 := by norm_num
    have key : ∀ a b : ℚ, 0 < a → 1 < b → 4 * a < 2 ^ 2 * a * b := fun a b ha hb => by nlinarith
    exact key _ _ this h2

/-- Without the zero the entry is kept: the same number alone. -/
example : ∃ k, 0 ≤ k ∧ k < 0 + 1 ∧
    sharedVal (setcolFin 1074 (fun y => round y) (getD2exp 53) (-2 ^ 31) (fun _ => 0, 0)
      (fun _ => 1 / 2 ^ 20) 0 1) k ≠ 0 := by
  obtain ⟨k, a, b, -, d, -, -⟩ := C91_lead (w := 1074) (e0 := -2 ^ 31) (c := (fun _ => 0, 0))
    (x := fun _ => 1 / 2 ^ 20) (beg := 0) (l := 1)
    (PE.getD2exp_split (p := 53) (by norm_num)) (by norm_num) (by norm_num) nearest_round
    (fun i _ _ => by
      by_contra hc
      have h := (PE.getD2exp_split (p := 53) (by norm_num)).lt_exp (by norm_num) (1 / 2 ^ 20)
      have : (2 : ℚ) ^ (getD2exp 53 (1 / 2 ^ 20)).2 ≤ 2 ^ (-30 : ℤ) :=
        zpow_le_zpow_right₀ (by norm_num) (by omega)
      norm_num at h this
      linarith)
    ⟨0, by omega, by omega, by norm_num⟩ (Or.inl fun i _ _ => by norm_num)
  exact ⟨k, a, b, d⟩

/-- `(3, -5, 2^900)`: the small entries are exact in `double`. -/
example : sharedVal (setcolFin 1074 (fun y => round y) (getD2exp 53) (-2 ^ 31) (fun _ => 0, 0)
    (fun i => ((if i = 0 then 3 else if i = 1 then -5 else 2 ^ 900 : ℤ) : ℚ)) 0 3) 1 = (-5 : ℤ) := by
  have := C91_exact (rd := fun y => round y) nearest_round (p := 53) (w := 1074) (B := 901) (by norm_num)
    (by norm_num) (e0 := -2 ^ 31) (by norm_num) (c := (fun _ => 0, 0))
    (z := fun i => if i = 0 then 3 else if i = 1 then -5 else 2 ^ 900) (beg := 0) (l := 3) (i := 1)
    (by
      intro i _ hi
      obtain rfl | rfl | rfl : i = 0 ∨ i = 1 ∨ i = 2 := by omega
      · exact lt_of_lt_of_le (by norm_num : |(3 : ℤ)| < 2 ^ 3)
          (pow_le_pow_right₀ (by norm_num) (by norm_num))
      · exact lt_of_lt_of_le (by norm_num : |(-5 : ℤ)| < 2 ^ 3)
          (pow_le_pow_right₀ (by norm_num) (by norm_num))
      · show |(2 ^ 900 : ℤ)| < 2 ^ 901
        rw [abs_of_pos (by positivity)]
        exact pow_lt_pow_right₀ (by norm_num) (by norm_num))
    (by omega) (by omega) (by norm_num)
  exact this

/-- `(1, 2^1100)`: the first entry is lost. -/
example : (setcolFin 1074 (fun y => round y) (getD2exp 53) (-2 ^ 31) (fun _ => 0, 0)
    (fun i => if i = 0 then 1 else 2 ^ 1100) 0 2).1 0 = 0 :=
  C91_tiny (PE.getD2exp_split (by norm_num)) (by norm_num) nearest_round (k := 1)
    (by omega) (by omega) (by omega) (by omega) (by
      show |(1 : ℚ)| * (4 * 2 ^ 1074) < |(2 : ℚ) ^ 1100|
      rw [abs_one, one_mul, abs_of_pos (by positivity), show 1100 = 3 + 1074 + 23 from rfl, pow_add,
        pow_add]
      have : (0 : ℚ) < 2 ^ 1074 := by positivity
      have h2 : (1 : ℚ) < 2 ^ 23 := by norm_num
      have key : ∀ a b : ℚ, 0 < a → 1 < b → 4 * a < 2 ^ 3 * a * b := fun a b ha hb => by nlinarith
      exact key _ _ this h2)

end Props
end HPLLL
