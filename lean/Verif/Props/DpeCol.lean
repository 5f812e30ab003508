import Verif.Proof.DpeCol
import Verif.Props.SetcolFin

/-!
# C92: columns set from extended numbers, and what becomes of them
-/

namespace HPLLL
namespace Props
open Spec PE

section
variable {p w : Nat} {rd : ℚ → ℤ} {c : (Nat → ℚ) × ℤ} {vd : Nat → ℚ × ℤ} {nmax : Nat}

/-- Error of every entry: `2^-w` times the largest entry. -/
theorem C92_close (hn : NearestInt rd) (hv : ∀ i, i < nmax → ExtNormal p (vd i)) {X : ℚ}
    (hX : ∀ i, i < nmax → |extVal (vd i)| ≤ X) {i : Nat} (hi : i < nmax) :
    |sharedVal (setcolDpe w rd c vd nmax) i - extVal (vd i)| ≤ X / 2 ^ w := by
  have hw : (0 : ℚ) < 2 ^ w := by positivity
  by_cases hx : ∃ i, i < nmax ∧ extVal (vd i) ≠ 0
  · obtain ⟨k, hk, hk0, he, hm⟩ := setcolDpe_entry (w := w) (c := c) hn hv hx
    unfold sharedVal
    rw [he, (hm i hi).2]
    refine le_trans (val_err hn _ _ _) ?_
    have a := hX k hk
    rw [extVal_abs] at a
    have b := mul_le_mul_of_nonneg_right (ExtNormal.facts (hv k hk) hk0).2.1
      (zpow_pos (by norm_num : (0 : ℚ) < 2) (vd k).2).le
    rw [show (2 : ℚ) ^ (vd k).2 * (1 / 2 / 2 ^ w) = 1 / 2 * 2 ^ (vd k).2 / 2 ^ w by ring]
    exact div_le_div_of_nonneg_right (by linarith) hw.le
  · have h0 : ∀ j, j < nmax → extVal (vd j) = 0 := fun j hj => by
      by_contra h; exact hx ⟨j, hj, h⟩
    have hz := ExtNormal.of_zero (hv i hi) (h0 i hi)
    have : sharedVal (setcolDpe w rd c vd nmax) i = 0 := by
      unfold sharedVal
      rw [setcolDpe_apply hi, hz, ldexpFin_zero hn, zero_mul]
    rw [this, h0 i hi]
    have := le_trans (abs_nonneg _) (hX i hi)
    simpa using div_nonneg this hw.le

/-- An entry not below `2^(p-w)` times another one, for all others, is stored exactly; in particular the
largest one: a column which is not zero is not stored as zero. -/
theorem C92_exact (hn : NearestInt rd) (hv : ∀ i, i < nmax → ExtNormal p (vd i)) {i : Nat}
    (hi : i < nmax) (hbig : ∀ k, k < nmax → |extVal (vd k)| * 2 ^ p ≤ |extVal (vd i)| * 2 ^ w) :
    sharedVal (setcolDpe w rd c vd nmax) i = extVal (vd i) := by
  have hP : (0 : ℚ) < 2 ^ p := by positivity
  by_cases h0 : extVal (vd i) = 0
  · have hz := ExtNormal.of_zero (hv i hi) h0
    unfold sharedVal
    rw [setcolDpe_apply hi, h0, hz, ldexpFin_zero hn, zero_mul]
  · obtain ⟨k, hk, hk0, he, hm⟩ := setcolDpe_entry (w := w) (c := c) hn hv ⟨i, hi, h0⟩
    unfold sharedVal
    rw [he, (hm i hi).2]
    obtain ⟨⟨n, hb⟩, -, hlt, -⟩ := ExtNormal.facts (hv i hi) h0
    have hlo := (ExtNormal.facts (hv k hk) hk0).2.1
    have hsh : (p : ℤ) - w ≤ (vd i).2 - (vd k).2 := by
      have hb := hbig k hk
      rw [extVal_abs, extVal_abs] at hb
      have hek : (0 : ℚ) < 2 ^ (vd k).2 := zpow_pos (by norm_num) _
      have hei : (0 : ℚ) < 2 ^ (vd i).2 := zpow_pos (by norm_num) _
      have hw : (0 : ℚ) < 2 ^ w := by positivity
      have s1 : 1 / 2 * 2 ^ (vd k).2 * 2 ^ p ≤ |(vd k).1| * 2 ^ (vd k).2 * 2 ^ p :=
        mul_le_mul_of_nonneg_right (mul_le_mul_of_nonneg_right hlo hek.le) hP.le
      have s2 : |(vd i).1| * 2 ^ (vd i).2 * 2 ^ w < 1 * 2 ^ (vd i).2 * 2 ^ w :=
        mul_lt_mul_of_pos_right (mul_lt_mul_of_pos_right hlt hei) hw
      have s3 : (2 : ℚ) ^ ((vd k).2 + p) < 2 ^ ((vd i).2 + w + 1) := by
        rw [zpow_add₀ (by norm_num), zpow_natCast, zpow_add_one₀ (by norm_num),
          zpow_add₀ (by norm_num), zpow_natCast]
        linarith
      have := (zpow_lt_zpow_iff_right₀ (by norm_num : (1 : ℚ) < 2)).mp s3
      omega
    rw [ldexpFin_exact hn hb hsh, mul_assoc, ← zpow_add₀ (by norm_num)]
    unfold extVal
    congr 2
    ring

/-- The entries after the first `nmax` keep their significand; `nmax = 0` changes nothing. -/
theorem C92_outside {i : Nat} (h : nmax ≤ i) : (setcolDpe w rd c vd nmax).1 i = c.1 i := by
  unfold setcolDpe
  split
  · rfl
  · dsimp only
    rw [if_neg (by omega)]

theorem C92_empty : setcolDpe w rd c vd 0 = c := rfl

/-- A column of zeros has the smallest `int` as exponent. -/
theorem C92_zero (hn : NearestInt rd) (h0 : nmax ≠ 0) (hv : ∀ i, i < nmax → vd i = (0, -2 ^ 31)) :
    (∀ i, i < nmax → (setcolDpe w rd c vd nmax).1 i = 0) ∧ (setcolDpe w rd c vd nmax).2 = -2 ^ 31 := by
  constructor
  · intro i hi
    rw [setcolDpe_apply hi, hv i hi, ldexpFin_zero hn]
  · rw [setcolDpe_exp h0]
    rcases (foldl_max_spec (fun i => (vd i).2) 0 nmax (-2 ^ 31)).2.2 with h | ⟨k, hk, h⟩
    · exact h
    · rw [h, hv _ (by omega)]

/-- **Not held.** Adding a column to such a column of zeros: if the exponent of the added column is
positive the difference of the exponents overflows, and the result is zero, whatever is added. -/
theorem C92_zero_addcol (hn : NearestInt rd) (hw : w < 2 ^ 29) {fl : ℚ → ℚ} (hfl : fl 0 = 0)
    (h0 : nmax ≠ 0) (hv : ∀ i, i < nmax → vd i = (0, -2 ^ 31)) {ck : (Nat → ℚ) × ℤ}
    (hk1 : 0 < ck.2) (hk2 : ck.2 < 2 ^ 30) (hck : ∀ i, i < nmax → |ck.1 i| ≤ 1) {i : Nat} (hi : i < nmax) :
    sharedVal (addcolFin w rd fl (setcolDpe w rd c vd nmax) ck nmax) i = 0 := by
  obtain ⟨z1, z2⟩ := C92_zero (w := w) (c := c) hn h0 hv
  set cj := setcolDpe w rd c vd nmax
  have hd : wrap32 (cj.2 - ck.2) = 2 ^ 31 - ck.2 := by
    rw [z2]
    unfold wrap32
    rw [show (-2 ^ 31 - ck.2 : ℤ) = (2 ^ 31 - ck.2) + -1 * (2 ^ 32 : ℕ) by push_cast; ring,
      Int.add_mul_bmod_self_right]
    exact wrap32_eq (by norm_num at hk1 hk2 ⊢; omega) (by norm_num at hk1 hk2 ⊢; omega)
  have hd2 : wrap32 (-(2 ^ 31 - ck.2)) = -(2 ^ 31 - ck.2) :=
    wrap32_eq (by norm_num at hk1 hk2 ⊢; omega) (by norm_num at hk1 hk2 ⊢; omega)
  unfold addcolFin
  rw [if_neg h0]
  dsimp only
  rw [hd, if_neg (by norm_num at hk1 hk2 ⊢; omega), if_pos (by norm_num at hk1 hk2 ⊢; omega), hd2]
  unfold sharedVal
  dsimp only
  rw [if_pos hi, z1 i hi]
  have : ldexpFin w rd (ck.1 i) (-(2 ^ 31 - ck.2)) = 0 := by
    unfold ldexpFin
    rw [nearest_small hn]
    · simp
    · have hP : (0 : ℚ) < 2 ^ w := by positivity
      have hE : (0 : ℚ) < 2 ^ (-(2 ^ 31 - ck.2)) := zpow_pos (by norm_num) _
      rw [abs_mul, abs_mul, abs_of_pos hP, abs_of_pos hE]
      have e : (2 : ℚ) ^ (-(2 ^ 31 - ck.2)) * 2 ^ w ≤ 2 ^ (-2 : ℤ) := by
        rw [← zpow_natCast (2 : ℚ) w, ← zpow_add₀ (by norm_num)]
        apply zpow_le_zpow_right₀ (by norm_num)
        norm_num at hk2 hw ⊢; omega
      have e2 : (2 : ℚ) ^ (-2 : ℤ) = 1 / 4 := by norm_num
      have := hck i hi
      have := abs_nonneg (ck.1 i)
      rw [mul_assoc]
      have h3 : 0 < (2 : ℚ) ^ (-(2 ^ 31 - ck.2)) * 2 ^ w := mul_pos hE hP
      have h4 := mul_le_mul_of_nonneg_right (hck i hi) h3.le
      rw [one_mul] at h4
      exact lt_of_le_of_lt (le_trans h4 (e.trans e2.le)) (by norm_num)
  rw [this, add_zero, hfl, zero_mul]

/-- With an exponent which is not positive the added column is found. -/
theorem C92_zero_addcol_ok (hn : NearestInt rd) {fl : ℚ → ℚ}
    (h0 : nmax ≠ 0) (hv : ∀ i, i < nmax → vd i = (0, -2 ^ 31)) {ck : (Nat → ℚ) × ℤ}
    (hk1 : ck.2 ≤ 0) (hk2 : -2 ^ 31 ≤ ck.2) {i : Nat} (hi : i < nmax) (hfl : fl (ck.1 i) = ck.1 i) :
    (addcolFin w rd fl (setcolDpe w rd c vd nmax) ck nmax).1 i = ck.1 i ∧
    (addcolFin w rd fl (setcolDpe w rd c vd nmax) ck nmax).2 = ck.2 := by
  obtain ⟨z1, z2⟩ := C92_zero (w := w) (c := c) hn h0 hv
  set cj := setcolDpe w rd c vd nmax
  have hd : wrap32 (cj.2 - ck.2) = -2 ^ 31 - ck.2 := by
    rw [z2]
    exact wrap32_eq (by norm_num at hk1 hk2 ⊢; omega) (by norm_num at hk1 hk2 ⊢; omega)
  unfold addcolFin
  rw [if_neg h0]
  dsimp only
  rw [hd]
  by_cases he : (-2 ^ 31 - ck.2 : ℤ) = 0
  · rw [if_pos he]
    dsimp only
    rw [if_pos hi, z1 i hi, zero_add]
    exact ⟨hfl, by rw [z2]; norm_num at he ⊢; omega⟩
  · rw [if_neg he, if_neg (by norm_num at hk1 hk2 he ⊢; omega)]
    dsimp only
    rw [if_pos hi, z1 i hi, ldexpFin_zero hn, zero_add]
    exact ⟨hfl, rfl⟩

end

section
variable {w : Nat} {rd : ℚ → ℤ} {fl : ℚ → ℚ} {cj ck : (Nat → ℚ) × ℤ} {l : Nat}

theorem C92_addcol_empty : addcolFin w rd fl cj ck 0 = cj := rfl

theorem C92_addcol_outside {i : Nat} (h : l ≤ i) : (addcolFin w rd fl cj ck l).1 i = cj.1 i := by
  unfold addcolFin
  dsimp only
  split
  · rfl
  · split
    · dsimp only; rw [if_neg (by omega)]
    · split
      · dsimp only; rw [if_neg (by omega)]
      · dsimp only; rw [if_neg (by omega)]

/-- Sum of two columns whose exponents are far from the limits of `int`; `u` is the relative error of an
addition.  The error of the alignment is `2^-(w+1)` in units of the larger exponent. -/
theorem C92_addcol (hn : NearestInt rd) {u : ℚ} (hu : 0 ≤ u) (hfl : ∀ y, |fl y - y| ≤ u * |y|)
    (hj : -2 ^ 30 < cj.2 ∧ cj.2 < 2 ^ 30) (hk : -2 ^ 30 < ck.2 ∧ ck.2 < 2 ^ 30) {i : Nat} (hi : i < l) :
    |sharedVal (addcolFin w rd fl cj ck l) i - (sharedVal cj i + sharedVal ck i)| ≤
      u * |sharedVal cj i + sharedVal ck i| + (1 + u) * (2 ^ max cj.2 ck.2 / (2 * 2 ^ w)) ∧
    (addcolFin w rd fl cj ck l).2 = max cj.2 ck.2 := by
  -- a rounded sum `fl y` in units of `2^E`, `y 2^E` close to `s`
  have core : ∀ (y s : ℚ) (E : ℤ), |y * 2 ^ E - s| ≤ 2 ^ E / (2 * 2 ^ w) →
      |fl y * 2 ^ E - s| ≤ u * |s| + (1 + u) * (2 ^ E / (2 * 2 ^ w)) := by
    intro y s E h
    have hE : (0 : ℚ) < 2 ^ E := zpow_pos (by norm_num) _
    have h1 : |fl y * 2 ^ E - y * 2 ^ E| ≤ u * |y * 2 ^ E| := by
      rw [← sub_mul, abs_mul, abs_mul, ← mul_assoc]
      exact mul_le_mul_of_nonneg_right (hfl y) (abs_nonneg _)
    have h2 : |y * 2 ^ E| ≤ |s| + 2 ^ E / (2 * 2 ^ w) := by
      have := abs_sub_abs_le_abs_sub (y * 2 ^ E) s
      linarith
    have h3 := mul_le_mul_of_nonneg_left h2 hu
    have h4 := abs_sub_le (fl y * 2 ^ E) (y * 2 ^ E) s
    linarith
  have v : ∀ (m : ℚ) (e E : ℤ), |ldexpFin w rd m (e - E) * 2 ^ E - m * 2 ^ e| ≤ 2 ^ E / (2 * 2 ^ w) := by
    intro m e E
    refine le_trans (val_err hn m e E) (le_of_eq ?_)
    rw [div_div, mul_one_div]
  have hd : wrap32 (cj.2 - ck.2) = cj.2 - ck.2 :=
    wrap32_eq (by norm_num at hj hk ⊢; omega) (by norm_num at hj hk ⊢; omega)
  unfold addcolFin
  rw [if_neg (by omega)]
  dsimp only
  rw [hd]
  unfold sharedVal
  by_cases h0 : cj.2 - ck.2 = 0
  · have e : ck.2 = cj.2 := by omega
    rw [if_pos h0, e, max_self]
    dsimp only
    rw [if_pos hi]
    refine ⟨core _ _ _ ?_, rfl⟩
    rw [add_mul, sub_self, abs_zero]
    have hE : (0 : ℚ) < 2 ^ cj.2 := zpow_pos (by norm_num) _
    have hw : (0 : ℚ) < 2 ^ w := pow_pos (by norm_num) _
    exact (div_pos hE (mul_pos two_pos hw)).le
  · rw [if_neg h0]
    by_cases h1 : 0 < cj.2 - ck.2
    · have hd2 : wrap32 (-(cj.2 - ck.2)) = ck.2 - cj.2 := by
        rw [wrap32_eq (by norm_num at hj hk ⊢; omega) (by norm_num at hj hk ⊢; omega)]; ring
      rw [if_pos h1, hd2, max_eq_left (by omega)]
      dsimp only
      rw [if_pos hi]
      refine ⟨core _ _ _ ?_, rfl⟩
      rw [show (cj.1 i + ldexpFin w rd (ck.1 i) (ck.2 - cj.2)) * 2 ^ cj.2 -
          (cj.1 i * 2 ^ cj.2 + ck.1 i * 2 ^ ck.2) =
          ldexpFin w rd (ck.1 i) (ck.2 - cj.2) * 2 ^ cj.2 - ck.1 i * 2 ^ ck.2 by ring]
      exact v _ _ _
    · rw [if_neg h1, max_eq_right (by omega)]
      dsimp only
      rw [if_pos hi]
      refine ⟨core _ _ _ ?_, rfl⟩
      rw [show (ldexpFin w rd (cj.1 i) (cj.2 - ck.2) + ck.1 i) * 2 ^ ck.2 -
          (cj.1 i * 2 ^ cj.2 + ck.1 i * 2 ^ ck.2) =
          ldexpFin w rd (cj.1 i) (cj.2 - ck.2) * 2 ^ ck.2 - cj.1 i * 2 ^ cj.2 by ring]
      exact v _ _ _

/-- `(1/2) 2^5 + (3/4) 2^2 = 19`. -/
example : |sharedVal (addcolFin 1074 (fun y => round y) id (fun _ => 1 / 2, 5) (fun _ => 3 / 4, 2) 1) 0 - 19| ≤
    2 ^ 5 / (2 * 2 ^ 1074) := by
  have h := (C92_addcol (w := 1074) (fl := id) (u := 0) (cj := (fun _ => 1 / 2, 5)) (ck := (fun _ => 3 / 4, 2))
    (l := 1) (i := 0) nearest_round (le_refl _) (fun y => by simp) (by norm_num) (by norm_num) (by norm_num)).1
  have e : sharedVal (fun _ => 1 / 2, 5) 0 + sharedVal (fun _ => 3 / 4, 2) 0 = 19 := by norm_num [sharedVal]
  rw [e, zero_mul, zero_add, add_zero, one_mul] at h
  exact h

end

section
variable {w : Nat} {rd : ℚ → ℤ} {c : (Nat → ℚ) × ℤ} {nmax : Nat}

/-- `normalize` gives a column with the same entries up to `2^-w` times the largest entry or `1/2`,
whichever is larger. -/
theorem C92_normalize (hn : NearestInt rd)
    (hc : ∀ i, i < nmax → -2 ^ 30 < c.2 + (frexp (c.1 i)).2 ∧ c.2 + (frexp (c.1 i)).2 < 2 ^ 30) {X : ℚ}
    (hX : ∀ i, i < nmax → |sharedVal c i| ≤ X) (hX2 : 1 / 2 ≤ X) {i : Nat} (hi : i < nmax) :
    |sharedVal (normalizeFin w rd c nmax) i - sharedVal c i| ≤ X / 2 ^ w := by
  have hw : (0 : ℚ) < 2 ^ w := by positivity
  unfold normalizeFin
  rw [if_neg (by omega)]
  dsimp only
  set t : Nat → ℤ := fun i => if c.1 i = 0 then -2 ^ 31 else wrap32 (c.2 + (frexp (c.1 i)).2) with ht
  have htn : ∀ j, j < nmax → c.1 j ≠ 0 → t j = c.2 + (frexp (c.1 j)).2 := by
    intro j hj h0
    have := hc j hj
    rw [ht]; simp only [h0, if_false]
    exact wrap32_eq (by norm_num at this ⊢; omega) (by norm_num at this ⊢; omega)
  obtain ⟨h1, h2, h3⟩ := foldl_max_spec t 0 nmax 0
  simp only [Nat.zero_add] at h1 h3
  set d := maxExp t 0 0 nmax
  have hd : (2 : ℚ) ^ d ≤ 2 * X ∧ d < 2 ^ 30 := by
    rcases h3 with h3 | ⟨k, hk, h3⟩
    · rw [h3]; constructor
      · simpa using by linarith
      · norm_num
    · have hk0 : c.1 k ≠ 0 := by
        intro h0
        have : t k = -2 ^ 31 := by rw [ht]; simp [h0]
        rw [h3, this] at h2; norm_num at h2
      rw [h3, htn k hk hk0]
      refine ⟨?_, (hc k hk).2⟩
      obtain ⟨f1, -, f3⟩ := frexp_spec (c.1 k)
      have a := hX k hk
      unfold sharedVal at a
      rw [← f1, mul_assoc, ← zpow_add₀ (by norm_num), abs_mul,
        abs_of_pos (zpow_pos (by norm_num : (0 : ℚ) < 2) _), add_comm] at a
      have b := mul_le_mul_of_nonneg_right (f3 hk0)
        (zpow_pos (by norm_num : (0 : ℚ) < 2) (c.2 + (frexp (c.1 k)).2)).le
      linarith
  unfold sharedVal
  dsimp only
  rw [if_pos hi]
  by_cases h0 : c.1 i = 0
  · have : (frexp (c.1 i)).1 = 0 := by simp [frexp, h0]
    rw [this, ldexpFin_zero hn, h0]
    have : 0 ≤ X := by linarith
    simpa using div_nonneg this hw.le
  · have e := hc i hi
    have hti := htn i hi h0
    have hle := h1 i hi
    have hti0 : (if c.1 i = 0 then -2 ^ 31 else wrap32 (c.2 + (frexp (c.1 i)).2)) = t i := rfl
    rw [hti0, wrap32_eq (by rw [hti]; have := hd.2; norm_num at e this ⊢; omega)
      (by have := hd.2; norm_num at e this ⊢; omega)]
    have v := val_err (w := w) hn (frexp (c.1 i)).1 (t i) d
    have f1 := (frexp_spec (c.1 i)).1
    have : (frexp (c.1 i)).1 * 2 ^ t i = c.1 i * 2 ^ c.2 := by
      rw [hti, zpow_add₀ (by norm_num)]
      nth_rewrite 3 [← f1]
      ring
    rw [this] at v
    refine le_trans v ?_
    rw [show (2 : ℚ) ^ d * (1 / 2 / 2 ^ w) = 2 ^ d / 2 / 2 ^ w by ring]
    exact div_le_div_of_nonneg_right (by linarith [hd.1]) hw.le

theorem C92_normalize_empty : normalizeFin w rd c 0 = c := rfl

theorem C92_normalize_outside {i : Nat} (h : nmax ≤ i) : (normalizeFin w rd c nmax).1 i = c.1 i := by
  unfold normalizeFin
  split
  · rfl
  · dsimp only
    rw [if_neg (by omega)]

/-- **Not held** below: a column whose entries are all under `2^-(w+1)` becomes zero, since `d` starts at
`0`. -/
theorem C92_normalize_flush (hn : NearestInt rd)
    (hc : ∀ i, i < nmax → -2 ^ 30 < c.2 + (frexp (c.1 i)).2 ∧ c.2 + (frexp (c.1 i)).2 < 2 ^ 30)
    (hs : ∀ i, i < nmax → |sharedVal c i| * (2 * 2 ^ w) < 1) {i : Nat} (hi : i < nmax) :
    (normalizeFin w rd c nmax).1 i = 0 := by
  have hw : (0 : ℚ) < 2 ^ w := by positivity
  unfold normalizeFin
  rw [if_neg (by omega)]
  dsimp only
  rw [if_pos hi]
  set t : Nat → ℤ := fun i => if c.1 i = 0 then -2 ^ 31 else wrap32 (c.2 + (frexp (c.1 i)).2) with ht
  by_cases h0 : c.1 i = 0
  · have : (frexp (c.1 i)).1 = 0 := by simp [frexp, h0]
    rw [this, ldexpFin_zero hn]
  · obtain ⟨h1, h2, h3⟩ := foldl_max_spec t 0 nmax 0
    simp only [Nat.zero_add] at h1 h3
    set d := maxExp t 0 0 nmax
    have hd : d < 2 ^ 30 := by
      rcases h3 with h3 | ⟨k, hk, h3⟩
      · rw [h3]; norm_num
      · rw [h3, ht]
        dsimp only
        have := hc k hk
        split
        · norm_num
        · rw [wrap32_eq (by norm_num at this ⊢; omega) (by norm_num at this ⊢; omega)]; exact this.2
    have hti : t i = c.2 + (frexp (c.1 i)).2 := by
      have := hc i hi
      rw [ht]; simp only [h0, if_false]
      exact wrap32_eq (by norm_num at this ⊢; omega) (by norm_num at this ⊢; omega)
    have hle := h1 i hi
    have e := hc i hi
    have hti0 : (if c.1 i = 0 then -2 ^ 31 else wrap32 (c.2 + (frexp (c.1 i)).2)) = t i := rfl
    rw [hti0, wrap32_eq (by rw [hti]; norm_num at e hd ⊢; omega) (by norm_num at e hd ⊢; omega)]
    unfold ldexpFin
    rw [nearest_small hn]
    · simp
    · have f1 := (frexp_spec (c.1 i)).1
      have hv : |(frexp (c.1 i)).1| * 2 ^ t i = |sharedVal c i| := by
        unfold sharedVal
        rw [hti, ← abs_of_pos (zpow_pos (by norm_num : (0 : ℚ) < 2) (c.2 + (frexp (c.1 i)).2)), ← abs_mul,
          zpow_add₀ (by norm_num)]
        nth_rewrite 3 [← f1]
        congr 1; ring
      have hE : (0 : ℚ) < 2 ^ d := zpow_pos (by norm_num) _
      have h1d : (1 : ℚ) ≤ 2 ^ d := one_le_zpow₀ (by norm_num) h2
      rw [abs_mul, abs_mul, abs_of_pos hw, abs_of_pos (zpow_pos (by norm_num : (0 : ℚ) < 2) _),
        zpow_sub₀ (by norm_num), ← mul_div_assoc, hv, div_mul_eq_mul_div, div_lt_iff₀ hE]
      have := hs i hi
      linarith

end

/-- `(2^-1200, 0, 2^-1201)`, written with significands `1/2`. -/
def exDpe : Nat → ℚ × ℤ
  | 0 => (1 / 2, -1199)
  | 1 => (0, -2 ^ 31)
  | _ => (1 / 2, -1200)

theorem exDpe_normal : ∀ i, i < 3 → ExtNormal 53 (exDpe i) := by
  intro i hi
  obtain rfl | rfl | rfl : i = 0 ∨ i = 1 ∨ i = 2 := by omega
  · right
    exact ⟨⟨2 ^ 52, by norm_num [exDpe]⟩, by norm_num [exDpe, abs_of_pos], by norm_num [exDpe, abs_of_pos],
      by norm_num [exDpe], by norm_num [exDpe]⟩
  · left; rfl
  · right
    exact ⟨⟨2 ^ 52, by norm_num [exDpe]⟩, by norm_num [exDpe, abs_of_pos], by norm_num [exDpe, abs_of_pos],
      by norm_num [exDpe], by norm_num [exDpe]⟩

/-- The zero does not harm (compare `C91_flush`): the small entries are exact. -/
example : sharedVal (setcolDpe 1074 (fun y => round y) (fun _ => 0, 0) exDpe 3) 2 = extVal (exDpe 2) := by
  refine C92_exact nearest_round exDpe_normal (by omega) ?_
  have key : ∀ a q : ℚ, 0 < a → 2 ≤ q → a * 2 * 2 ^ 53 ≤ a * (q * 2 ^ 53) := fun a q ha hq => by nlinarith
  have hq : (2 : ℚ) ≤ 2 ^ 1021 := by
    have := pow_le_pow_right₀ (by norm_num : (1 : ℚ) ≤ 2) (by norm_num : 1 ≤ 1021)
    rwa [pow_one] at this
  have ha : (0 : ℚ) < 1 / 2 * 2 ^ (-1200 : ℤ) := mul_pos (by norm_num) (zpow_pos (by norm_num) _)
  have hw : (2 : ℚ) ^ 1074 = 2 ^ 1021 * 2 ^ 53 := by rw [← pow_add]
  have h0 : (2 : ℚ) ^ (-1199 : ℤ) = 2 ^ (-1200 : ℤ) * 2 := by
    rw [show (-1199 : ℤ) = -1200 + 1 by norm_num, zpow_add_one₀ (by norm_num)]
  have x0 : extVal (exDpe 0) = 1 / 2 * 2 ^ (-1199 : ℤ) := rfl
  have x1 : extVal (exDpe 1) = 0 := zero_mul _
  have x2 : extVal (exDpe 2) = 1 / 2 * 2 ^ (-1200 : ℤ) := rfl
  intro k hk
  obtain rfl | rfl | rfl : k = 0 ∨ k = 1 ∨ k = 2 := by omega
  · rw [x0, x2, h0, hw, ← mul_assoc, abs_mul, abs_of_pos ha, abs_of_pos (by norm_num : (0 : ℚ) < 2)]
    exact key _ _ ha hq
  · rw [x1, x2, abs_zero, zero_mul]
    exact mul_nonneg (abs_nonneg _) (pow_nonneg (by norm_num) _)
  · rw [x2, abs_of_pos ha]
    exact mul_le_mul_of_nonneg_left (pow_le_pow_right₀ (by norm_num) (by norm_num)) ha.le

/-- Zero column plus a column `(1/2 * 2^5)` gives zero. -/
example : sharedVal (addcolFin 1074 (fun y => round y) id
    (setcolDpe 1074 (fun y => round y) (fun _ => 0, 0) (fun _ => (0, -2 ^ 31)) 1)
    (fun _ => 1 / 2, 5) 1) 0 = 0 :=
  C92_zero_addcol nearest_round (by norm_num) rfl (by norm_num) (fun _ _ => rfl) (by norm_num)
    (by norm_num) (fun _ _ => by norm_num [abs_of_pos]) (by norm_num)

/-- `(3/4 * 2^2)` normalises. -/
example : |sharedVal (normalizeFin 1074 (fun y => round y) (fun _ => 3 / 4, 2) 1) 0 - 3| ≤ 3 / 2 ^ 1074 := by
  have hl : Int.log 2 (3 / 4 : ℚ) = -1 := by
    have h1 := Int.zpow_log_le_self (b := 2) (r := (3 / 4 : ℚ)) (by norm_num) (by norm_num)
    have h2 := Int.lt_zpow_succ_log_self (b := 2) (by norm_num) (r := (3 / 4 : ℚ))
    push_cast at h1 h2
    apply le_antisymm
    · by_contra h
      have : (2 : ℚ) ^ (0 : ℤ) ≤ 2 ^ Int.log 2 (3 / 4 : ℚ) := zpow_le_zpow_right₀ (by norm_num) (by omega)
      rw [zpow_zero] at this; linarith
    · by_contra h
      have : (2 : ℚ) ^ (Int.log 2 (3 / 4 : ℚ) + 1) ≤ 2 ^ (-1 : ℤ) :=
        zpow_le_zpow_right₀ (by norm_num) (by omega)
      rw [zpow_neg_one] at this; linarith
  have hf : (frexp (3 / 4)).2 = 0 := by
    unfold frexp
    rw [if_neg (by norm_num), abs_of_pos (by norm_num), hl]; rfl
  have hv : sharedVal (fun _ => 3 / 4, 2) 0 = 3 := by norm_num [sharedVal]
  have := C92_normalize (w := 1074) (c := (fun _ => 3 / 4, 2)) (nmax := 1) nearest_round
    (fun i _ => by dsimp only; rw [hf]; norm_num) (X := 3)
    (fun i _ => by norm_num [sharedVal]) (by norm_num) (i := 0) (by norm_num)
  rwa [hv] at this

end Props
end HPLLL
