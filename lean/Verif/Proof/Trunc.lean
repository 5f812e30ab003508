import Verif.Model.Trunc
import Verif.Proof.MatH
import Mathlib.Tactic.Ring
import Mathlib.Tactic.Linarith
import Mathlib.Tactic.NormNum
import Mathlib.Algebra.Order.Group.Abs
/-!
# Lemmas for the truncations and casts
-/

namespace HPLLL

theorem wrap128_range (x : Int) : -2 ^ 127 ≤ wrap128 x ∧ wrap128 x < 2 ^ 127 := by
  have h1 := Int.le_bmod (x := x) (m := 2 ^ 128) (by norm_num)
  have h2 := Int.bmod_lt (x := x) (m := 2 ^ 128) (by norm_num)
  norm_num at h1 h2
  unfold wrap128
  norm_num
  omega

theorem wrap128_of_range {x : Int} (h1 : -2 ^ 127 ≤ x) (h2 : x < 2 ^ 127) : wrap128 x = x := by
  unfold wrap128
  norm_num at h1 h2
  refine Int.bmod_eq_of_le ?_ ?_ <;> norm_num <;> omega

theorem wrap128_mod (x : Int) : ∃ k : Int, wrap128 x = x + 2 ^ 128 * k := by
  have h : wrap128 x % ((2 ^ 128 : ℕ) : ℤ) = x % ((2 ^ 128 : ℕ) : ℤ) := Int.bmod_emod
  obtain ⟨k, hk⟩ := Int.ModEq.dvd (n := ((2 ^ 128 : ℕ) : ℤ)) h.symm
  refine ⟨k, ?_⟩
  have : ((2 ^ 128 : ℕ) : ℤ) = 2 ^ 128 := by norm_num
  rw [this] at hk
  linarith

theorem getSi_of_range {a : Int} (h1 : -2 ^ 63 ≤ a) (h2 : a < 2 ^ 63) : getSi a = a := by
  unfold getSi
  norm_num at h1 h2
  split <;> omega

theorem getSi_range (a : Int) : -2 ^ 63 ≤ getSi a ∧ getSi a < 2 ^ 63 := by
  unfold getSi
  norm_num
  split <;> omega

theorem getSi_eq_iff (a : Int) : getSi a = a ↔ -2 ^ 63 ≤ a ∧ a < 2 ^ 63 :=
  ⟨fun h => h ▸ getSi_range a, fun h => getSi_of_range h.1 h.2⟩

theorem mpzSet128int_eq_iff (a : Int) : mpzSet128int a = a ↔ -2 ^ 127 ≤ a ∧ a < 2 ^ 127 := by
  constructor
  · intro h; rw [← h]; exact wrap128_range _
  · rintro ⟨h1, h2⟩
    unfold mpzSet128int
    norm_num at h1 h2
    have e1 := Int.ediv_mul_add_emod a (2 ^ 64)
    have e2 := Int.emod_nonneg a (b := 2 ^ 64) (by norm_num)
    have e3 := Int.emod_lt_of_pos a (b := 2 ^ 64) (by norm_num)
    norm_num at e1 e2 e3
    have hq : getSi (a / 2 ^ 64) = a / 2 ^ 64 := by
      apply getSi_of_range <;> norm_num <;> omega
    simp only [hq]
    norm_num
    rw [wrap128_of_range (x := a / 18446744073709551616 * 18446744073709551616), wrap128_of_range] <;>
      norm_num <;> omega

theorem mpzGet128int_eq (r : Int) : mpzGet128int r = r := by
  unfold mpzGet128int
  obtain ⟨k, hk⟩ := wrap128_mod (r * 2 ^ 64)
  simp only [hk]
  have : (r * 2 ^ 64 + 2 ^ 128 * k) / 2 ^ 64 = r + 2 ^ 64 * k := by
    rw [show r * 2 ^ 64 + 2 ^ 128 * k = (r + 2 ^ 64 * k) * 2 ^ 64 by ring]
    exact Int.mul_ediv_cancel _ (by norm_num)
  rw [this, Int.add_mul_emod_self_left, Int.ediv_mul_add_emod]

/-! ## digits -/

theorem digitChar_lookup (k : Nat) (hk : k < 10) : "0123456789".toList[k]! = k.digitChar := by
  interval_cases k <;> decide

theorem digitLoop_eq (tmp : Nat) (acc : List Char) : digitLoop tmp acc = Nat.toDigits 10 tmp ++ acc := by
  induction tmp using Nat.strongRecOn generalizing acc with
  | ind tmp ih =>
    rw [digitLoop]
    simp only []
    rw [digitChar_lookup _ (Nat.mod_lt _ (by decide))]
    split
    · rename_i h
      have : tmp < 10 := by omega
      rw [Nat.toDigits_of_lt_base this, Nat.mod_eq_of_lt this]; rfl
    · rename_i h
      rw [ih _ (by omega), Nat.toDigits_of_base_le (b := 10) (n := tmp) (by decide) (by omega)]
      simp

/-! ## bit sizes -/

theorem sizeInBits_lt (a : Int) : |a| < 2 ^ sizeInBits a := by
  unfold sizeInBits
  have : a.natAbs < 2 ^ (Nat.log2 a.natAbs + 1) := Nat.lt_log2_self
  rw [Int.abs_eq_natAbs]
  exact_mod_cast this

theorem sizeInBits_pos (a : Int) : 1 ≤ sizeInBits a := by unfold sizeInBits; omega

theorem sizeInBits_le {a : Int} {b : Nat} (hb : 1 ≤ b) : sizeInBits a ≤ b ↔ |a| < 2 ^ b := by
  constructor
  · intro h
    exact lt_of_lt_of_le (sizeInBits_lt a) (pow_le_pow_right₀ (by norm_num) h)
  · intro h
    unfold sizeInBits
    rw [Int.abs_eq_natAbs] at h
    have h' : a.natAbs < 2 ^ b := by exact_mod_cast h
    by_cases h0 : a.natAbs = 0
    · rw [h0]; simpa using hb
    · have := (Nat.log2_lt h0).2 h'; omega

theorem sizeInBits_ge {a : Int} {b : Nat} (h : 2 ^ b ≤ |a|) : b + 1 ≤ sizeInBits a := by
  by_contra hc
  have hb : sizeInBits a ≤ b := by omega
  have := sizeInBits_lt a
  have h2 : (2:ℤ) ^ sizeInBits a ≤ 2 ^ b := pow_le_pow_right₀ (by norm_num) hb
  linarith

theorem le_of_sizeInBits {a : Int} {b : Nat} (h : b + 1 ≤ sizeInBits a) (hb : 1 ≤ b) : 2 ^ b ≤ |a| := by
  by_contra hc
  have := (sizeInBits_le (a := a) hb).2 (not_le.mp hc)
  omega

theorem forRange_max (f : Nat → Nat) (a b l : Nat) (x : Nat) :
    forRange a b (fun i l => max l (f i)) l ≤ x ↔ l ≤ x ∧ ∀ i, a ≤ i → i < b → f i ≤ x := by
  by_cases hab : a ≤ b
  · refine forRange_ind (fun b v => v ≤ x ↔ l ≤ x ∧ ∀ i, a ≤ i → i < b → f i ≤ x) hab _ _ ?_ ?_
    · simp; intro _ i h1 h2; omega
    · intro i v h1 h2 h
      rw [max_le_iff, h]
      constructor
      · rintro ⟨⟨a1, a2⟩, a3⟩
        refine ⟨a1, fun k b1 b2 => ?_⟩
        rcases Nat.lt_succ_iff_lt_or_eq.mp b2 with h' | rfl
        · exact a2 k b1 h'
        · exact a3
      · rintro ⟨a1, a2⟩
        exact ⟨⟨a1, fun k b1 b2 => a2 k b1 (by omega)⟩, a2 i h1 (by omega)⟩
  · rw [forRange_empty (by omega)]
    exact ⟨fun h => ⟨h, fun i h1 h2 => by omega⟩, fun h => h.1⟩

theorem forRange_max2 (f : Nat → Nat → Nat) (a b d l x : Nat) :
    forRange a b (fun i l => forRange 0 d (fun j l => max l (f i j)) l) l ≤ x ↔
      l ≤ x ∧ ∀ i, a ≤ i → i < b → ∀ j < d, f i j ≤ x := by
  by_cases hab : a ≤ b
  · refine forRange_ind (fun b v => v ≤ x ↔ l ≤ x ∧ ∀ i, a ≤ i → i < b → ∀ j < d, f i j ≤ x) hab _ _ ?_ ?_
    · simp; intro _ i h1 h2; omega
    · intro i v h1 h2 h
      rw [forRange_max, h]
      constructor
      · rintro ⟨⟨a1, a2⟩, a3⟩
        refine ⟨a1, fun k b1 b2 j hj => ?_⟩
        rcases Nat.lt_succ_iff_lt_or_eq.mp b2 with h' | rfl
        · exact a2 k b1 h' j hj
        · exact a3 j (Nat.zero_le _) hj
      · rintro ⟨a1, a2⟩
        exact ⟨⟨a1, fun k b1 b2 => a2 k b1 (by omega)⟩, fun j _ hj => a2 i h1 (by omega) j hj⟩
  · rw [forRange_empty (by omega)]
    exact ⟨fun h => ⟨h, fun i h1 h2 => by omega⟩, fun h => h.1⟩

theorem maxbitsize_le (n d : Nat) (B : Mat Int) (x : Nat) :
    maxbitsize n d B ≤ x ↔ ∀ i < n, ∀ j < d, sizeInBits (B j i) ≤ x := by
  unfold maxbitsize
  rw [forRange_max2 (fun i j => sizeInBits (B j i))]
  simp

theorem forRange_min (f : Nat → Nat) (a b l : Nat) (x : Nat) :
    x ≤ forRange a b (fun i l => min l (f i)) l ↔ x ≤ l ∧ ∀ i, a ≤ i → i < b → x ≤ f i := by
  by_cases hab : a ≤ b
  · refine forRange_ind (fun b v => x ≤ v ↔ x ≤ l ∧ ∀ i, a ≤ i → i < b → x ≤ f i) hab _ _ ?_ ?_
    · simp; intro _ i h1 h2; omega
    · intro i v h1 h2 h
      rw [le_min_iff, h]
      constructor
      · rintro ⟨⟨a1, a2⟩, a3⟩
        refine ⟨a1, fun k b1 b2 => ?_⟩
        rcases Nat.lt_succ_iff_lt_or_eq.mp b2 with h' | rfl
        · exact a2 k b1 h'
        · exact a3
      · rintro ⟨a1, a2⟩
        exact ⟨⟨a1, fun k b1 b2 => a2 k b1 (by omega)⟩, a2 i h1 (by omega)⟩
  · rw [forRange_empty (by omega)]
    exact ⟨fun h => ⟨h, fun i h1 h2 => by omega⟩, fun h => h.1⟩

theorem sizeInBits_natAbs (a : Int) : sizeInBits ((a.natAbs : Int)) = sizeInBits a := by
  unfold sizeInBits; rw [Int.natAbs_natCast]

theorem colBits_le (n : Nat) (C : Mat Int) (j x : Nat) :
    colBits n C j ≤ x ↔ ∀ i < n, sizeInBits (C j i) ≤ x := by
  unfold colBits
  simp only [sizeInBits_natAbs]
  rw [forRange_max (fun i => sizeInBits (C j i))]
  simp

theorem colBits_attained (n : Nat) (C : Mat Int) (j : Nat) (hn : 0 < n) :
    ∃ i < n, sizeInBits (C j i) = colBits n C j := by
  by_contra hc
  push Not at hc
  have h0 := (colBits_le n C j _).1 (Nat.le_refl _)
  have hlt : ∀ i < n, sizeInBits (C j i) ≤ colBits n C j - 1 := fun i hi => by
    have := h0 i hi; have := hc i hi; omega
  have := (colBits_le n C j _).2 hlt
  have := h0 0 hn
  have := sizeInBits_pos (C j 0)
  omega

theorem le_minColBits (n d : Nat) (C : Mat Int) (hd : 0 < d) (x : Nat) :
    x ≤ minColBits n d C ↔ ∀ j < d, x ≤ colBits n C j := by
  unfold minColBits
  rw [forRange_min (fun j => colBits n C j)]
  constructor
  · rintro ⟨h1, h2⟩ j hj
    rcases Nat.eq_zero_or_pos j with rfl | hp
    · exact h1
    · exact h2 j hp hj
  · intro h; exact ⟨h 0 hd, fun j _ hj => h j hj⟩

theorem maxColBits_le (n d : Nat) (C : Mat Int) (hd : 0 < d) (x : Nat) :
    maxColBits n d C ≤ x ↔ ∀ j < d, colBits n C j ≤ x := by
  unfold maxColBits
  rw [forRange_max (fun j => colBits n C j)]
  constructor
  · rintro ⟨h1, h2⟩ j hj
    rcases Nat.eq_zero_or_pos j with rfl | hp
    · exact h1
    · exact h2 j hp hj
  · intro h; exact ⟨h 0 hd, fun j _ hj => h j hj⟩

/-! ## entries -/

theorem fillAll (n d : Nat) (f : Nat → Nat → Int) (C : Mat Int) (c r : Nat) :
    forRange 0 n (fun i C => forRange 0 d (fun j C => setEntry C i j (f i j)) C) C c r =
      if r < n ∧ c < d then f r c else C c r := by
  have := forRange_fill f 0 0 n 0 d C c r
  simpa using this

theorem fillRange (a n d : Nat) (h : a ≤ n) (f : Nat → Nat → Int) (C : Mat Int) (c r : Nat) :
    forRange a n (fun i C => forRange 0 d (fun j C => setEntry C i j (f i j)) C) C c r =
      if a ≤ r ∧ r < n ∧ c < d then f r c else C c r := by
  refine forRange_ind (fun n (X : Mat Int) => X c r = if a ≤ r ∧ r < n ∧ c < d then f r c else C c r)
    h _ _ (by rw [if_neg (by omega)]) ?_
  intro i X h1 h2 hX
  have := forRange_fillRow (fun j => f i j) i 0 0 0 d (Nat.zero_le d) X c r
  simp only [zero_add, Nat.sub_zero, Nat.zero_le, true_and] at this
  rw [this, hX]
  by_cases hc : r = i ∧ c < d
  · rw [if_pos hc, if_pos (by omega), hc.1]
  · rw [if_neg hc]
    by_cases h4 : a ≤ r ∧ r < i ∧ c < d
    · rw [if_pos h4, if_pos (by omega)]
    · rw [if_neg h4, if_neg (by omega)]

theorem updAll (n d : Nat) (f : Int → Int) (C : Mat Int) (c r : Nat) :
    forRange 0 n (fun i C => forRange 0 d (fun j C => setEntry C i j (f (C j i))) C) C c r =
      if r < n ∧ c < d then f (C c r) else C c r := by
  have hrow : ∀ (i : ℕ) (T : Mat Int) (c r : ℕ),
      forRange 0 d (fun j C => setEntry C i j (f (C j i))) T c r =
        if r = i ∧ c < d then f (T c r) else T c r := by
    intro i T c r
    refine forRange_ind (fun d (X : Mat Int) => ∀ c r, X c r =
      if r = i ∧ c < d then f (T c r) else T c r) (Nat.zero_le d)
      (fun j C => setEntry C i j (f (C j i))) T (fun c r => by rw [if_neg (by omega)]) ?_ c r
    intro j X _ _ h c r
    rw [setEntry_apply]
    by_cases hc : c = j ∧ r = i
    · rw [if_pos hc, h, if_neg (by omega), if_pos (by omega), hc.1, hc.2]
    · rw [if_neg hc, h]
      by_cases h4 : r = i ∧ c < j
      · rw [if_pos h4, if_pos (by omega)]
      · rw [if_neg h4, if_neg (by omega)]
  refine forRange_ind (fun n (X : Mat Int) => ∀ c r, X c r =
      if r < n ∧ c < d then f (C c r) else C c r) (Nat.zero_le n)
      (fun i C => forRange 0 d (fun j C => setEntry C i j (f (C j i))) C) C
      (fun c r => by rw [if_neg (by omega)]) ?_ c r
  intro i X _ _ h c r
  rw [hrow]
  by_cases hc : r = i ∧ c < d
  · rw [if_pos hc, h, if_neg (by omega), if_pos (by omega)]
  · rw [if_neg hc, h]
    by_cases h4 : r < i ∧ c < d
    · rw [if_pos h4, if_pos (by omega)]
    · rw [if_neg h4, if_neg (by omega)]

theorem liftRow_apply (n d : Nat) (hn : 0 < n) (A : Mat Int) (df : Int) (C : Mat Int) (c r : Nat)
    (hc : c < d) (hr : r < n) :
    liftRow n d A df C c r = if r = 0 then mul2si (A c 0) df else A c r := by
  unfold liftRow
  rw [fillRange 1 n d hn (fun i j => A j i)]
  by_cases h0 : r = 0
  · rw [if_neg (by omega), if_pos h0]
    have := forRange_fillRow (fun j => mul2si (A j 0) df) 0 0 0 0 d (Nat.zero_le d) C c r
    simp only [zero_add, Nat.sub_zero, Nat.zero_le, true_and] at this
    rw [this, if_pos ⟨h0, hc⟩]
  · rw [if_pos (by omega), if_neg h0]

theorem shiftAll_apply (n d : Nat) (s : Int) (C : Mat Int) (c r : Nat)
    (hc : c < d) (hr : r < n) : shiftAll n d s C c r = mul2si (C c r) s := by
  unfold shiftAll
  rw [updAll n d (fun x => mul2si x s), if_pos ⟨hr, hc⟩]

/-- Floor division by a power of two: error below one unit. -/
theorem mul2si_neg (a : Int) (k : Nat) : mul2si a (-(k : Int)) * 2 ^ k ≤ a ∧
    a < mul2si a (-(k : Int)) * 2 ^ k + 2 ^ k := by
  have hp : (0:ℤ) < 2 ^ k := by positivity
  have key : mul2si a (-(k : Int)) = a / 2 ^ k := by
    unfold mul2si
    split
    · rename_i h
      have hk : k = 0 := by omega
      subst hk; simp
    · simp
  rw [key]
  have h1 := Int.ediv_mul_add_emod a (2 ^ k)
  have h2 := Int.emod_nonneg a (b := 2 ^ k) hp.ne'
  have h3 := Int.emod_lt_of_pos a hp
  constructor <;> linarith

end HPLLL
