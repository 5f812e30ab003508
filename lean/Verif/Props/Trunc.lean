import Verif.Proof.Trunc
import Verif.Proof.LInv
import Verif.Model.Toy
import Mathlib.Tactic.Positivity
import Mathlib.Tactic.GCongr
/-!
# Properties of the 128 bit layer, the bit sizes, casts and truncations
-/

namespace HPLLL.Props
open HPLLL

/-! ## C27-C29: 128 bit integers -/

/-- **C27.** 128 bit → mpz never changes the value; mpz → 128 bit keeps exactly the values of
`[-2^127, 2^127)`; both round trips. -/
theorem C27_roundtrip :
    (∀ r : Int, mpzGet128int r = r) ∧
    (∀ a : Int, mpzSet128int a = a ↔ -2 ^ 127 ≤ a ∧ a < 2 ^ 127) ∧
    (∀ r : Int, -2 ^ 127 ≤ r → r < 2 ^ 127 → mpzSet128int (mpzGet128int r) = r) ∧
    (∀ a : Int, mpzGet128int (mpzSet128int a) = a ↔ -2 ^ 127 ≤ a ∧ a < 2 ^ 127) := by
  refine ⟨mpzGet128int_eq, mpzSet128int_eq_iff, fun r h1 h2 => ?_, fun a => ?_⟩
  · rw [mpzGet128int_eq, mpzSet128int_eq_iff]; exact ⟨h1, h2⟩
  · rw [mpzGet128int_eq, mpzSet128int_eq_iff]

/-- The result of the conversion to 128 bits is always a 128 bit integer. -/
theorem C27_range (a : Int) : -2 ^ 127 ≤ mpzSet128int a ∧ mpzSet128int a < 2 ^ 127 := wrap128_range _

example : mpzSet128int (-2 ^ 127) = -2 ^ 127 ∧ mpzSet128int (-1) = -1 ∧
    mpzSet128int (2 ^ 127) ≠ 2 ^ 127 := by decide

/-- **C28.** The text printed for a 128 bit integer is its decimal representation, and the buffer
(127 usable characters) suffices, including for the smallest integer, whose opposite overflows. -/
theorem C28_print (v : Int) (h1 : -2 ^ 127 ≤ v) (h2 : v < 2 ^ 127) :
    String.ofList (print128 v) = toString v ∧ (print128 v).length ≤ 127 := by
  have habs : ((if v < 0 then wrap128 (-v) else v) % 2 ^ 128).toNat = v.natAbs := by
    norm_num at h1 h2
    split
    · rename_i hv
      by_cases hmin : v = -2 ^ 127
      · subst hmin; decide
      · rw [wrap128_of_range] <;> norm_num at hmin ⊢ <;> omega
    · norm_num; omega
  have hlen : (Nat.toDigits 10 v.natAbs).length ≤ 40 := by
    rw [Nat.length_toDigits_le_iff (by decide) (by decide)]
    norm_num at h1 h2 ⊢; omega
  unfold print128
  simp only [habs, digitLoop_eq, List.append_nil]
  constructor
  · cases v with
    | ofNat k =>
      rw [if_neg (by simp)]
      show String.ofList (Nat.toDigits 10 k) = Int.repr (Int.ofNat k)
      rw [← Nat.toString_eq_ofList_toDigits]; rfl
    | negSucc k =>
      rw [if_pos (Int.negSucc_lt_zero k)]
      show String.ofList ('-' :: Nat.toDigits 10 (k + 1)) = Int.repr (Int.negSucc k)
      show _ = "-" ++ (k + 1).repr
      rw [Nat.repr_eq_ofList_toDigits]
      apply String.toList_injective
      simp
  · split
    · simp; omega
    · omega

/-- `rd` rounds to double precision: relative error at most `2^-53`. -/
def RoundsTo53 (rd : Int → Int) : Prop := ∀ x, |rd x - x| * 2 ^ 53 ≤ |x|

/-- A concrete rounding of integers to 53 bits. -/
def rd53 (x : Int) : Int :=
  let k := sizeInBits x - 53
  if k = 0 then x else (x + 2 ^ (k - 1)) / 2 ^ k * 2 ^ k

theorem rd53_rounds : RoundsTo53 rd53 := by
  intro x
  unfold rd53
  simp only []
  split
  · simp
  · rename_i hk
    obtain ⟨k, hk'⟩ : ∃ k, sizeInBits x - 53 = k + 1 := ⟨sizeInBits x - 54, by omega⟩
    have hsz : (k + 53) + 1 ≤ sizeInBits x := by omega
    have hx := le_of_sizeInBits hsz (by omega)
    rw [hk', Nat.add_sub_cancel]
    have hp : (0:ℤ) < 2 ^ (k + 1) := by positivity
    have e1 := Int.ediv_mul_add_emod (x + 2 ^ k) (2 ^ (k + 1))
    have e2 := Int.emod_nonneg (x + 2 ^ k) hp.ne'
    have e3 := Int.emod_lt_of_pos (x + 2 ^ k) hp
    have e4 : (2:ℤ) ^ (k + 1) = 2 * 2 ^ k := by ring
    have : |(x + 2 ^ k) / 2 ^ (k + 1) * 2 ^ (k + 1) - x| ≤ 2 ^ k := by
      rw [abs_le]; constructor <;> linarith
    calc _ ≤ (2:ℤ) ^ k * 2 ^ 53 := by gcongr
      _ = 2 ^ (k + 53) := by ring
      _ ≤ _ := hx

/-- **C29 (DEFECT).** The low part has the wrong sign: the value represented by the double-double set
from a 128 bit integer `a` is off by almost twice the rounding error of the high part (an ordinary
double conversion is more precise), so it is exact only when `a` is a double; with the right sign it
would be `2^53` times more precise. -/
theorem C29_set_z_wrong_sign (rd : Int → Int) (h : RoundsTo53 rd) (a : Int) :
    (2 ^ 54 - 1) * |rd a - a| ≤ 2 ^ 53 * |(ddSetZ rd a).1 + (ddSetZ rd a).2 - a| ∧
    ((ddSetZ rd a).1 + (ddSetZ rd a).2 = a ↔ rd a = a) ∧
    |rd a + rd (a - rd a) - a| * 2 ^ 53 ≤ |rd a - a| := by
  have hv : (ddSetZ rd a).1 + (ddSetZ rd a).2 - a = 2 * (rd a - a) + (rd (rd a - a) - (rd a - a)) := by
    simp only [ddSetZ]; ring
  have key : (2 ^ 54 - 1) * |rd a - a| ≤ 2 ^ 53 * |(ddSetZ rd a).1 + (ddSetZ rd a).2 - a| := by
    rw [hv]
    have h1 := h (rd a - a)
    generalize rd a - a = e at *
    generalize rd e - e = f at *
    have h2 : 2 * |e| - |f| ≤ |2 * e + f| := by
      have := abs_sub_abs_le_abs_sub (2 * e) (-f)
      rw [abs_mul, abs_neg, sub_neg_eq_add] at this
      simpa using this
    linarith
  refine ⟨key, ⟨fun h0 => ?_, fun h0 => ?_⟩, ?_⟩
  · rw [h0, sub_self, abs_zero, mul_zero] at key
    have := abs_nonneg (rd a - a)
    have h3 : |rd a - a| = 0 := by
      apply le_antisymm _ this
      by_contra hc
      push Not at hc
      have : (0:ℤ) < (2 ^ 54 - 1) * |rd a - a| := by positivity
      linarith
    rw [abs_eq_zero] at h3; linarith
  · have h1 := h 0
    have hz : rd 0 = 0 := by
      rw [abs_zero, sub_zero] at h1
      have := abs_nonneg (rd 0)
      have : |rd 0| = 0 := by omega
      simpa using this
    simp only [ddSetZ, h0, sub_self, hz, add_zero]
  · have h1 := h (a - rd a)
    rw [show rd a + rd (a - rd a) - a = rd (a - rd a) - (a - rd a) by ring]
    rwa [abs_sub_comm a (rd a)] at h1

/-- `2^53 + 1` is set to `2^53 - 1`. -/
theorem C29_set_z_witness : RoundsTo53 rd53 ∧
    (ddSetZ rd53 (2 ^ 53 + 1)).1 + (ddSetZ rd53 (2 ^ 53 + 1)).2 ≠ 2 ^ 53 + 1 :=
  ⟨rd53_rounds, by rw [Ne, (C29_set_z_wrong_sign rd53 rd53_rounds (2 ^ 53 + 1)).2.1]; decide⟩

/-! ## C30, C31: bit sizes and casts -/

/-- **C31.** `maxbitsize(A)` bounds all the entries, and is the least such bound, except that it is at
least 1 (a nonempty zero matrix has size 1); it is 0 exactly for an empty matrix. -/
theorem C31_maxbitsize (n d : ℕ) (A : Mat Int) :
    (∀ i < n, ∀ j < d, |A j i| < 2 ^ maxbitsize n d A) ∧
    (∀ b : ℕ, (∀ i < n, ∀ j < d, |A j i| < 2 ^ b) → maxbitsize n d A ≤ max b 1) ∧
    ((∃ i < n, ∃ j < d, A j i ≠ 0) → ∀ b : ℕ, (∀ i < n, ∀ j < d, |A j i| < 2 ^ b) →
      maxbitsize n d A ≤ b) ∧
    (maxbitsize n d A = 0 ↔ n = 0 ∨ d = 0) := by
  have h1 : ∀ b : ℕ, (∀ i < n, ∀ j < d, |A j i| < 2 ^ b) → maxbitsize n d A ≤ max b 1 := by
    intro b hb
    rw [maxbitsize_le]
    intro i hi j hj
    rw [sizeInBits_le (by omega)]
    exact lt_of_lt_of_le (hb i hi j hj) (pow_le_pow_right₀ (by norm_num) (le_max_left _ _))
  refine ⟨fun i hi j hj => ?_, h1, ?_, ?_⟩
  · have := (maxbitsize_le n d A _).1 (Nat.le_refl _) i hi j hj
    exact (sizeInBits_le (le_trans (sizeInBits_pos _) this)).1 this
  · rintro ⟨i, hi, j, hj, hne⟩ b hb
    have h2 := h1 b hb
    have : b ≠ 0 := by
      rintro rfl
      have := hb i hi j hj
      rw [pow_zero, Int.abs_lt_one_iff] at this
      exact hne this
    omega
  · rw [← Nat.le_zero, maxbitsize_le]
    constructor
    · intro h
      by_contra hc
      push Not at hc
      have := h 0 (by omega) 0 (by omega)
      have := sizeInBits_pos (A 0 0); omega
    · intro h i hi j hj; omega

example : maxbitsize 2 2 (ofCols [[0, -8], [7, 3]]) = 4 ∧ maxbitsize 1 1 (ofCols [[0]]) = 1 := by decide

/-- The same for `maxbitsize(B, d0, d, n)`. -/
theorem C31_maxbitsize_rows (d0 d n : ℕ) (A : Mat Int) :
    (∀ i, d0 ≤ i → i < d → ∀ j < n, |A j i| < 2 ^ maxbitsizeRows d0 d n A) ∧
    (∀ b : ℕ, (∀ i, d0 ≤ i → i < d → ∀ j < n, |A j i| < 2 ^ b) → maxbitsizeRows d0 d n A ≤ max b 1) := by
  have hle : ∀ x, maxbitsizeRows d0 d n A ≤ x ↔
      ∀ i, d0 ≤ i → i < d → ∀ j < n, sizeInBits (A j i) ≤ x := by
    intro x
    unfold maxbitsizeRows
    rw [forRange_max2 (fun i j => sizeInBits (A j i))]
    simp
  refine ⟨fun i h1 h2 j hj => ?_, fun b hb => ?_⟩
  · have := (hle _).1 (Nat.le_refl _) i h1 h2 j hj
    exact (sizeInBits_le (le_trans (sizeInBits_pos _) this)).1 this
  · rw [hle]
    intro i h1 h2 j hj
    rw [sizeInBits_le (by omega)]
    exact lt_of_lt_of_le (hb i h1 h2 j hj) (pow_le_pow_right₀ (by norm_num) (le_max_left _ _))

/-- Common statement of the casts to a signed type of `w + 1` bits. -/
def CastSpec (w : ℕ) (n d : ℕ) (A : Mat Int) (res : Bool × Mat Int) : Prop :=
  (∀ i < n, ∀ j < d, (res.2 j i = A j i ↔ -2 ^ w ≤ A j i ∧ A j i < 2 ^ w)) ∧
  (res.1 = false ↔ ∀ i < n, ∀ j < d, -2 ^ w < A j i ∧ A j i < 2 ^ w)

theorem castSpec_of (w : ℕ) (hw : 1 ≤ w) (n d : ℕ) (A : Mat Int) (f : Int → Int)
    (hf : ∀ a, f a = a ↔ -2 ^ w ≤ a ∧ a < 2 ^ w) :
    CastSpec w n d A (decide (maxbitsize n d A > w),
      forRange 0 n (fun i B => forRange 0 d (fun j B => setEntry B i j (f (A j i))) B) fun _ _ => 0) := by
  refine ⟨fun i hi j hj => ?_, ?_⟩
  · simp only []
    rw [fillAll n d (fun i j => f (A j i)), if_pos ⟨hi, hj⟩]
    exact hf _
  · rw [decide_eq_false_iff_not, not_lt, maxbitsize_le]
    constructor
    · intro h i hi j hj
      have := (sizeInBits_le hw).1 (h i hi j hj)
      rw [abs_lt] at this; exact this
    · intro h i hi j hj
      rw [sizeInBits_le hw, abs_lt]; exact h i hi j hj

/-- **C30.** `matrix_cast` to `long` and to 128 bits: an entry is preserved iff it fits, and an error is
reported iff some entry is outside `(-2^w, 2^w)`; hence always when an entry does not fit, and never
when all the entries fit except for the smallest integer `-2^w`, which is preserved but reported.  The
cast from 128 bits preserves everything. -/
theorem C30_matrix_cast (n d : ℕ) (A : Mat Int) :
    CastSpec 63 n d A (matrixCastLong n d A) ∧ CastSpec 127 n d A (matrixCast128 n d A) ∧
    ∀ i < n, ∀ j < d, matrixCastFrom128 n d A j i = A j i := by
  refine ⟨castSpec_of 63 (by norm_num) n d A getSi getSi_eq_iff,
    castSpec_of 127 (by norm_num) n d A mpzSet128int mpzSet128int_eq_iff, fun i hi j hj => ?_⟩
  unfold matrixCastFrom128
  rw [fillAll n d (fun i j => mpzGet128int (A j i)), if_pos ⟨hi, hj⟩, mpzGet128int_eq]

/-- In particular: no error reported, then all the entries are preserved; and a lost entry is always
reported. -/
theorem C30_no_silent_loss (n d : ℕ) (A : Mat Int) :
    ((matrixCastLong n d A).1 = false → ∀ i < n, ∀ j < d, (matrixCastLong n d A).2 j i = A j i) ∧
    ((matrixCast128 n d A).1 = false → ∀ i < n, ∀ j < d, (matrixCast128 n d A).2 j i = A j i) := by
  obtain ⟨⟨h1, h2⟩, ⟨h3, h4⟩, -⟩ := C30_matrix_cast n d A
  exact ⟨fun h i hi j hj => (h1 i hi j hj).2 ⟨(h2.1 h i hi j hj).1.le, (h2.1 h i hi j hj).2⟩,
    fun h i hi j hj => (h3 i hi j hj).2 ⟨(h4.1 h i hi j hj).1.le, (h4.1 h i hi j hj).2⟩⟩

/-- The smallest `long` is preserved although an error is reported. -/
example : (matrixCastLong 1 1 (ofCols [[-2 ^ 63]])).1 = true ∧
    (matrixCastLong 1 1 (ofCols [[-2 ^ 63]])).2 0 0 = -2 ^ 63 ∧
    (matrixCastLong 1 1 (ofCols [[2 ^ 63]])).2 0 0 = 0 := by decide

/-! ## C33 -/

/-- **C33.** `matrix_structure` is the least nondecreasing profile (values at least -1) bounding the
supports of the columns. -/
theorem C33_structure (n : ℕ) (A : Mat Int) :
    (∀ j r, r < n → A j r ≠ 0 → (r : ℤ) ≤ matrixStructure n A j) ∧
    (∀ i j, i ≤ j → matrixStructure n A i ≤ matrixStructure n A j) ∧
    (∀ j, -1 ≤ matrixStructure n A j ∧ matrixStructure n A j < n) ∧
    ∀ p : ℕ → ℤ, (∀ j r, r < n → A j r ≠ 0 → (r : ℤ) ≤ p j) → (∀ i j, i ≤ j → p i ≤ p j) →
      (∀ j, -1 ≤ p j) → ∀ j, matrixStructure n A j ≤ p j := by
  have hlast : ∀ (c : ℕ → ℤ) (x : ℤ), -1 ≤ x → (∀ r < n, c r ≠ 0 → (r : ℤ) ≤ x) →
      lastNonzero c n ≤ x := by
    intro c x hx h
    rcases lt_or_ge (lastNonzero c n) 0 with h0 | h0
    · omega
    · obtain ⟨k, hk⟩ := Int.eq_ofNat_of_zero_le h0
      have h1 := lastNonzero_ne c n k hk
      have h2 := lastNonzero_lt c n
      rw [hk] at h2 ⊢
      exact h k (by omega) h1
  have hge : ∀ j, lastNonzero (A j) n ≤ matrixStructure n A j := by
    intro j
    cases j with
    | zero => exact le_refl _
    | succ j => simp only [matrixStructure]; exact le_max_right _ _
  refine ⟨fun j r hr hne => ?_, fun i j h => matrixStructure_mono n A h,
    fun j => ⟨matrixStructure_ge n A j, matrixStructure_lt n A j⟩, fun p h1 h2 h3 j => ?_⟩
  · by_contra hc
    push Not at hc
    exact hne (lastNonzero_supp (A j) n r hr (lt_of_le_of_lt (hge j) hc))
  · induction j with
    | zero => exact hlast _ _ (h3 0) (h1 0)
    | succ j ih =>
      simp only [matrixStructure]
      exact max_le (ih.trans (h2 _ _ (Nat.le_succ j))) (hlast _ _ (h3 _) (h1 _))

example : (List.range 4).map (matrixStructure 3 (ofCols [[0, 0, 0], [1, 2, 0], [5, 0, 0], [0, 0, 7]])) =
    [-1, 1, 1, 2] := by decide

/-! ## C32: truncations -/

/-- The lifted matrix: first row multiplied by `2^def` (rounded down for negative `def`). -/
def lifted (A : Mat Int) (df : Int) (c r : ℕ) : Int :=
  if r = 0 then (if 0 ≤ df then A c 0 * 2 ^ df.toNat else A c 0 / 2 ^ (-df).toNat) else A c r

theorem liftRow_lifted (n d : Nat) (hn : 0 < n) (A : Mat Int) (df : Int) (C : Mat Int) (c r : Nat)
    (hc : c < d) (hr : r < n) : liftRow n d A df C c r = lifted A df c r := by
  rw [liftRow_apply n d hn A df C c r hc hr]; rfl

theorem mul2si_nat (a : Int) (k : ℕ) : mul2si a (-(k : Int)) = a / 2 ^ k := by
  unfold mul2si
  split
  · rename_i h
    have hk : k = 0 := by omega
    subst hk; simp
  · simp

theorem abs_shift_ge {a : Int} {k m : ℕ} (h : 2 ^ (k + m) ≤ |a|) : 2 ^ m ≤ |a / 2 ^ k| := by
  have hp : (0:ℤ) < 2 ^ k := by positivity
  rcases le_or_gt 0 a with ha | ha
  · rw [abs_of_nonneg ha, pow_add] at h
    rw [abs_of_nonneg (Int.ediv_nonneg ha hp.le), Int.le_ediv_iff_mul_le hp]
    linarith
  · rw [abs_of_neg ha, pow_add] at h
    have : a / 2 ^ k ≤ - 2 ^ m := by
      have : a / 2 ^ k < - 2 ^ m + 1 := by
        rw [Int.ediv_lt_iff_lt_mul hp]; nlinarith
      omega
    rw [abs_of_neg (by have : (0:ℤ) < 2 ^ m := by positivity
                       linarith)]
    linarith

theorem shift_range {a : Int} {k m : ℕ} (h : |a| < 2 ^ (k + m)) : -2 ^ m ≤ a / 2 ^ k ∧ a / 2 ^ k < 2 ^ m := by
  have hp : (0:ℤ) < 2 ^ k := by positivity
  rw [abs_lt, pow_add] at h
  constructor
  · rw [Int.le_ediv_iff_mul_le hp]; linarith
  · rw [Int.ediv_lt_iff_lt_mul hp]; linarith

/-- **C32.** `lift_truncate`: the result is the lifted matrix, all the entries being divided by the same
`2^k` and rounded down (error below one unit).  No division for `bits ≤ 0`.  For `bits > 0`: if `k ≠ 0`
then every column keeps an entry of at least `bits + 2` bits, and always some column has no entry
above `2^(bits+2)`. -/
theorem C32_lift_truncate (n d : ℕ) (hn : 0 < n) (hd : 0 < d) (A : Mat Int) (df bits : Int)
    (C : Mat Int) : ∃ k : ℕ,
    (∀ c < d, ∀ r < n, liftTruncate n d A df bits C c r = lifted A df c r / 2 ^ k) ∧
    (bits ≤ 0 → k = 0) ∧
    (0 < k → ∀ c < d, ∃ r < n, 2 ^ (bits.toNat + 1) ≤ |liftTruncate n d A df bits C c r|) ∧
    (0 < bits → ∃ c < d, ∀ r < n, |liftTruncate n d A df bits C c r| ≤ 2 ^ (bits.toNat + 2)) := by
  set L := liftRow n d A df C with hL
  have hLe : ∀ c < d, ∀ r < n, L c r = lifted A df c r := fun c hc r hr =>
    liftRow_lifted n d hn A df C c r hc hr
  by_cases hb : bits > 0
  · obtain ⟨b, rfl⟩ := Int.eq_ofNat_of_zero_le hb.le
    -- the column realising the minimum
    obtain ⟨c0, hc0, hmin⟩ : ∃ c < d, colBits n L c = minColBits n d L := by
      by_contra hc
      push Not at hc
      have h0 := (le_minColBits n d L hd _).1 (Nat.le_refl _)
      have : minColBits n d L + 1 ≤ minColBits n d L := (le_minColBits n d L hd _).2 fun j hj => by
        have := h0 j hj; have := hc j hj; omega
      omega
    have hm := (le_minColBits n d L hd _).1 (Nat.le_refl _)
    have hsmall : ∀ r < n, |L c0 r| < 2 ^ minColBits n d L := fun r hr => by
      have h1 := (colBits_le n L c0 _).1 (Nat.le_refl _) r hr
      rw [← hmin]
      exact (sizeInBits_le (le_trans (sizeInBits_pos _) h1)).1 h1
    by_cases ht : (minColBits n d L : Int) - 2 ≥ b
    · obtain ⟨k, hk⟩ : ∃ k : ℕ, minColBits n d L = k + (b + 2) :=
        ⟨minColBits n d L - b - 2, by omega⟩
      have hs : ∀ c < d, ∀ r < n, liftTruncate n d A df b C c r = L c r / 2 ^ k := by
        intro c hc r hr
        simp only [liftTruncate, ← hL, if_pos hb, if_pos ht]
        rw [shiftAll_apply _ _ _ _ _ _ hc hr, show (b : Int) - (minColBits n d L : Int) + 2 = -(k : Int) by
          omega, mul2si_nat]
      refine ⟨k, fun c hc r hr => by rw [hs c hc r hr, hLe c hc r hr], fun h => by omega, ?_, ?_⟩
      · intro hk0 c hc
        obtain ⟨r, hr, hrb⟩ := colBits_attained n L c hn
        refine ⟨r, hr, ?_⟩
        rw [hs c hc r hr]
        apply abs_shift_ge
        have := hm c hc
        refine le_of_sizeInBits ?_ (by omega)
        simp only [Int.toNat_natCast]; omega
      · intro _
        refine ⟨c0, hc0, fun r hr => ?_⟩
        rw [hs c0 hc0 r hr]
        have h1 := hsmall r hr
        rw [hk] at h1
        obtain ⟨h2, h3⟩ := shift_range h1
        rw [abs_le]
        simp only [Int.toNat_natCast]
        exact ⟨h2, h3.le⟩
    · have hs : ∀ c < d, ∀ r < n, liftTruncate n d A df b C c r = L c r := by
        intro c hc r hr
        simp only [liftTruncate, ← hL, if_pos hb, if_neg ht]
      refine ⟨0, fun c hc r hr => by rw [hs c hc r hr, hLe c hc r hr]; simp, fun h => rfl,
        fun h => absurd h (by decide), fun _ => ⟨c0, hc0, fun r hr => ?_⟩⟩
      rw [hs c0 hc0 r hr]
      refine le_trans (hsmall r hr).le (pow_le_pow_right₀ (by norm_num) ?_)
      simp only [Int.toNat_natCast]; omega
  · have hs : ∀ c < d, ∀ r < n, liftTruncate n d A df bits C c r = L c r := by
      intro c hc r hr
      simp only [liftTruncate, ← hL, if_neg hb]
    exact ⟨0, fun c hc r hr => by rw [hs c hc r hr, hLe c hc r hr]; simp, fun h => rfl,
      fun h => absurd h (by decide), fun h => absurd h hb⟩

/-- Truncation of a 2x2 matrix to 3 bits: the columns have 10 and 8 bits, hence division by `2^3`. -/
example : toCols 2 2 (liftTruncate 2 2 (ofCols [[500, -3], [100, 255]]) 1 3 fun _ _ => 0) =
    [[125, -1], [25, 31]] := by decide

theorem liftTruncateFixed_eq (n d : ℕ) (A : Mat Int) (df bits : Int) (C : Mat Int)
    (c r : ℕ) (hc : c < d) (hr : r < n) :
    (liftTruncateFixed n d A df bits C).1 c r = liftTruncate n d A df bits C c r := by
  unfold liftTruncateFixed liftTruncate
  simp only []
  split
  · split
    · rename_i h; rw [if_pos (by omega)]
    · rename_i h
      split
      · rename_i h'
        rw [shiftAll_apply _ _ _ _ _ _ hc hr]
        rw [show bits - (minColBits n d (liftRow n d A df C) : Int) + 2 = 0 by omega]
        simp [mul2si]
      · rfl
  · rfl

/-- **C32, `long` version.** The entries are those of the multiprecision version reduced to a `long`:
exact iff they fit, and nothing stops the computation otherwise (DEFECT: at most a warning). -/
theorem C32_lift_truncate_long (n d : ℕ) (A : Mat Int) (df bits : Int) (c r : ℕ) (hc : c < d)
    (hr : r < n) :
    let exact := liftTruncate n d A df bits (fun _ _ => 0) c r
    (liftTruncateLong n d A df bits c r = exact ↔ -2 ^ 63 ≤ exact ∧ exact < 2 ^ 63) := by
  intro exact
  unfold liftTruncateLong
  rw [liftTruncateFixed_eq n d A df bits _ c r hc hr]
  exact getSi_eq_iff _

/-- A wrong result without `exit`: `2^63` becomes 0. -/
theorem C32_long_witness : liftTruncateLong 1 1 (ofCols [[2 ^ 63]]) 0 0 0 0 = 0 ∧
    liftTruncate 1 1 (ofCols [[2 ^ 63]]) 0 0 (fun _ _ => 0) 0 0 = 2 ^ 63 := by decide

/-- **C32, 128 bit version.** For `bits > 0`: if the program does not exit, all the entries are exact.
For `bits ≤ 0` there is no check (DEFECT): an entry is exact iff it fits. -/
theorem C32_lift_truncate_128 (n d : ℕ) (hd : 0 < d) (A : Mat Int) (df bits : Int) (T : Mat Int)
    (hT : liftTruncate128 n d A df bits = some T) (c r : ℕ) (hc : c < d) (hr : r < n) :
    let exact := liftTruncate n d A df bits (fun _ _ => 0) c r
    (T c r = exact ↔ -2 ^ 127 ≤ exact ∧ exact < 2 ^ 127) ∧ (bits > 0 → T c r = exact) := by
  intro exact
  have hEq := liftTruncateFixed_eq n d A df bits (fun _ _ => 0) c r hc hr
  unfold liftTruncate128 at hT
  simp only [] at hT
  split at hT
  · exact absurd hT (by simp)
  · rename_i hno
    have hTv : T c r = mpzSet128int exact := by
      rw [← Option.some.inj hT]; simp only []; rw [hEq]
    have h1 : T c r = exact ↔ -2 ^ 127 ≤ exact ∧ exact < 2 ^ 127 := by
      rw [hTv]; exact mpzSet128int_eq_iff _
    refine ⟨h1, fun hb => h1.2 ?_⟩
    have hbbc : (liftTruncateFixed n d A df bits fun _ _ => 0).2 ≤ 127 := by
      by_contra hc; exact hno ⟨hb, by omega⟩
    show -2 ^ 127 ≤ liftTruncate n d A df bits (fun _ _ => 0) c r ∧ _
    have hE : exact = liftTruncate n d A df bits (fun _ _ => 0) c r := rfl
    rw [hE, ← hEq]
    clear hno hT hEq hTv h1 hE exact
    unfold liftTruncateFixed at *
    set L := liftRow n d A df (fun _ _ => 0) with hL
    simp only [if_pos hb] at *
    have hcol := (maxColBits_le n d L hd _).1 (Nat.le_refl _) c hc
    have hbit := (colBits_le n L c _).1 hcol r hr
    have habs := (sizeInBits_le (le_trans (sizeInBits_pos _) hbit)).1 hbit
    split
    · rename_i ht
      rw [if_pos ht] at hbbc
      simp only [] at hbbc ⊢
      rw [shiftAll_apply _ _ _ _ _ _ hc hr]
      obtain ⟨k, hk⟩ : ∃ k : ℕ, bits - (minColBits n d L : Int) + 2 = -(k : Int) :=
        ⟨(minColBits n d L - 2 - bits).toNat, by omega⟩
      rw [hk, mul2si_nat]
      apply shift_range
      refine lt_of_lt_of_le habs (pow_le_pow_right₀ (by norm_num) ?_)
      omega
    · rename_i ht
      rw [if_neg ht] at hbbc
      simp only [] at hbbc ⊢
      have : |L c r| < 2 ^ 127 := lt_of_lt_of_le habs (pow_le_pow_right₀ (by norm_num) (by omega))
      rw [abs_lt] at this
      exact ⟨this.1.le, this.2⟩

/-- It exits only for `bits > 0` and when some entry has at least 128 bits (all of these but `-2^127` do not
fit). -/
theorem C32_lift_truncate_128_exit (n d : ℕ) (hd : 0 < d) (A : Mat Int) (df bits : Int)
    (hT : liftTruncate128 n d A df bits = none) :
    bits > 0 ∧ ∃ c < d, ∃ r < n, 2 ^ 127 ≤ |liftTruncate n d A df bits (fun _ _ => 0) c r| := by
  have hEq := fun c r => liftTruncateFixed_eq n d A df bits (fun _ _ => 0) c r
  unfold liftTruncate128 at hT
  simp only [] at hT
  split at hT
  · rename_i hno
    obtain ⟨hb, hbbc⟩ := hno
    refine ⟨hb, ?_⟩
    suffices h : ∃ c < d, ∃ r < n, 2 ^ 127 ≤ |(liftTruncateFixed n d A df bits fun _ _ => 0).1 c r| by
      obtain ⟨c, hc, r, hr, h⟩ := h
      exact ⟨c, hc, r, hr, by rw [← hEq c r hc hr]; exact h⟩
    clear hEq hT
    unfold liftTruncateFixed at *
    set L := liftRow n d A df (fun _ _ => 0) with hL
    simp only [if_pos hb] at *
    have big : ∀ b : ℕ, 1 ≤ b → b < maxColBits n d L → ∃ c < d, ∃ r < n, 2 ^ b ≤ |L c r| := by
      intro b hb1 hlt
      by_contra hcon
      push Not at hcon
      have : maxColBits n d L ≤ b := (maxColBits_le n d L hd b).2 fun j hj =>
        (colBits_le n L j b).2 fun i hi => (sizeInBits_le hb1).2 (hcon j hj i hi)
      omega
    split
    · rename_i ht
      rw [if_pos ht] at hbbc
      simp only [] at hbbc ⊢
      obtain ⟨k, hk⟩ : ∃ k : ℕ, bits - (minColBits n d L : Int) + 2 = -(k : Int) :=
        ⟨(minColBits n d L - 2 - bits).toNat, by omega⟩
      obtain ⟨c, hc, r, hr, h⟩ := big (127 + k) (by omega) (by omega)
      refine ⟨c, hc, r, hr, ?_⟩
      rw [shiftAll_apply _ _ _ _ _ _ hc hr, hk]
      obtain ⟨h1, h2⟩ := mul2si_neg (L c r) k
      generalize mul2si (L c r) (-(k : Int)) = q at h1 h2
      have hp : (0 : ℤ) < 2 ^ k := by positivity
      rw [pow_add] at h
      by_contra hcon
      push Not at hcon
      rw [abs_lt] at hcon
      rcases abs_cases (L c r) with ⟨e, _⟩ | ⟨e, _⟩
      · rw [e] at h
        have : (q + 1) * 2 ^ k ≤ 2 ^ 127 * 2 ^ k := mul_le_mul_of_nonneg_right (by omega) hp.le
        rw [add_mul, one_mul] at this
        linarith
      · rw [e] at h
        have : (-(2 ^ 127) + 1) * 2 ^ k ≤ q * 2 ^ k := mul_le_mul_of_nonneg_right (by omega) hp.le
        rw [add_mul, one_mul, neg_mul] at this
        linarith
    · rename_i ht
      rw [if_neg ht] at hbbc
      simp only [] at hbbc ⊢
      exact big 127 (by norm_num) (by omega)
  · exact absurd hT (by simp)

theorem C32_128_witness : (liftTruncate128 1 1 (ofCols [[2 ^ 127]]) 0 0).map (fun T => T 0 0) = some 0 ∧
    (liftTruncate128 1 1 (ofCols [[2 ^ 127]]) 0 127).isNone = true := by decide

/-! ### `trunc` -/

/-- What is used of `(long) (x * 0.301029995)`, computed in double precision (relative error at most
`2^-52` on the product and the conversion): `ex x ≤ 0.3010299951 x`. -/
def Exp10 (ex : Int → Nat) : Prop := ∀ x : Int, 0 ≤ x → (ex x : Int) * 10 ^ 10 ≤ 3010299951 * x

theorem pow_bound : (10:ℕ) ^ 8651 ≤ 2 ^ 28738 := by decide +kernel

/-- Then `10^k ≤ 2^x` ("2^tau = 10^k" in the text is an inequality in the right direction). -/
theorem exp10_le {ex : Int → Nat} (h : Exp10 ex) (x : Int) (hx : 0 ≤ x) : (10:ℤ) ^ ex x ≤ 2 ^ x.toNat := by
  obtain ⟨y, rfl⟩ := Int.eq_ofNat_of_zero_le hx
  have h1 := h y hx
  set k := ex y
  have h2 : k * 28738 ≤ 8651 * y := by
    have : (k : Int) * 10 ^ 10 ≤ 3010299951 * y := h1
    norm_num at this
    omega
  have h3 : ((10:ℕ) ^ k) ^ 28738 ≤ (2 ^ y) ^ 28738 := by
    -- (10^k)^28738 = 10^(28738 k) ≤ 10^(8651 y) ≤ 2^(28738 y)
    calc ((10:ℕ) ^ k) ^ 28738 = 10 ^ (k * 28738) := by rw [pow_mul]
      _ ≤ 10 ^ (8651 * y) := Nat.pow_le_pow_right (by norm_num) h2
      _ = (10 ^ 8651) ^ y := by rw [pow_mul]
      _ ≤ (2 ^ 28738) ^ y := Nat.pow_le_pow_left pow_bound y
      _ = (2 ^ y) ^ 28738 := by rw [← pow_mul, ← pow_mul, Nat.mul_comm]
  have h4 : (10:ℕ) ^ k ≤ 2 ^ y := le_of_pow_le_pow_left₀ (by norm_num) (by positivity) h3
  simp only [Int.toNat_natCast]
  exact_mod_cast h4

theorem tdiv_tdiv (a : Int) (i j : ℕ) : (a.tdiv (10 ^ i)).tdiv (10 ^ j) = a.tdiv (10 ^ (i + j)) := by
  have key : ∀ x y z : ℕ, ((x : Int).tdiv (y : Int)).tdiv (z : Int) = (x : Int).tdiv ((y : Int) * z) := by
    intro x y z
    rw [← Int.natCast_mul]
    show ((x / y / z : ℕ) : Int) = ((x / (y * z) : ℕ) : Int)
    rw [Nat.div_div_eq_div_mul]
  have key2 : ∀ x : ℕ, ((x : Int).tdiv (10 ^ i)).tdiv (10 ^ j) = (x : Int).tdiv (10 ^ (i + j)) := by
    intro x
    have := key x (10 ^ i) (10 ^ j)
    push_cast at this
    rw [this, pow_add]
  rcases Int.natAbs_eq a with h | h
  · rw [h]; exact key2 _
  · rw [h, Int.neg_tdiv, Int.neg_tdiv, Int.neg_tdiv, key2]

theorem tdiv_ge {a : Int} {k m x : ℕ} (h : 2 ^ (x + m) ≤ |a|) (hk : (10:ℤ) ^ k ≤ 2 ^ x) :
    2 ^ m ≤ |a.tdiv (10 ^ k)| := by
  have h10 : (10 ^ k : Int).natAbs = 10 ^ k := by rw [Int.natAbs_pow]; rfl
  rw [Int.abs_eq_natAbs, Int.natAbs_tdiv, h10]
  rw [Int.abs_eq_natAbs] at h
  have h' : 2 ^ (x + m) ≤ a.natAbs := by exact_mod_cast h
  have hk' : (10:ℕ) ^ k ≤ 2 ^ x := by exact_mod_cast hk
  have : 2 ^ m ≤ a.natAbs / 10 ^ k := by
    rw [Nat.le_div_iff_mul_le (by positivity)]
    calc 2 ^ m * 10 ^ k ≤ 2 ^ m * 2 ^ x := Nat.mul_le_mul_left _ hk'
      _ = 2 ^ (x + m) := by ring
      _ ≤ _ := h'
  exact_mod_cast this

theorem diagLoop (d m : ℕ) (hdm : d ≤ m) (B : Mat Int) (c r : ℕ) :
    forRange d m (fun i B => setEntry B i (i - d) 1) B c r =
      if d ≤ r ∧ r < m ∧ c = r - d then 1 else B c r := by
  refine forRange_ind (fun m (X : Mat Int) => X c r =
    if d ≤ r ∧ r < m ∧ c = r - d then 1 else B c r) hdm _ _ (by rw [if_neg (by omega)]) ?_
  intro i X h1 h2 h
  rw [setEntry_apply, h]
  by_cases hc : c = i - d ∧ r = i
  · rw [if_pos hc, if_pos (by omega)]
  · rw [if_neg hc]
    by_cases h4 : d ≤ r ∧ r < i ∧ c = r - d
    · rw [if_pos h4, if_pos (by omega)]
    · rw [if_neg h4, if_neg (by omega)]

/-- **C32, `trunc`.** The upper part (`d` rows) is divided by `10^(k1+k2)`, the lower part by `10^k2`
(quotients rounded towards zero), where `10^k1 ≤ 2^tau`; nothing more is thrown away for `t ≤ 0`; for
`t > 0` either nothing more is thrown away or some entry keeps `t` bits.  For `t < 0` the lower part is
the identity. -/
theorem C32_trunc (ex : Int → Nat) (hex : Exp10 ex) (A B0 : Mat Int) (d n m : ℕ) (hdm : d ≤ m)
    (t tau : Int) : ∃ k1 k2 : ℕ,
    (10:ℤ) ^ k1 ≤ 2 ^ tau.toNat ∧
    (∀ i < d, ∀ j < n, trunc ex A d n m t tau B0 j i = (A j i).tdiv (10 ^ (k1 + k2))) ∧
    (0 ≤ t → ∀ i, d ≤ i → i < m → ∀ j < n, trunc ex A d n m t tau B0 j i = (A j i).tdiv (10 ^ k2)) ∧
    (t < 0 → ∀ i, d ≤ i → i < m → ∀ j < n, trunc ex A d n m t tau B0 j i = if j = i - d then 1 else 0) ∧
    (t ≤ 0 → k2 = 0) ∧
    (0 < t → k2 = 0 ∨ ∃ i < m, ∃ j < n, 2 ^ (t - 1).toNat ≤ |trunc ex A d n m t tau B0 j i|) := by
  -- upper part
  set B1 := (if tau > 0 then
      forRange 0 d (fun i B => forRange 0 n (fun j B =>
        setEntry B i j ((A j i).tdiv (10 ^ ex tau))) B) B0
    else forRange 0 d (fun i B => forRange 0 n (fun j B => setEntry B i j (A j i)) B) B0) with hB1
  obtain ⟨k1, hk1, hB1v⟩ : ∃ k1 : ℕ, (10:ℤ) ^ k1 ≤ 2 ^ tau.toNat ∧
      ∀ i < d, ∀ j < n, B1 j i = (A j i).tdiv (10 ^ k1) := by
    by_cases htau : tau > 0
    · refine ⟨ex tau, exp10_le hex tau htau.le, fun i hi j hj => ?_⟩
      rw [hB1, if_pos htau, fillAll d n (fun i j => (A j i).tdiv (10 ^ ex tau)), if_pos ⟨hi, hj⟩]
    · refine ⟨0, ?_, fun i hi j hj => ?_⟩
      · simp only [pow_zero]; exact one_le_pow₀ (by norm_num)
      · rw [hB1, if_neg htau, fillAll d n (fun i j => A j i), if_pos ⟨hi, hj⟩]; simp
  set M1 : ℕ := forRange 0 d (fun i l => forRange 0 n (fun j l => max l (sizeInBits (B1 j i))) l) 0 with hM1
  set M2 : ℕ := (if t > 0 then
      forRange d m (fun i l => forRange 0 n (fun j l => max l (sizeInBits (A j i))) l) M1
    else M1) with hM2
  have hval : trunc ex A d n m t tau B0 = if t < 0 then
      forRange d m (fun i B => setEntry B i (i - d) 1)
        (forRange d m (fun i B => forRange 0 n (fun j B => setEntry B i j 0) B) B1)
    else if t = 0 ∨ t ≥ M2 then
      forRange d m (fun i B => forRange 0 n (fun j B => setEntry B i j (A j i)) B) B1
    else
      forRange d m (fun i B => forRange 0 n (fun j B =>
        setEntry B i j ((A j i).tdiv (10 ^ ex (M2 - t)))) B)
        (forRange 0 d (fun i B => forRange 0 n (fun j B =>
          setEntry B i j ((B j i).tdiv (10 ^ ex (M2 - t)))) B) B1) := rfl
  rcases lt_trichotomy t 0 with ht | ht | ht
  · rw [if_pos ht] at hval
    refine ⟨k1, 0, hk1, fun i hi j hj => ?_, fun h => by omega, fun _ i h1 h2 j hj => ?_, fun _ => rfl,
      fun h => by omega⟩
    · rw [hval, diagLoop d m hdm, if_neg (by omega), fillRange d m n hdm (fun _ _ => 0),
        if_neg (by omega), hB1v i hi j hj]; simp
    · rw [hval, diagLoop d m hdm, fillRange d m n hdm (fun _ _ => 0)]
      by_cases hc : j = i - d
      · rw [if_pos ⟨h1, h2, hc⟩, if_pos hc]
      · rw [if_neg (by omega), if_pos ⟨h1, h2, hj⟩, if_neg hc]
  · rw [if_neg (by omega), if_pos (Or.inl ht)] at hval
    refine ⟨k1, 0, hk1, fun i hi j hj => ?_, fun _ i h1 h2 j hj => ?_, fun h => by omega, fun _ => rfl,
      fun h => by omega⟩
    · rw [hval, fillRange d m n hdm (fun i j => A j i), if_neg (by omega), hB1v i hi j hj]; simp
    · rw [hval, fillRange d m n hdm (fun i j => A j i), if_pos ⟨h1, h2, hj⟩]; simp
  · rw [if_neg (by omega)] at hval
    by_cases hM : t = 0 ∨ t ≥ M2
    · rw [if_pos hM] at hval
      refine ⟨k1, 0, hk1, fun i hi j hj => ?_, fun _ i h1 h2 j hj => ?_, fun h => by omega, fun _ => rfl,
        fun _ => Or.inl rfl⟩
      · rw [hval, fillRange d m n hdm (fun i j => A j i), if_neg (by omega), hB1v i hi j hj]; simp
      · rw [hval, fillRange d m n hdm (fun i j => A j i), if_pos ⟨h1, h2, hj⟩]; simp
    · rw [if_neg hM] at hval
      have hup : ∀ i < d, ∀ j < n, trunc ex A d n m t tau B0 j i = (B1 j i).tdiv (10 ^ ex (M2 - t)) := by
        intro i hi j hj
        rw [hval, fillRange d m n hdm (fun i j => (A j i).tdiv (10 ^ ex (M2 - t))), if_neg (by omega),
          updAll d n (fun x => x.tdiv (10 ^ ex (M2 - t))), if_pos ⟨hi, hj⟩]
      have hlo : ∀ i, d ≤ i → i < m → ∀ j < n,
          trunc ex A d n m t tau B0 j i = (A j i).tdiv (10 ^ ex (M2 - t)) := by
        intro i h1 h2 j hj
        rw [hval, fillRange d m n hdm (fun i j => (A j i).tdiv (10 ^ ex (M2 - t))),
          if_pos ⟨h1, h2, hj⟩]
      refine ⟨k1, ex (M2 - t), hk1, fun i hi j hj => ?_, fun _ => hlo, fun h => by omega,
        fun h => by omega, fun _ => Or.inr ?_⟩
      · rw [hup i hi j hj, hB1v i hi j hj, tdiv_tdiv]
      · -- an entry of maximal size
        have hle : ∀ x, M2 ≤ x ↔ (∀ i < d, ∀ j < n, sizeInBits (B1 j i) ≤ x) ∧
            ∀ i, d ≤ i → i < m → ∀ j < n, sizeInBits (A j i) ≤ x := by
          intro x
          rw [hM2, if_pos ht, forRange_max2 (fun i j => sizeInBits (A j i)), hM1,
            forRange_max2 (fun i j => sizeInBits (B1 j i))]
          simp
        have hbig : ∀ a : Int, ¬ sizeInBits a ≤ M2 - 1 → 2 ^ (t - 1).toNat ≤ |a.tdiv (10 ^ ex (M2 - t))| := by
          intro a ha
          push Not at hM
          refine tdiv_ge (x := ((M2 : Int) - t).toNat) (le_of_sizeInBits ?_ ?_)
            (exp10_le hex _ (by omega))
          · omega
          · omega
        have hnot : ¬ M2 ≤ M2 - 1 := by push Not at hM; omega
        rw [hle] at hnot
        by_cases hA : ∀ i < d, ∀ j < n, sizeInBits (B1 j i) ≤ M2 - 1
        · have : ¬ ∀ i, d ≤ i → i < m → ∀ j < n, sizeInBits (A j i) ≤ M2 - 1 := fun h => hnot ⟨hA, h⟩
          push Not at this
          obtain ⟨i, h1, h2, j, hj, h⟩ := this
          exact ⟨i, h2, j, hj, by rw [hlo i h1 h2 j hj]; exact hbig _ (by omega)⟩
        · push Not at hA
          obtain ⟨i, hi, j, hj, h⟩ := hA
          exact ⟨i, by omega, j, hj, by rw [hup i hi j hj]; exact hbig _ (by omega)⟩

/-- `Exp10` is satisfied by exact arithmetic on the constant of the text. -/
theorem exp10_exact : Exp10 fun x => (x * 301029995 / 10 ^ 9).toNat := by
  intro x hx
  norm_num
  have : 0 ≤ x * 301029995 / 1000000000 := by positivity
  rw [max_eq_left this]
  omega

example : toCols 2 2 (trunc (fun x => (x * 301029995 / 10 ^ 9).toNat) (ofCols [[123456, -987], [-54321, 99]])
    1 2 2 8 4 fun _ _ => 0) = [[1234, -98], [-543, 9]] := by decide

end HPLLL.Props
