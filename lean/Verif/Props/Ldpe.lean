import Verif.Proof.LdpeConv

/-!
# C57, C58, C59: the numbers `ldpe_t`
-/

namespace HPLLL.Props
open HPLLL.Ldpe HPLLL.Spec

/-- Zero as `ldpe_set_d(x, 0)` gives it. -/
def ldZero : Num := ⟨0, intMin⟩
/-- One. -/
def ldOne : Num := ⟨1 / 2, 1⟩
/-- A memory with three numbers. -/
def mem3 (a b c : Num) : Mem := fun i => if i = 0 then a else if i = 1 then b else c

theorem ldZero_normal : ldZero.Normal := Or.inl ⟨rfl, rfl⟩

theorem normal_of {k : ℤ} {e : ℤ} (h1 : 2 ^ 63 ≤ |k|) (h2 : |k| < 2 ^ 64) (h3 : intMin ≤ e)
    (h4 : e ≤ intMax) : Num.Normal ⟨k / 2 ^ 64, e⟩ := by
  right
  have h1' : (2 : ℚ) ^ 63 ≤ |(k : ℚ)| := by exact_mod_cast h1
  have h2' : |(k : ℚ)| < 2 ^ 64 := by exact_mod_cast h2
  refine ⟨?_, ?_, ⟨k, -64, h2, ?_⟩, h3, h4⟩
  · simp only [abs_div]
    rw [abs_of_pos (by norm_num : (0 : ℚ) < 2 ^ 64), le_div_iff₀ (by norm_num)]
    linarith
  · simp only [abs_div]
    rw [abs_of_pos (by norm_num : (0 : ℚ) < 2 ^ 64), div_lt_iff₀ (by norm_num)]
    linarith
  · rw [zpow_neg, div_eq_mul_inv]; norm_cast

/-! ## C57: arithmetic -/

/-- **C57** (addition).  On normalised operands — `x`, `y`, `z` may be the same variable — only
`x` changes, it is normalised, the error is at most `2^-64` of the result, and the result is the
nearest number of 64 bits, except in the cases `Missed` where it is not. -/
theorem C57_add {m m' : Mem} {x y z : Nat} (h : add m x y z = some m') (hy : (m y).Normal)
    (hz : (m z).Normal) :
    Only x m m' ∧ (m' x).Normal ∧
    |(m y).val + (m z).val - (m' x).val| ≤ 2 ^ (-64 : ℤ) * |(m' x).val| ∧
    (Nearest 64 (((m y).val + (m z).val : ℚ)) (m' x).val ↔
      ¬ (Missed (m y) (m z) ∨ Missed (m z) (m y))) := by
  obtain ⟨a, b, c⟩ := add_cases h hy hz
  refine ⟨a, b, ?_⟩
  rcases c with ⟨c1, c2⟩ | ⟨c1, c2⟩ | c
  · rw [c2]
    refine ⟨by rw [add_sub_cancel_left]; exact exit_err hy hz c1, ?_⟩
    rw [exit_near hy hz c1]
    have : ¬ Missed (m z) (m y) := fun hm => by have := hm.2.2.1; omega
    tauto
  · rw [c2]
    refine ⟨by rw [add_sub_cancel_right]; exact exit_err hz hy c1, ?_⟩
    rw [add_comm, exit_near hz hy c1]
    have : ¬ Missed (m y) (m z) := fun hm => by have := hm.2.2.1; omega
    tauto
  · obtain ⟨e1, e2, c⟩ := c
    rw [c]
    refine ⟨rnd_err' _, ?_⟩
    have h1 : ¬ Missed (m y) (m z) := fun hm => by have := hm.2.2.1; omega
    have h2 : ¬ Missed (m z) (m y) := fun hm => by have := hm.2.2.1; omega
    simp only [h1, h2, or_self, not_false_eq_true, iff_true]
    exact rnd_near (p := 64) (by norm_num) _

/-- **C57** (subtraction): the same, with the opposite of `z`. -/
theorem C57_sub {m m' : Mem} {x y z : Nat} (h : sub m x y z = some m') (hy : (m y).Normal)
    (hz : (m z).Normal) :
    Only x m m' ∧ (m' x).Normal ∧
    |(m y).val - (m z).val - (m' x).val| ≤ 2 ^ (-64 : ℤ) * |(m' x).val| ∧
    (Nearest 64 (((m y).val - (m z).val : ℚ)) (m' x).val ↔
      ¬ (Missed (m y) ⟨-(m z).mant, (m z).exp⟩ ∨ Missed ⟨-(m z).mant, (m z).exp⟩ (m y))) := by
  obtain ⟨a, b, c⟩ := sub_cases h hy hz
  have hv : Num.val ⟨-(m z).mant, (m z).exp⟩ = -(m z).val := by simp [Num.val]
  refine ⟨a, b, ?_⟩
  rcases c with ⟨c1, c2⟩ | ⟨c1, c2⟩ | ⟨e1, e2, c⟩
  · rw [c2]
    refine ⟨?_, ?_⟩
    · rw [sub_sub_cancel_left, abs_neg]
      exact exit_err hy hz c1
    · have := exit_near hy hz.neg c1
      rw [hv, ← sub_eq_add_neg] at this
      rw [this]
      have : ¬ Missed ⟨-(m z).mant, (m z).exp⟩ (m y) := fun hm => by
        have := hm.2.2.1; simp only at this; omega
      tauto
  · rw [c2]
    refine ⟨?_, ?_⟩
    · rw [hv, sub_neg_eq_add, sub_add_cancel, abs_neg]
      exact exit_err hz hy c1
    · have := exit_near hz.neg hy c1
      rw [hv, neg_add_eq_sub] at this
      rw [hv, this]
      have : ¬ Missed (m y) ⟨-(m z).mant, (m z).exp⟩ := fun hm => by
        have := hm.2.2.1; simp only at this; omega
      tauto
  · rw [c]
    refine ⟨rnd_err' _, ?_⟩
    have h1 : ¬ Missed (m y) ⟨-(m z).mant, (m z).exp⟩ := fun hm => by
      have := hm.2.2.1; simp only at this; omega
    have h2 : ¬ Missed ⟨-(m z).mant, (m z).exp⟩ (m y) := fun hm => by
      have := hm.2.2.1; simp only at this; omega
    simp only [h1, h2, or_self, not_false_eq_true, iff_true]
    exact rnd_near (p := 64) (by norm_num) _

/-- **C57** (product): correctly rounded and normalised, for any operands. -/
theorem C57_mul {m m' : Mem} {x y z : Nat} (h : mul m x y z = some m') :
    Only x m m' ∧ (m' x).Normal ∧ Nearest 64 (((m y).val * (m z).val : ℚ)) (m' x).val := by
  obtain ⟨a, b, c⟩ := mul_spec h
  refine ⟨a, b, ?_⟩
  rw [c]
  exact rnd_near (p := 64) (by norm_num) _

/-- **C57** (quotient). -/
theorem C57_div {m m' : Mem} {x y z : Nat} (h : div m x y z = some m') :
    Only x m m' ∧ (m' x).Normal ∧ Nearest 64 (((m y).val / (m z).val : ℚ)) (m' x).val := by
  obtain ⟨a, b, c⟩ := div_spec h
  refine ⟨a, b, ?_⟩
  rw [c]
  exact rnd_near (p := 64) (by norm_num) _

/-- **C57** (square root of a positive number). -/
theorem C57_sqrt {m : Mem} {x y : Nat} (hy : (m y).Normal) (h0 : 0 < (m y).val)
    (he : (m y).exp < intMax) :
    ∃ m', sqrt m x y = some m' ∧ Only x m m' ∧ (m' x).Normal ∧
      Nearest 64 (Real.sqrt ((m y).val : ℝ)) (m' x).val := by
  have h0' : 0 < (m y).mant := by
    have hp : (0 : ℚ) < 2 ^ (m y).exp := by positivity
    exact (mul_pos_iff_of_pos_right hp).mp h0
  have hs : ∃ m', sqrt m x y = some m' := by
    unfold sqrt
    simp only [Option.bind_eq_bind]
    have hl : intMin ≤ (m y).exp := by
      rcases hy with h | h
      · rw [h.2]
      · exact h.2.2.2.1
    by_cases ho : Int.tmod (m y).exp 2 ≠ 0
    · rw [if_pos ho, chk_ok (by omega) (by omega)]; exact ⟨_, rfl⟩
    · rw [if_neg ho]; exact ⟨_, rfl⟩
  obtain ⟨m', h⟩ := hs
  exact ⟨m', h, sqrt_spec h hy h0'⟩

/-- **C57** (definedness).  With exponents far from the limits of `int`, sums and differences are
always defined; products and quotients are when no operand is zero. -/
theorem C57_defined {m : Mem} {x y z : Nat} (hy : (m y).Normal) (hz : (m z).Normal)
    (uy : (m y).Usual) (uz : (m z).Usual) :
    (∃ m', add m x y z = some m') ∧ (∃ m', sub m x y z = some m') ∧
    ((m y).val ≠ 0 → (m z).val ≠ 0 →
      (∃ m', mul m x y z = some m') ∧ (∃ m', div m x y z = some m')) := by
  refine ⟨add_isSome hy hz uy uz, sub_isSome hy hz uy uz, fun y0 z0 => ?_⟩
  have y0' : (m y).mant ≠ 0 := fun h => y0 (Num.val_eq_zero.mpr h)
  have z0' : (m z).mant ≠ 0 := fun h => z0 (Num.val_eq_zero.mpr h)
  have ey : (m y).Mild := uy.resolve_left y0'
  have ez : (m z).Mild := uz.resolve_left z0'
  unfold Num.Mild at ey ez
  exact ⟨mul_isSome hy hz y0' z0' (by simp only [intMin]; omega) (by simp only [intMax]; omega),
    div_isSome hy hz y0' z0' (by simp only [intMin]; omega) (by simp only [intMax]; omega)⟩

/-- **C57** (zero).  The product of zero by a number `z` is a signed overflow of the exponent —
undefined behaviour — exactly when the exponent of `z` is negative; the quotient of zero by `z`,
exactly when it is positive.  Otherwise the result is the normalised zero. -/
theorem C57_zero {m : Mem} {x y z : Nat} (hy : m y = ldZero) (hz : (m z).Normal) :
    (mul m x y z = none ↔ (m z).exp < 0) ∧ (mul m x z y = none ↔ (m z).exp < 0) ∧
    (div m x y z = none ↔ 0 < (m z).exp) ∧
    (∀ m', mul m x y z = some m' → m' x = ldZero) ∧
    (∀ m', div m x y z = some m' → m' x = ldZero) := by
  have hy1 : (m y).mant = 0 := by rw [hy]; rfl
  have hy2 : (m y).exp = intMin := by rw [hy]; rfl
  have hr : intMin ≤ (m z).exp ∧ (m z).exp ≤ intMax := by
    rcases hz with h | h
    · rw [h.2]; simp [intMin, intMax]
    · exact h.2.2.2
  have r0 : rnd 64 0 = 0 := by simp [rnd]
  have zero_of : ∀ w : Num, w.Normal → w.val = 0 → w = ldZero := by
    intro w hw h0
    have hm := Num.val_eq_zero.mp h0
    rcases hw with h | h
    · cases w; simp only at h; simp [ldZero, h]
    · rw [hm] at h; norm_num at h
  have hv : (m y).val = 0 := Num.val_eq_zero.mpr hy1
  have nrm : ∀ e, normalize (setExp (setMant m x 0) x e) x ≠ none := by
    intro e; simp [normalize]
  simp only [intMin, intMax] at hr hy2
  refine ⟨?_, ?_, ?_, ?_, ?_⟩
  · unfold mul
    simp only [Option.bind_eq_bind, setMant_exp, hy1, hy2, zero_mul, r0]
    by_cases h : (m z).exp < 0
    · simp [chk, h, intMin, intMax]
    · rw [chk_ok (by simp only [intMin]; omega) (by simp only [intMax]; omega)]
      simp only [Option.bind_some, h, iff_false]
      exact nrm _
  · unfold mul
    simp only [Option.bind_eq_bind, setMant_exp, hy1, hy2, mul_zero, r0]
    by_cases h : (m z).exp < 0
    · simp [chk, h, intMin, intMax]
    · rw [chk_ok (by simp only [intMin]; omega) (by simp only [intMax]; omega)]
      simp only [Option.bind_some, h, iff_false]
      exact nrm _
  · unfold div
    simp only [Option.bind_eq_bind, setMant_exp, hy1, hy2, zero_div, r0]
    by_cases h : 0 < (m z).exp
    · simp [chk, h, intMin, intMax]
    · rw [chk_ok (by simp only [intMin]; omega) (by simp only [intMax]; omega)]
      simp only [Option.bind_some, h, iff_false]
      exact nrm _
  · intro m' h
    obtain ⟨-, b, c⟩ := mul_spec h
    exact zero_of _ b (by rw [c, hv, zero_mul, r0])
  · intro m' h
    obtain ⟨-, b, c⟩ := div_spec h
    exact zero_of _ b (by rw [c, hv, zero_div, r0])

/-- The comment of `ldpe_add` ("thus `o(y+z) = y`") is not right: `1 - 3·2^-67` is rounded to 1
although `1 - 2^-64` is nearer. -/
theorem C57_add_witness :
    (mem3 ldOne ldOne ⟨-3 / 4, -64⟩ 1).Normal ∧ (mem3 ldOne ldOne ⟨-3 / 4, -64⟩ 2).Normal ∧
    Missed ldOne ⟨-3 / 4, -64⟩ ∧
    ((add (mem3 ldOne ldOne ⟨-3 / 4, -64⟩) 0 1 2).map fun m => m 0) = some ldOne := by
  refine ⟨?_, ?_, ?_, ?_⟩
  · have := normal_of (k := 2 ^ 63) (e := 1) (by norm_num) (by norm_num) (by decide) (by decide)
    norm_num at this
    exact this
  · have := normal_of (k := -(3 * 2 ^ 62)) (e := -64) (by norm_num) (by norm_num) (by decide)
      (by decide)
    norm_num at this
    have e : (mem3 ldOne ldOne ⟨-3 / 4, -64⟩ 2) = ⟨-3 / 4, -64⟩ := rfl
    rw [e]
    convert this using 2
    norm_num
  · unfold Missed ldOne; norm_num
  · decide +kernel

/-- In place: `x + x` with `x = 1` is 2, `x * x` with `x = 2` is 4, `sqrt(4)` is 2. -/
example : ((add (mem3 ldOne ldOne ldOne) 0 0 0).map fun m => m 0) = some ⟨1 / 2, 2⟩ ∧
    ((mul (mem3 ⟨1 / 2, 2⟩ ldOne ldOne) 0 0 0).map fun m => m 0) = some ⟨1 / 2, 3⟩ ∧
    ((sqrt (mem3 ⟨1 / 2, 3⟩ ldOne ldOne) 0 0).map fun m => m 0) = some ⟨1 / 2, 2⟩ ∧
    ((sub (mem3 ldOne ldOne ⟨1 / 2, 0⟩) 2 1 2).map fun m => m 2) = some ⟨1 / 2, 0⟩ := by
  refine ⟨?_, ?_, ?_, ?_⟩ <;> decide +kernel

/-- `0 * 1/4` and `0 / 2` are undefined behaviour. -/
example : mul (mem3 ldZero ldZero ⟨1 / 2, -1⟩) 0 1 2 = none ∧
    div (mem3 ldZero ldZero ⟨1 / 2, 2⟩) 0 1 2 = none := by
  constructor <;> simp [mul, div, mem3, ldZero, chk, intMin, intMax]

/-! ## C58: comparisons and the zeros -/

/-- **C58**: on normalised numbers the comparison is the order of the values. -/
theorem C58_cmp {x y : Num} (hx : x.Normal) (hy : y.Normal) :
    (cmp x y < 0 ↔ x.val < y.val) ∧ (cmp x y = 0 ↔ x.val = y.val) ∧
      (0 < cmp x y ↔ y.val < x.val) := cmp_spec hx hy

/-- **C58**: the comparison with a `double`, and the sign. -/
theorem C58_cmp_double {x : Num} (hx : x.Normal) {d : ℚ} (hd : IsFloat 53 d) {c : ℤ}
    (h : cmpD x d = some c) :
    (c < 0 ↔ x.val < d) ∧ (c = 0 ↔ x.val = d) ∧ (0 < c ↔ d < x.val) := by
  unfold cmpD at h
  simp only [Option.bind_eq_bind, Option.bind_eq_some_iff, Option.some.injEq] at h
  obtain ⟨m, hm, rfl⟩ := h
  obtain ⟨-, b, e⟩ := setD_spec hm
  have := cmp_spec hx b
  rw [e] at this
  have hr := rnd_float (p := 53) (by norm_num) hd
  simp only [Nat.cast_ofNat] at hr
  rw [hr] at this
  exact this

/-- **C58**: the sign function on normalised numbers is always defined. -/
theorem C58_sgn {x : Num} (hx : x.Normal) : ∃ c, cmpD x 0 = some c ∧
    (c < 0 ↔ x.val < 0) ∧ (c = 0 ↔ x.val = 0) ∧ (0 < c ↔ 0 < x.val) := by
  have h0 : ∃ c, cmpD x 0 = some c := by
    unfold cmpD setD normalize
    simp [rnd]
  obtain ⟨c, hc⟩ := h0
  exact ⟨c, hc, C58_cmp_double hx ⟨0, 0, by norm_num, by simp⟩ hc⟩

/-- **C58** (negation): functions of the API give zeros which are not normalised: the
conversion of the integer 0, the square root of 0, `0 * 2^e` — and `0 * 2^-1` is undefined. -/
theorem C58_zeros (m : Mem) (x y : Nat) (hy : m y = ldZero) (e : ℤ) (he : 0 < e)
    (he' : e ≤ intMax) :
    (setZ m x 0 x = ⟨0, 0⟩) ∧
    (∃ m', sqrt m x y = some m' ∧ m' x = ⟨0, -(2 ^ 30)⟩) ∧
    (∃ m', mul2si m x y e = some m' ∧ m' x = ⟨0, intMin + e⟩) ∧
    mul2si m x y (-e) = none := by
  have hy1 : (m y).mant = 0 := by rw [hy]; rfl
  have hy2 : (m y).exp = intMin := by rw [hy]; rfl
  refine ⟨?_, ?_, ?_, ?_⟩
  · simp [setZ, getLd2exp, rnd]
  · have : Int.tmod intMin 2 = 0 := by decide
    have h2 : Int.tdiv intMin 2 = -(2 ^ 30) := by decide
    simp only [sqrt, hy1, hy2, this, ne_eq, not_true_eq_false, if_false, h2, if_true]
    exact ⟨_, rfl, by simp⟩
  · simp only [mul2si, Option.bind_eq_bind, setMant_exp, hy1, hy2]
    simp only [intMin, intMax] at *
    rw [chk_ok (by simp only [intMin]; omega) (by simp only [intMax]; omega)]
    exact ⟨_, rfl, by simp⟩
  · simp only [mul2si, Option.bind_eq_bind, setMant_exp, hy2]
    simp only [intMin, intMax] at *
    rw [show chk (-2147483648 + -e) = none by simp [chk, intMin, intMax, he]]
    rfl

/-- **C58** (negation): for a zero `w` whose exponent is not the least, `sgn` is negative and `w`
compares as less than zero; and if its exponent exceeds the one of `z` by more than 64, the sum
`w + z` is zero whatever `z` is. -/
theorem C58_bad_zero {w : Num} (h0 : w.mant = 0) (he : intMin < w.exp) :
    w.val = 0 ∧ cmpD w 0 = some (-1) ∧ cmp w ldZero = -1 ∧ cmp ldZero w = 1 ∧
    (∀ (m : Mem) (x y z : Nat), m y = w → intMin ≤ (m z).exp + 64 → (m z).exp + 64 < w.exp →
      w.exp ≤ intMax → ∃ m', add m x y z = some m' ∧ (m' x).val = 0) := by
  have hc : cmp w ldZero = -1 := by
    simp [Ldpe.cmp, h0, ldZero, sign, he]
  refine ⟨Num.val_eq_zero.mpr h0, ?_, hc, ?_, ?_⟩
  · have : cmpD w 0 = some (cmp w ldZero) := by
      simp [cmpD, setD, normalize, rnd, ldZero]
    rw [this, hc]
  · simp [Ldpe.cmp, h0, ldZero, sign, he, he.le]
  · intro m x y z hy h1 h2 h3
    refine ⟨set m x y, ?_, ?_⟩
    · unfold add
      rw [chk_ok h1 (by omega), hy]
      simp [h2]
    · rw [(set_spec m x y).2, hy]
      exact Num.val_eq_zero.mpr h0

/-- The sum of the integer 0, converted, and of `2^-66` is zero. -/
example : ∃ m', add (setZ (mem3 ldOne ldOne ⟨1 / 2, -65⟩) 1 0) 0 1 2 = some m' ∧ (m' 0).val = 0 := by
  have hw := C58_bad_zero (w := ⟨0, 0⟩) rfl (by decide)
  refine hw.2.2.2.2 _ 0 1 2 ?_ ?_ ?_ (by decide)
  · exact (C58_zeros (mem3 ldOne ldZero ⟨1 / 2, -65⟩) 1 1 rfl 1 (by decide) (by decide)).1 ▸ by
      simp [setZ, getLd2exp, rnd]
  · rw [show setZ (mem3 ldOne ldOne ⟨1 / 2, -65⟩) 1 0 2 = ⟨1 / 2, -65⟩ by
      simp [setZ, setMant, setExp, mem3]]
    decide
  · rw [show setZ (mem3 ldOne ldOne ⟨1 / 2, -65⟩) 1 0 2 = ⟨1 / 2, -65⟩ by
      simp [setZ, setMant, setExp, mem3]]
    decide

/-! ## C59: roundings to integers and conversions -/

theorem fracPart_eq (q : ℚ) : q - truncZ q = fracPart q := by
  unfold truncZ fracPart Int.fract
  split_ifs
  · rfl
  · push_cast; ring

theorem roundAway_nearest (q : ℚ) : NearestInt q (roundAway q) := by
  refine ⟨roundAway_err q, fun h => ?_⟩
  unfold roundAway at h ⊢
  split_ifs at h ⊢ with h0
  · have h1 := Int.floor_le (q + 1 / 2)
    have h2 := Int.lt_floor_add_one (q + 1 / 2)
    rcases abs_eq (by norm_num : (0 : ℚ) ≤ 1 / 2) |>.mp h with h | h
    · linarith
    · rw [abs_of_nonneg h0, abs_of_nonneg (by linarith)]; linarith
  · push Not at h0
    have h1 := Int.floor_le (-q + 1 / 2)
    have h2 := Int.lt_floor_add_one (-q + 1 / 2)
    push_cast at h ⊢
    rcases abs_eq (by norm_num : (0 : ℚ) ≤ 1 / 2) |>.mp h with h | h
    · rw [abs_of_neg h0, abs_of_nonpos (by linarith)]; linarith
    · linarith

/-- `NearestInt` determines the integer. -/
theorem nearestInt_unique {q : ℚ} {n k : ℤ} (hn : NearestInt q n) (hk : NearestInt q k) : n = k := by
  by_contra hne
  have h1 : (1 : ℚ) ≤ |(n : ℚ) - k| := by
    have : (1 : ℤ) ≤ |n - k| := Int.one_le_abs (by omega)
    exact_mod_cast this
  have h2 : |(n : ℚ) - k| ≤ |q - n| + |q - k| := by
    rw [abs_sub_comm q n]
    have := abs_add_le ((n : ℚ) - q) (q - k)
    simpa using this
  have e1 : |q - n| = 1 / 2 := by linarith [hn.1, hk.1]
  have e2 : |q - k| = 1 / 2 := by linarith [hn.1, hk.1]
  have a := hn.2 e1
  have b := hk.2 e2
  rcases abs_eq (by norm_num : (0 : ℚ) ≤ 1 / 2) |>.mp e1 with c | c <;>
    rcases abs_eq (by norm_num : (0 : ℚ) ≤ 1 / 2) |>.mp e2 with d | d
  · apply hne; have : (n : ℚ) = k := by linarith
    exact_mod_cast this
  · -- n = q - 1/2, k = q + 1/2
    have hn' : (n : ℚ) = q - 1 / 2 := by linarith
    have hk' : (k : ℚ) = q + 1 / 2 := by linarith
    rw [hn'] at a; rw [hk'] at b
    rcases le_total 0 q with h | h
    · have : |q - 1 / 2| ≤ |q| := by
        rw [abs_of_nonneg h, abs_le]
        by_cases hq : (1 / 4 : ℚ) ≤ q
        · constructor <;> linarith
        · exfalso
          -- q ≥ 0, q < 1/4 and q - 1/2 is an integer
          have h3 : (-1 : ℚ) < n := by linarith
          have h4 : (n : ℚ) < 0 := by linarith
          have h3' : (-1 : ℤ) < n := by exact_mod_cast h3
          have h4' : n < (0 : ℤ) := by exact_mod_cast h4
          omega
      linarith
    · have : |q + 1 / 2| ≤ |q| := by
        rw [abs_of_nonpos h, abs_le]
        by_cases hq : q ≤ -(1 / 4 : ℚ)
        · constructor <;> linarith
        · exfalso
          have h3 : (0 : ℚ) < k := by linarith
          have h4 : (k : ℚ) < 1 := by linarith
          have h3' : (0 : ℤ) < k := by exact_mod_cast h3
          have h4' : k < (1 : ℤ) := by exact_mod_cast h4
          omega
      linarith
  · have hn' : (n : ℚ) = q + 1 / 2 := by linarith
    have hk' : (k : ℚ) = q - 1 / 2 := by linarith
    rw [hn'] at a; rw [hk'] at b
    rcases le_total 0 q with h | h
    · have : |q - 1 / 2| ≤ |q| := by
        rw [abs_of_nonneg h, abs_le]
        by_cases hq : (1 / 4 : ℚ) ≤ q
        · constructor <;> linarith
        · exfalso
          have h3 : (-1 : ℚ) < k := by linarith
          have h4 : (k : ℚ) < 0 := by linarith
          have h3' : (-1 : ℤ) < k := by exact_mod_cast h3
          have h4' : k < (0 : ℤ) := by exact_mod_cast h4
          omega
      linarith
    · have : |q + 1 / 2| ≤ |q| := by
        rw [abs_of_nonpos h, abs_le]
        by_cases hq : q ≤ -(1 / 4 : ℚ)
        · constructor <;> linarith
        · exfalso
          have h3 : (0 : ℚ) < n := by linarith
          have h4 : (n : ℚ) < 1 := by linarith
          have h3' : (0 : ℤ) < n := by exact_mod_cast h3
          have h4' : n < (1 : ℤ) := by exact_mod_cast h4
          omega
      linarith
  · apply hne; have : (n : ℚ) = k := by linarith
    exact_mod_cast this

/-- What the four rounding functions give, `R` being the true value: `R` itself from `2^63` on, the
number of 53 bits nearest to `R` below; hence `R` itself when it has at most 53 bits. -/
def Via53 (y : Num) (R v : ℚ) : Prop :=
  (64 ≤ y.exp → v = R) ∧ (y.exp < 64 → Nearest 53 R v) ∧ (IsFloat 53 R → v = R)

theorem via53 {y : Num} {R v : ℚ} (h : v = if 64 ≤ y.exp then R else rnd 53 R) : Via53 y R v := by
  refine ⟨fun h1 => by rw [h, if_pos h1], fun h1 => ?_, fun h1 => ?_⟩
  · rw [h, if_neg (by omega)]; exact rnd_near (p := 53) (by norm_num) R
  · rw [h]; split_ifs
    · rfl
    · exact rnd_float (p := 53) (by norm_num) h1

/-- **C59** (`rnd`): always defined; gives the nearest integer, passed through a `double` below
`2^63`. -/
theorem C59_round {m : Mem} {x y : Nat} (hy : (m y).Normal) :
    ∃ m', round m x y = some m' ∧ Only x m m' ∧ (m' x).Normal ∧
      ∃ n : ℤ, NearestInt (m y).val n ∧ Via53 (m y) n (m' x).val := by
  obtain ⟨m', h⟩ := round_isSome (x := x) hy
  obtain ⟨a, b, c⟩ := round_spec h hy
  exact ⟨m', h, a, b, roundAway (m y).val, roundAway_nearest _, via53 c⟩

/-- **C59** (`floor`). -/
theorem C59_floor {m : Mem} {x y : Nat} (hy : (m y).Normal) :
    ∃ m', floor m x y = some m' ∧ Only x m m' ∧ (m' x).Normal ∧
      Via53 (m y) ⌊(m y).val⌋ (m' x).val := by
  obtain ⟨m', h⟩ := floor_isSome (x := x) hy
  obtain ⟨a, b, c⟩ := floor_spec h hy
  exact ⟨m', h, a, b, via53 c⟩

/-- **C59** (`ceil`). -/
theorem C59_ceil {m : Mem} {x y : Nat} (hy : (m y).Normal) :
    ∃ m', ceil m x y = some m' ∧ Only x m m' ∧ (m' x).Normal ∧
      Via53 (m y) ⌈(m y).val⌉ (m' x).val := by
  obtain ⟨m', h⟩ := ceil_isSome (x := x) hy
  obtain ⟨a, b, c⟩ := ceil_spec h hy
  exact ⟨m', h, a, b, via53 c⟩

/-- **C59** (`frac`): the fractional part, exact for numbers less than 1 in absolute value and
from `2^63` on, passed through a `double` between. -/
theorem C59_frac {m m' : Mem} {x y : Nat} (hy : (m y).Normal) (h : frac m x y = some m') :
    Only x m m' ∧ (m' x).Normal ∧
      ((m y).exp ≤ 0 ∨ 64 ≤ (m y).exp → (m' x).val = fracPart (m y).val) ∧
      (0 < (m y).exp → (m y).exp < 64 → Nearest 53 (fracPart (m y).val) (m' x).val) := by
  obtain ⟨a, b, c⟩ := frac_spec h hy
  rw [fracPart_eq] at c
  refine ⟨a, b, fun h1 => by rw [c, if_pos h1], fun h1 h2 => ?_⟩
  rw [c, if_neg (by omega)]
  exact rnd_near (p := 53) (by norm_num) _

/-- The integers up to `2^53` are exact: below this bound the three functions are the exact
ones. -/
theorem C59_exact {m m' : Mem} {x y : Nat} (hy : (m y).Normal) (h53 : |(m y).val| ≤ 2 ^ 53) :
    (round m x y = some m' → ∃ n : ℤ, NearestInt (m y).val n ∧ (m' x).val = n) ∧
    (floor m x y = some m' → (m' x).val = ⌊(m y).val⌋) ∧
    (ceil m x y = some m' → (m' x).val = ⌈(m y).val⌉) := by
  have hb := abs_le.mp h53
  have le53 : ∀ n : ℤ, |(n : ℚ)| < 2 ^ 53 + 1 → IsFloat 53 (n : ℚ) := by
    intro n hn
    have : |n| < 2 ^ 53 + 1 := by exact_mod_cast hn
    exact IsFloat.int (by omega) (by norm_num)
  refine ⟨fun h => ?_, fun h => ?_, fun h => ?_⟩
  · obtain ⟨m'', h'', -, -, n, hn, hv⟩ := C59_round (x := x) hy
    rw [h] at h''
    cases Option.some.inj h''
    refine ⟨n, hn, hv.2.2 (le53 n ?_)⟩
    have := abs_le.mp hn.1
    rw [abs_lt]; constructor <;> linarith
  · obtain ⟨m'', h'', -, -, hv⟩ := C59_floor (x := x) hy
    rw [h] at h''
    cases Option.some.inj h''
    refine hv.2.2 (le53 _ ?_)
    have h1 := Int.floor_le (m y).val
    have h2 : (-(2 ^ 53) : ℤ) ≤ ⌊(m y).val⌋ := Int.le_floor.mpr (by push_cast; linarith)
    have h2' : (-(2 ^ 53) : ℚ) ≤ ⌊(m y).val⌋ := by exact_mod_cast h2
    rw [abs_lt]; constructor <;> linarith
  · obtain ⟨m'', h'', -, -, hv⟩ := C59_ceil (x := x) hy
    rw [h] at h''
    cases Option.some.inj h''
    refine hv.2.2 (le53 _ ?_)
    have h1 := Int.le_ceil (m y).val
    have h2 : ⌈(m y).val⌉ ≤ (2 ^ 53 : ℤ) := Int.ceil_le.mpr (by push_cast; linarith)
    have h2' : (⌈(m y).val⌉ : ℚ) ≤ 2 ^ 53 := by exact_mod_cast h2
    rw [abs_lt]; constructor <;> linarith

/-- **C59** (negation): with the 64-bit integers `2^54 + 3`, `2^54 - 1`, `2^54 + 1` and the number
`2 - 2^-63`: the "integer nearest to y" is not y, "largest integer ≤ y" is greater than y, the
"smallest integer ≥ y" is smaller than y and the fractional part is 1. -/
theorem C59_witness :
    ((round (fun _ => ⟨(2 ^ 54 + 3) / 2 ^ 55, 55⟩) 0 0).map fun m => (m 0).mant * pow2 (m 0).exp)
      = some (2 ^ 54 + 4) ∧
    ((floor (fun _ => ⟨(2 ^ 54 - 1) / 2 ^ 54, 54⟩) 0 0).map fun m => (m 0).mant * pow2 (m 0).exp)
      = some (2 ^ 54) ∧
    ((ceil (fun _ => ⟨(2 ^ 54 + 1) / 2 ^ 55, 55⟩) 0 0).map fun m => (m 0).mant * pow2 (m 0).exp)
      = some (2 ^ 54) ∧
    ((frac (fun _ => ⟨(2 ^ 64 - 1) / 2 ^ 64, 1⟩) 0 0).map fun m => (m 0).mant * pow2 (m 0).exp)
      = some 1 := by
  refine ⟨?_, ?_, ?_, ?_⟩ <;> decide +kernel

/-- **C59** (`get_si_exp`): below `2^63` the exponent is 0 and the long is the truncated value —
the value itself for an integer; from `2^63` on, the long times `2^expo` is the value without its
last bits; the long never overflows. -/
theorem C59_get_si_exp {y : Num} (hy : y.Normal) :
    (|y.val| < 2 ^ 63 → (getSiExp y).2 = 0 ∧ Truncated y.val (getSiExp y).1) ∧
    (2 ^ 63 ≤ |y.val| → (getSiExp y).2 = y.exp - 63 ∧ 0 < (getSiExp y).2 ∧
      Truncated (y.val / 2 ^ (getSiExp y).2) (getSiExp y).1) ∧
    |(getSiExp y).1| < 2 ^ 63 := by
  obtain ⟨a, b, c⟩ := getSiExp_spec hy
  have tr : ∀ q, Truncated q (truncZ q) := truncZ_bounds
  have hle : ∀ n : ℕ, (n : ℤ) < y.exp → (2 : ℚ) ^ n ≤ |y.val| := by
    intro n hn
    have h0 : y.mant ≠ 0 := by
      intro h0
      rcases hy with h | h
      · rw [h.2] at hn; simp only [intMin] at hn; omega
      · rw [h0] at h; norm_num at h
    refine le_trans ?_ (hy.bounds h0).1
    rw [← zpow_natCast]
    exact zpow_le_zpow_right₀ (by norm_num) (by omega)
  refine ⟨fun h => ?_, fun h => ?_, c⟩
  · have he : y.exp ≤ 63 := by
      by_contra hc
      have := hle 63 (by push_cast; omega)
      linarith
    rw [a he]
    exact ⟨rfl, tr _⟩
  · have he : 64 ≤ y.exp := by
      by_contra hc
      have := hy.lt_two_pow (b := 63) (by push_cast; omega)
      linarith
    obtain ⟨b1, b2⟩ := b he
    refine ⟨b1, by omega, ?_⟩
    rw [b1, b2, div_eq_mul_inv, ← zpow_neg, neg_sub]
    exact tr _

/-- The last bit is lost: `2^64 - 1` gives `2^63 - 1` and 1. -/
theorem C59_get_si_exp_witness :
    getSiExp ⟨(2 ^ 64 - 1) / 2 ^ 64, 64⟩ = (2 ^ 63 - 1, 1) := by decide +kernel

/-- **C59** (`set_f` to `mpz_t`): from `2^63` on the conversion is exact; below, it is the nearest
integer, except that `-1` overruns the character array and that a value rounded to `2^63` is out
of the range of `lround`. -/
theorem C59_set_f {y : Num} (hy : y.Normal) :
    (2 ^ 63 ≤ |y.val| → ∃ v : ℤ, (v : ℚ) = y.val ∧ setF y = Conv.ok v) ∧
    (|y.val| < 2 ^ 63 → ∀ v : ℤ, NearestInt y.val v →
      (setF y = Conv.overrun ↔ v = -1) ∧ (setF y = Conv.lroundRange ↔ v = 2 ^ 63) ∧
      (v ≠ -1 → v ≠ 2 ^ 63 → setF y = Conv.ok v)) := by
  obtain ⟨a, b⟩ := setF_spec hy
  have hle : ∀ n : ℕ, (n : ℤ) < y.exp → (2 : ℚ) ^ n ≤ |y.val| := by
    intro n hn
    have h0 : y.mant ≠ 0 := by
      intro h0
      rcases hy with h | h
      · rw [h.2] at hn; simp only [intMin] at hn; omega
      · rw [h0] at h; norm_num at h
    refine le_trans ?_ (hy.bounds h0).1
    rw [← zpow_natCast]
    exact zpow_le_zpow_right₀ (by norm_num) (by omega)
  refine ⟨fun h => ?_, fun h v hv => ?_⟩
  · refine a ?_
    by_contra hc
    have := hy.lt_two_pow (b := 63) (by push_cast; omega)
    linarith
  · have he : y.exp ≤ 63 := by
      by_contra hc
      have := hle 63 (by push_cast; omega)
      linarith
    have hvr : roundAway y.val = v := nearestInt_unique (roundAway_nearest _) hv
    rw [b he, hvr]
    by_cases h1 : v = 2 ^ 63
    · subst h1; simp
    · by_cases h2 : v = -1
      · subst h2; simp
      · rw [if_neg h1, if_neg h2]
        simp only [reduceCtorEq, h1, h2, not_false_eq_true, implies_true, and_self]

/-- **C59** (`set_f` of a `long double`): the same, and out of range from `2^63` on. -/
theorem C59_set_f_ld {x : ℚ} {v : ℤ} (hv : NearestInt x v) :
    (setFld x = Conv.overrun ↔ v = -1) ∧
    (setFld x = Conv.lroundRange ↔ v < -(2 ^ 63) ∨ 2 ^ 63 ≤ v) ∧
    (v ≠ -1 → -(2 ^ 63) ≤ v → v < 2 ^ 63 → setFld x = Conv.ok v) := by
  have hvr : roundAway x = v := nearestInt_unique (roundAway_nearest _) hv
  rw [setFld_spec, hvr]
  by_cases h : |v| ≤ 2 ^ 63 ∧ v ≠ 2 ^ 63
  · rw [if_pos h]
    have h1 := abs_le.mp h.1
    have h3 : v < 2 ^ 63 := lt_of_le_of_ne h1.2 h.2
    by_cases h2 : v = -1
    · subst h2; simp
    · rw [if_neg h2]
      refine ⟨by simp [h2], ?_, fun _ _ _ => rfl⟩
      simp only [reduceCtorEq, false_iff]
      omega
  · rw [if_neg h]
    have h3 : v < -(2 ^ 63) ∨ 2 ^ 63 ≤ v := by
      by_contra hc
      push Not at hc
      exact h ⟨abs_le.mpr ⟨hc.1, hc.2.le⟩, hc.2.ne⟩
    refine ⟨?_, ⟨fun _ => h3, fun _ => rfl⟩, fun _ h4 h5 => by omega⟩
    simp only [reduceCtorEq, false_iff]
    omega

/-- `-1` overruns, `2^63 - 1/2` is out of range. -/
theorem C59_set_f_witness :
    setF ⟨-1 / 2, 1⟩ = Conv.overrun ∧ setF ⟨(2 ^ 64 - 1) / 2 ^ 64, 63⟩ = Conv.lroundRange ∧
    setF ⟨-3 / 4, 2⟩ = Conv.ok (-3) ∧ setF ⟨1 / 2, 70⟩ = Conv.ok (2 ^ 69) := by
  refine ⟨?_, ?_, ?_, ?_⟩ <;> decide +kernel

/-- **C59** (`set_z` from `mpz_t`, nonzero): normalised mantissa; exact up to 64 bits; otherwise an
error which may exceed slightly the half of the last bit. -/
theorem C59_set_z (m : Mem) (x : Nat) {z : ℤ} (hz : z ≠ 0) :
    Only x m (setZ m x z) ∧
    (1 / 2 ≤ |(setZ m x z x).mant| ∧ |(setZ m x z x).mant| < 1 ∧ IsFloat 64 (setZ m x z x).mant) ∧
    (IsFloat 64 z → (setZ m x z x).val = z) ∧
    |(setZ m x z x).val - z| ≤ (2 ^ (-64 : ℤ) + 2 ^ (-79 : ℤ)) * |(z : ℚ)| := by
  obtain ⟨a, b, c⟩ := setZ_spec m x hz
  refine ⟨a, c, fun h => ?_, ?_⟩
  · rw [b]
    have h80 := rnd_float (p := 80) (by norm_num) (h.mono (by norm_num : 64 ≤ 80))
    simp only [Nat.cast_ofNat] at h80
    rw [h80]
    exact rnd_float (p := 64) (by norm_num) h
  · rw [b]; exact setZ_err z

/-- Two roundings: `2^81 + 2^17 + 1` becomes `2^81`, although `2^81 + 2^18` is nearer. -/
theorem C59_set_z_witness :
    setZ (fun _ => ldOne) 0 (2 ^ 81 + 2 ^ 17 + 1) 0 = ⟨1 / 2, 82⟩ ∧
    ¬ Nearest 64 ((2 ^ 81 + 2 ^ 17 + 1 : ℚ)) (Num.val ⟨1 / 2, 82⟩) := by
  refine ⟨by decide +kernel, ?_⟩
  rw [nearestQ]
  rintro ⟨-, h⟩
  have := h (2 ^ 81 + 2 ^ 18) ⟨2 ^ 63 + 1, 18, by norm_num, by norm_num⟩
  unfold Num.val at this
  rw [show ((1 / 2 : ℚ) * 2 ^ (82 : ℤ)) = 2 ^ 81 by norm_num] at this
  norm_num at this

/-- **C59** (`size_in_bits`): for machine integers it is one less than the number of bits, which is
what the overload on `mpz_t` gives; on 0 they agree. -/
theorem C59_size_in_bits (v : ℤ) :
    (v ≠ 0 → 2 ^ sizeInBits v ≤ v.natAbs ∧ v.natAbs < 2 ^ (sizeInBits v + 1) ∧
      sizeInBitsMpz v = sizeInBits v + 1) ∧
    sizeInBits 0 = 1 ∧ sizeInBitsMpz 0 = 1 := by
  refine ⟨fun h => ?_, by decide, by decide⟩
  have hn : v.natAbs ≠ 0 := by omega
  rw [sizeInBits_eq h]
  exact ⟨Nat.log2_self_le hn, Nat.lt_log2_self, by simp [sizeInBitsMpz, h]⟩

/-- **C59** (`ldpe_get_z_exp`, negation): `x * 2^e` is not the number when it has more than 53
bits. -/
theorem C59_get_z_exp_witness : getZExp ⟨(2 ^ 64 - 1) / 2 ^ 64, 64⟩ = (2 ^ 64, 0) ∧
    getZ ⟨(2 ^ 64 - 1) / 2 ^ 64, 64⟩ = 2 ^ 64 := by
  constructor <;> decide +kernel

/-- Exchange, and copies. -/
theorem C59_swap (m : Mem) (x y : Nat) :
    swap m x y x = m y ∧ swap m x y y = m x ∧ ∀ i, i ≠ x → i ≠ y → swap m x y i = m i := by
  refine ⟨?_, ?_, ?_⟩
  · unfold swap
    by_cases h : x = y
    · subst h; simp
    · have h' : y ≠ x := fun e => h e.symm
      simp [setMant, setExp, h, h']
  · unfold swap; simp
  · intro i h1 h2
    simp [swap, setMant, setExp, h1, h2]

/-- Opposite and absolute value: exact. -/
theorem C57_neg_abs (m : Mem) (x y : Nat) (hy : (m y).Normal) :
    (Only x m (neg m x y) ∧ (neg m x y x).Normal ∧ (neg m x y x).val = -(m y).val) ∧
    (Only x m (abs m x y) ∧ (abs m x y x).Normal ∧ (abs m x y x).val = |(m y).val|) := by
  obtain ⟨a, b⟩ := neg_spec m x y
  obtain ⟨c, d⟩ := abs_spec m x y
  refine ⟨⟨a, b ▸ hy.neg, by rw [b]; simp [Num.val]⟩, c, d ▸ hy.abs, ?_⟩
  rw [d]
  simp only [Num.val]
  rw [abs_mul, abs_of_pos (by positivity : (0 : ℚ) < 2 ^ (m y).exp)]

/-- Multiplication by a power of two: exact. -/
theorem C57_mul_2si {m : Mem} {x y : Nat} (hy : (m y).Normal) (h0 : (m y).val ≠ 0) {e : ℤ}
    (h1 : intMin ≤ (m y).exp + e) (h2 : (m y).exp + e ≤ intMax) :
    ∃ m', mul2si m x y e = some m' ∧ Only x m m' ∧ (m' x).Normal ∧
      (m' x).val = (m y).val * 2 ^ e := by
  have h0' : (m y).mant ≠ 0 := fun h => h0 (Num.val_eq_zero.mpr h)
  unfold mul2si
  simp only [Option.bind_eq_bind, setMant_exp]
  rw [chk_ok h1 h2]
  refine ⟨_, rfl, (only_setMant m x _).trans (only_setExp _ x _), ?_, ?_⟩
  · obtain ⟨a, b, c, -⟩ := hy.resolve_left fun h => h0' h.1
    right
    simp only [setExp_self, setMant_self]
    exact ⟨a, b, c, h1, h2⟩
  · simp only [Num.val, setExp_self, setMant_self]
    rw [zpow_add₀ (by norm_num), mul_assoc]

/-- Integers of 64 bits (`ldpe_set_si`, `ldpe_set_ui`) are exact. -/
theorem C59_set_si (m : Mem) (x : Nat) {v : ℤ} (hv : |v| ≤ 2 ^ 64) :
    ∃ m', setSi m x v = some m' ∧ Only x m m' ∧ (m' x).Normal ∧ (m' x).val = v := by
  obtain ⟨m', h⟩ := setSi_isSome m x (v := v) (by omega)
  exact ⟨m', h, setSi_spec h hv⟩

/-- `ldpe_set_d` of a `double` is exact, of a `long double` the nearest `double`;
`ldpe_set_ld` is exact. -/
theorem C59_set_d {m m' : Mem} {x : Nat} {v : ℚ} :
    (setD m x v = some m' → Only x m m' ∧ (m' x).Normal ∧ Nearest 53 v (m' x).val) ∧
    (setLd m x v = some m' → IsFloat 64 v → Only x m m' ∧ (m' x).Normal ∧ (m' x).val = v) := by
  refine ⟨fun h => ?_, fun h hv => setLd_spec h hv⟩
  obtain ⟨a, b, c⟩ := setD_spec h
  refine ⟨a, b, ?_⟩
  rw [c]
  exact rnd_near (p := 53) (by norm_num) _

/-- `ldpe_get_z` gives the nearest integer up to `2^53`, and the number itself, from `2^63` on,
if it has at most 53 bits. -/
theorem C59_get_z {y : Num} (hy : y.Normal) :
    (|y.val| ≤ 2 ^ 53 → NearestInt y.val (getZ y)) ∧
    (2 ^ 63 ≤ |y.val| → IsFloat 53 y.val → (getZ y : ℚ) = y.val) := by
  constructor
  · intro h
    unfold getZ
    by_cases he : y.exp ≥ 64
    · exfalso
      have h0 : y.mant ≠ 0 := by
        intro h0
        rcases hy with h | h
        · rw [h.2] at he; simp only [intMin] at he; omega
        · rw [h0] at h; norm_num at h
      have h1 := (hy.bounds h0).1
      have h2 : (2 : ℚ) ^ (63 : ℤ) ≤ 2 ^ (y.exp - 1) := zpow_le_zpow_right₀ (by norm_num) (by omega)
      have h3 : (2 : ℚ) ^ (63 : ℤ) ≤ 2 ^ 53 := by linarith
      norm_num at h3
    · rw [if_neg he]
      by_cases hn : y.exp < 0
      · rw [if_pos hn]
        have h1 := hy.lt_pow
        have h2 : (2 : ℚ) ^ y.exp ≤ 2 ^ (-1 : ℤ) := zpow_le_zpow_right₀ (by norm_num) (by omega)
        have h3 : |y.val| < 1 / 2 := by norm_num at h2 ⊢; linarith
        refine ⟨by simpa using h3.le, fun h4 => ?_⟩
        simp only [Int.cast_zero, sub_zero] at h4
        linarith
      · rw [if_neg hn, Num.val_scale]
        have hb := roundAway_err y.val
        have hr : |roundAway y.val| ≤ 2 ^ 53 := by
          have h1 := abs_le.mp hb
          have h2 := abs_le.mp h
          have : |(roundAway y.val : ℚ)| < 2 ^ 53 + 1 := abs_lt.mpr ⟨by linarith, by linarith⟩
          have : |roundAway y.val| < 2 ^ 53 + 1 := by exact_mod_cast this
          omega
        have := rnd_float (p := 53) (by norm_num) (IsFloat.int hr (by norm_num))
        simp only [Nat.cast_ofNat] at this
        rw [this, truncZ_int]
        exact roundAway_nearest _
  · intro h hf
    have he : 64 ≤ y.exp := by
      by_contra hc
      have := hy.lt_two_pow (b := 63) (by push_cast; omega)
      linarith
    obtain ⟨k, hk⟩ := hy.mult
    have hm : y.mant * pow2 64 = k := by
      rw [pow2_eq, hk, mul_assoc, ← zpow_add₀ (by norm_num)]; simp
    have hm' : (k : ℚ) = y.val * 2 ^ (64 - y.exp) := by
      rw [← hm, Num.val, pow2_eq, mul_assoc, ← zpow_add₀ (by norm_num)]; congr 2; ring
    have hf' : IsFloat 53 (k : ℚ) := hm' ▸ hf.mul _
    have r1 := rnd_float (p := 53) (by norm_num) hf'
    have r2 := rnd_float (p := 64) (by norm_num) (hf'.mono (by norm_num : 53 ≤ 64))
    simp only [Nat.cast_ofNat] at r1 r2
    unfold getZ
    rw [if_pos he, hm, r2, r1, truncZ_int]
    push_cast
    rw [hm', ← zpow_natCast, Int.toNat_of_nonneg (by omega), mul_assoc,
      ← zpow_add₀ (by norm_num)]
    simp

end HPLLL.Props
