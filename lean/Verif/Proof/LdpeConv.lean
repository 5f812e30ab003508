import Verif.Proof.LdpeArith

/-!
# Roundings and conversions of `ldpe_t`
-/

namespace HPLLL.Ldpe
open HPLLL.Spec

theorem _root_.HPLLL.Spec.IsFloat.mono {p p' : ℕ} {q : ℚ} (h : IsFloat p q) (hp : p ≤ p') :
    IsFloat p' q := by
  obtain ⟨k, e, hk, rfl⟩ := h
  exact ⟨k, e, hk.trans_le (pow_le_pow_right₀ (by norm_num) hp), rfl⟩

/-! ## Definedness -/

theorem Num.Normal.ne_cases {x : Num} (h : x.Normal) (h0 : x.mant ≠ 0) :
    1 / 2 ≤ |x.mant| ∧ |x.mant| < 1 := by
  rcases h with h | h
  · exact absurd h.1 h0
  · exact ⟨h.1, h.2.1⟩

/-- `bexp` of a rounded number. -/
theorem bexp_rnd_le {p : ℕ} (hp : 1 ≤ p) {q : ℚ} {a b : ℤ} (hq : q ≠ 0)
    (h1 : (2 : ℚ) ^ (a - 1) ≤ |q|) (h2 : |q| < 2 ^ b) :
    a ≤ bexp (rnd p q) ∧ bexp (rnd p q) ≤ b + 1 := by
  have one : (1 : ℚ) < 2 := by norm_num
  have two : (2 : ℚ) ≠ 0 := by norm_num
  have hr : rnd p q ≠ 0 := fun h => hq ((rnd_eq_zero hp).mp h)
  obtain ⟨c, d⟩ := bexp_spec hr
  have hn := nearestQ.mp (rnd_near hp q)
  have p1 : (1 : ℤ) < 2 ^ p := by exact_mod_cast Nat.one_lt_two_pow (by omega : p ≠ 0)
  have ha : (0 : ℚ) < 2 ^ (a - 1) := by positivity
  constructor
  · by_contra hc
    push Not at hc
    have hlt : |rnd p q| < 2 ^ (a - 1) := d.trans_le (zpow_le_zpow_right₀ one.le (by omega))
    rcases lt_or_gt_of_ne hq with h0 | h0
    · have := hn.2 (-2 ^ (a - 1)) ⟨-1, a - 1, by simpa using p1, by simp⟩
      rw [abs_of_neg h0] at h1
      have h3 := (abs_lt.mp hlt).1
      rw [abs_of_nonpos (by linarith), abs_of_nonpos (by linarith)] at this
      linarith
    · have := hn.2 (2 ^ (a - 1)) ⟨1, a - 1, by simpa using p1, by simp⟩
      rw [abs_of_pos h0] at h1
      have h3 := (abs_lt.mp hlt).2
      rw [abs_of_nonneg (by linarith), abs_of_nonneg (by linarith)] at this
      linarith
  · have he := rnd_err (p := p) q
    have hp' : (2 : ℚ) ^ (-(p : ℤ)) ≤ 1 := zpow_le_one_of_nonpos₀ one.le (by omega)
    have h3 : |rnd p q| ≤ |q| + |q - rnd p q| := by
      have := abs_sub q (q - rnd p q)
      rwa [sub_sub_cancel] at this
    have h4 : |rnd p q| < 2 ^ (b + 1) := by
      rw [zpow_add₀ two, zpow_one]
      nlinarith [abs_nonneg q]
    have h5 := (zpow_lt_zpow_iff_right₀ one).mp (c.trans_lt h4)
    omega

theorem put_isSome {p : ℕ} (hp : 1 ≤ p) {m : Mem} {x : Nat} {q : ℚ} {e a b : ℤ}
    (h : q ≠ 0 → (2 : ℚ) ^ (a - 1) ≤ |q| ∧ |q| < 2 ^ b) (h1 : intMin ≤ e + a)
    (h2 : e + b < intMax) :
    ∃ m', normalize (setExp (setMant m x (rnd p q)) x e) x = some m' := by
  apply normalize_isSome
  simp only [setExp_self, setMant_self]
  intro hr
  have hq : q ≠ 0 := fun h0 => hr ((rnd_eq_zero hp).mpr h0)
  obtain ⟨u, v⟩ := h hq
  obtain ⟨c, d⟩ := bexp_rnd_le hp hq u v
  omega

theorem Num.Normal.mant_bounds {x : Num} (h : x.Normal) : |x.mant| < 1 := by
  rcases h with h | h
  · rw [h.1]; norm_num
  · exact h.2.1

/-- A 64-bit number with an exponent at least `e` is a multiple of `2^(e-64)`. -/
theorem Num.Normal.mult {x : Num} (h : x.Normal) : ∃ k : ℤ, x.mant = k * 2 ^ (-64 : ℤ) := by
  rcases lt_trichotomy x.mant 0 with h0 | h0 | h0
  · obtain ⟨k, -, -, hk⟩ := h.neg.int (by simpa using h0)
    exact ⟨-k, by push_cast; linarith⟩
  · exact ⟨0, by rw [h0]; simp⟩
  · obtain ⟨k, -, -, hk⟩ := h.int h0
    exact ⟨k, hk⟩

theorem mul_isSome {m : Mem} {x y z : Nat} (hy : (m y).Normal) (hz : (m z).Normal)
    (hy0 : (m y).mant ≠ 0) (hz0 : (m z).mant ≠ 0) (h1 : intMin < (m y).exp + (m z).exp)
    (h2 : (m y).exp + (m z).exp < intMax) : ∃ m', mul m x y z = some m' := by
  unfold mul
  simp only [Option.bind_eq_bind, setMant_exp, chk_ok h1.le h2.le, Option.bind_some]
  refine put_isSome (p := 64) (by norm_num) (a := -1) (b := 0) (fun _ => ?_) (by omega) (by omega)
  obtain ⟨a, b⟩ := hy.ne_cases hy0
  obtain ⟨c, d⟩ := hz.ne_cases hz0
  rw [abs_mul]
  constructor
  · norm_num; nlinarith
  · norm_num; nlinarith

theorem div_isSome {m : Mem} {x y z : Nat} (hy : (m y).Normal) (hz : (m z).Normal)
    (hy0 : (m y).mant ≠ 0) (hz0 : (m z).mant ≠ 0) (h1 : intMin ≤ (m y).exp - (m z).exp)
    (h2 : (m y).exp - (m z).exp + 1 < intMax) : ∃ m', div m x y z = some m' := by
  unfold div
  simp only [Option.bind_eq_bind, setMant_exp, chk_ok h1 (by omega), Option.bind_some]
  refine put_isSome (p := 64) (by norm_num) (a := 0) (b := 1) (fun _ => ?_) (by omega) (by omega)
  obtain ⟨a, b⟩ := hy.ne_cases hy0
  obtain ⟨c, d⟩ := hz.ne_cases hz0
  rw [abs_div]
  have hp : 0 < |(m z).mant| := by linarith
  constructor
  · rw [le_div_iff₀ hp]; norm_num; linarith
  · rw [div_lt_iff₀ hp]; norm_num; linarith

/-- The sum of two aligned mantissas, when it is not zero. -/
theorem aligned {y z : Num} (hy : y.Normal) (hz : z.Normal) {d : ℤ} (h0 : 0 ≤ d) (h64 : d ≤ 64)
    (s : ℚ) (hs : s = 1 ∨ s = -1) (hne : y.mant + s * scale z.mant (-d) ≠ 0) :
    (2 : ℚ) ^ ((-127 : ℤ) - 1) ≤ |y.mant + s * scale z.mant (-d)| ∧
      |y.mant + s * scale z.mant (-d)| < 2 ^ (1 : ℤ) := by
  have two : (2 : ℚ) ≠ 0 := by norm_num
  have one : (1 : ℚ) ≤ 2 := by norm_num
  obtain ⟨k, hk⟩ := hy.mult
  obtain ⟨l, hl⟩ := hz.mult
  have hs1 : |s| = 1 := by rcases hs with h | h <;> simp [h]
  constructor
  · obtain ⟨si, rfl⟩ : ∃ si : ℤ, s = si := by
      rcases hs with h | h
      · exact ⟨1, by simp [h]⟩
      · exact ⟨-1, by simp [h]⟩
    have e : y.mant + si * scale z.mant (-d)
        = ((k * 2 ^ d.toNat + si * l : ℤ) : ℚ) * 2 ^ (-64 - d) := by
      rw [scale_eq, hk, hl, mul_assoc (l : ℚ), ← zpow_add₀ two]
      push_cast
      rw [add_mul, mul_assoc (k : ℚ), ← zpow_natCast, ← zpow_add₀ two, Int.toNat_of_nonneg h0]
      rw [show d + (-64 - d) = -64 by ring, show (-64 : ℤ) + -d = -64 - d by ring]
      ring
    rw [e] at hne ⊢
    have hn : k * 2 ^ d.toNat + si * l ≠ 0 := by
      intro h; rw [h] at hne; simp at hne
    have h1 : (1 : ℚ) ≤ |((k * 2 ^ d.toNat + si * l : ℤ) : ℚ)| := by
      exact_mod_cast Int.one_le_abs hn
    have hp : (0 : ℚ) < 2 ^ (-64 - d) := by positivity
    rw [abs_mul, abs_of_pos hp]
    have : (2 : ℚ) ^ ((-127 : ℤ) - 1) ≤ 2 ^ (-64 - d) := zpow_le_zpow_right₀ one (by omega)
    nlinarith
  · have h1 := hy.mant_bounds
    have h2 := hz.mant_bounds
    have h3 : (2 : ℚ) ^ (-d) ≤ 1 := zpow_le_one_of_nonpos₀ one (by omega)
    have h4 : |s * scale z.mant (-d)| < 1 := by
      rw [scale_eq, abs_mul, hs1, abs_mul, abs_of_pos (by positivity : (0 : ℚ) < 2 ^ (-d))]
      have : (0 : ℚ) < 2 ^ (-d) := by positivity
      nlinarith [abs_nonneg z.mant]
    have h5 := abs_add_le y.mant (s * scale z.mant (-d))
    rw [zpow_one]
    linarith

theorem add_isSome {m : Mem} {x y z : Nat} (hy : (m y).Normal) (hz : (m z).Normal)
    (uy : (m y).Usual) (uz : (m z).Usual) : ∃ m', add m x y z = some m' := by
  have lim : ∀ w : Num, w.Normal → w.Usual → (w.mant = 0 ∧ w.exp = intMin) ∨
      (-(2 ^ 30) < w.exp ∧ w.exp < 2 ^ 30 - 64) := by
    intro w hw uw
    rcases hw with h | h
    · exact Or.inl h
    · rcases uw with u | u
      · rw [u] at h; norm_num at h
      · exact Or.inr u
  have ly := lim _ hy uy
  have lz := lim _ hz uz
  unfold add
  simp only [intMin] at ly lz
  rw [chk_ok (by simp only [intMin]; omega) (by simp only [intMax]; omega)]
  simp only [Option.bind_eq_bind, Option.bind_some]
  split_ifs with h1
  · exact ⟨_, rfl⟩
  rw [chk_ok (by simp only [intMin]; omega) (by simp only [intMax]; omega)]
  simp only [Option.bind_some]
  split_ifs with h2
  · exact ⟨_, rfl⟩
  rw [chk_ok (by simp only [intMin]; omega) (by simp only [intMax]; omega)]
  simp only [Option.bind_some]
  -- both zero, or both mild
  have both : ((m y).mant = 0 ∧ (m z).mant = 0) ∨ (-(2 ^ 30) < (m y).exp ∧ (m y).exp < 2 ^ 30 - 64 ∧
      -(2 ^ 30) < (m z).exp ∧ (m z).exp < 2 ^ 30 - 64) := by
    rcases ly with a | a <;> rcases lz with b | b
    · exact Or.inl ⟨a.1, b.1⟩
    · omega
    · omega
    · exact Or.inr ⟨a.1, a.2, b.1, b.2⟩
  rcases both with ⟨a, b⟩ | ⟨a, b, c, d⟩
  · split_ifs
    · exact normalize_isSome (by simp [a, b, scale, rnd])
    · exact normalize_isSome (by simp [a, b, scale, rnd])
  · split_ifs with h3
    · refine put_isSome (p := 64) (by norm_num) (a := -127) (b := 1) (fun hne => ?_) ?_ ?_
      · have := aligned hy hz h3 (by omega) 1 (Or.inl rfl) (by rw [one_mul]; exact hne)
        rw [one_mul] at this
        exact this
      · rw [setMant_exp]; simp only [intMin]; omega
      · rw [setMant_exp]; simp only [intMax]; omega
    · have e : (m y).exp - (m z).exp = -((m z).exp - (m y).exp) := by ring
      refine put_isSome (p := 64) (by norm_num) (a := -127) (b := 1) (fun hne => ?_) ?_ ?_
      · rw [e] at hne ⊢
        have := aligned hz hy (d := (m z).exp - (m y).exp) (by omega) (by omega) 1 (Or.inl rfl)
          (by rw [one_mul]; exact hne)
        rw [one_mul] at this
        exact this
      · rw [setMant_exp]; simp only [intMin]; omega
      · rw [setMant_exp]; simp only [intMax]; omega

theorem sub_isSome {m : Mem} {x y z : Nat} (hy : (m y).Normal) (hz : (m z).Normal)
    (uy : (m y).Usual) (uz : (m z).Usual) : ∃ m', sub m x y z = some m' := by
  have lim : ∀ w : Num, w.Normal → w.Usual → (w.mant = 0 ∧ w.exp = intMin) ∨
      (-(2 ^ 30) < w.exp ∧ w.exp < 2 ^ 30 - 64) := by
    intro w hw uw
    rcases hw with h | h
    · exact Or.inl h
    · rcases uw with u | u
      · rw [u] at h; norm_num at h
      · exact Or.inr u
  have ly := lim _ hy uy
  have lz := lim _ hz uz
  unfold sub
  simp only [intMin] at ly lz
  rw [chk_ok (by simp only [intMin]; omega) (by simp only [intMax]; omega)]
  simp only [Option.bind_eq_bind, Option.bind_some]
  split_ifs with h1
  · exact ⟨_, rfl⟩
  rw [chk_ok (by simp only [intMin]; omega) (by simp only [intMax]; omega)]
  simp only [Option.bind_some]
  split_ifs with h2
  · exact ⟨_, rfl⟩
  rw [chk_ok (by simp only [intMin]; omega) (by simp only [intMax]; omega)]
  simp only [Option.bind_some]
  have both : ((m y).mant = 0 ∧ (m z).mant = 0) ∨ (-(2 ^ 30) < (m y).exp ∧ (m y).exp < 2 ^ 30 - 64 ∧
      -(2 ^ 30) < (m z).exp ∧ (m z).exp < 2 ^ 30 - 64) := by
    rcases ly with a | a <;> rcases lz with b | b
    · exact Or.inl ⟨a.1, b.1⟩
    · omega
    · omega
    · exact Or.inr ⟨a.1, a.2, b.1, b.2⟩
  rcases both with ⟨a, b⟩ | ⟨a, b, c, d⟩
  · split_ifs
    · exact normalize_isSome (by simp [a, b, scale, rnd])
    · exact normalize_isSome (by simp [a, b, scale, rnd])
  · split_ifs with h3
    · refine put_isSome (p := 64) (by norm_num) (a := -127) (b := 1) (fun hne => ?_) ?_ ?_
      · have := aligned hy hz h3 (by omega) (-1) (Or.inr rfl)
          (by rw [neg_one_mul, ← sub_eq_add_neg]; exact hne)
        rw [neg_one_mul, ← sub_eq_add_neg] at this
        exact this
      · rw [setMant_exp]; simp only [intMin]; omega
      · rw [setMant_exp]; simp only [intMax]; omega
    · have e : (m y).exp - (m z).exp = -((m z).exp - (m y).exp) := by ring
      refine put_isSome (p := 64) (by norm_num) (a := -127) (b := 1) (fun hne => ?_) ?_ ?_
      · rw [e] at hne ⊢
        have ee : scale (m y).mant (-((m z).exp - (m y).exp)) - (m z).mant
            = -((m z).mant + -1 * scale (m y).mant (-((m z).exp - (m y).exp))) := by ring
        rw [ee, neg_ne_zero] at hne
        have := aligned hz hy (d := (m z).exp - (m y).exp) (by omega) (by omega) (-1) (Or.inr rfl) hne
        rw [ee, abs_neg]
        exact this
      · rw [setMant_exp]; simp only [intMin]; omega
      · rw [setMant_exp]; simp only [intMax]; omega

/-! ## Roundings -/

theorem setD_spec {m m' : Mem} {x : Nat} {v : ℚ} (h : setD m x v = some m') :
    Only x m m' ∧ (m' x).Normal ∧ (m' x).val = rnd 53 v := by
  unfold setD at h
  have hf : IsFloat 64 (rnd 53 v) := (rnd_near (p := 53) (by norm_num) v).1.mono (by norm_num)
  obtain ⟨a, b, c⟩ := normalize_spec h (by simpa using hf)
  refine ⟨((only_setMant m x _).trans (only_setExp _ x _)).trans a, b, ?_⟩
  rw [c]; simp [Num.val]

theorem setLd_spec {m m' : Mem} {x : Nat} {v : ℚ} (h : setLd m x v = some m')
    (hf : IsFloat 64 v) : Only x m m' ∧ (m' x).Normal ∧ (m' x).val = v := by
  unfold setLd at h
  obtain ⟨a, b, c⟩ := normalize_spec h (by simpa using hf)
  refine ⟨((only_setMant m x _).trans (only_setExp _ x _)).trans a, b, ?_⟩
  rw [c]; simp [Num.val]

theorem setSi_spec {m m' : Mem} {x : Nat} {v : ℤ} (h : setSi m x v = some m')
    (hv : |v| ≤ 2 ^ 64) : Only x m m' ∧ (m' x).Normal ∧ (m' x).val = v := by
  unfold setSi at h
  obtain ⟨a, b, c⟩ := put_spec h
  refine ⟨a, b, ?_⟩
  rw [c]; simp only [zpow_zero, mul_one]
  exact rnd_float (p := 64) (by norm_num) (IsFloat.int hv (by norm_num))

theorem int_bounds {v : ℤ} (hv : |v| < 2 ^ 65) (h0 : (v : ℚ) ≠ 0) :
    (2 : ℚ) ^ ((1 : ℤ) - 1) ≤ |(v : ℚ)| ∧ |(v : ℚ)| < 2 ^ (65 : ℤ) := by
  constructor
  · have : (1 : ℤ) ≤ |v| := Int.one_le_abs (by exact_mod_cast h0)
    have : (1 : ℚ) ≤ |(v : ℚ)| := by exact_mod_cast this
    simpa using this
  · have : |(v : ℚ)| < 2 ^ 65 := by exact_mod_cast hv
    exact_mod_cast this

theorem setSi_isSome (m : Mem) (x : Nat) {v : ℤ} (hv : |v| < 2 ^ 65) :
    ∃ m', setSi m x v = some m' := by
  unfold setSi
  exact put_isSome (p := 64) (by norm_num) (a := 1) (b := 65) (int_bounds hv)
    (by simp [intMin]) (by simp [intMax])

theorem setD_int_isSome (m : Mem) (x : Nat) {v : ℤ} (hv : |v| < 2 ^ 65) :
    ∃ m', setD m x v = some m' := by
  unfold setD
  exact put_isSome (p := 53) (by norm_num) (a := 1) (b := 65) (int_bounds hv)
    (by simp [intMin]) (by simp [intMax])

theorem Num.Normal.isInt {x : Num} (h : x.Normal) (he : 64 ≤ x.exp) : ∃ n : ℤ, x.val = n := by
  obtain ⟨k, hk⟩ := h.mult
  refine ⟨k * 2 ^ (x.exp - 64).toNat, ?_⟩
  unfold Num.val
  rw [hk, mul_assoc, ← zpow_add₀ (by norm_num)]
  push_cast
  rw [← zpow_natCast, Int.toNat_of_nonneg (by omega)]
  congr 2; ring

theorem roundAway_int (n : ℤ) : roundAway n = n := by
  unfold roundAway
  have h : ⌊(1 / 2 : ℚ)⌋ = 0 := by norm_num
  split_ifs with h0
  · rw [Int.floor_intCast_add, h, add_zero]
  · rw [show (-(n : ℚ) + 1 / 2) = ((-n : ℤ) : ℚ) + 1 / 2 by push_cast; ring, Int.floor_intCast_add, h]
    ring

theorem roundAway_err (q : ℚ) : |q - roundAway q| ≤ 1 / 2 := by
  unfold roundAway
  split_ifs with h
  · have h1 := Int.floor_le (q + 1 / 2)
    have h2 := Int.lt_floor_add_one (q + 1 / 2)
    rw [abs_le]; constructor <;> linarith
  · have h1 := Int.floor_le (-q + 1 / 2)
    have h2 := Int.lt_floor_add_one (-q + 1 / 2)
    push_cast
    rw [abs_le]; constructor <;> linarith

theorem roundAway_small {q : ℚ} (h : |q| < 1 / 2) : roundAway q = 0 := by
  have h1 := abs_lt.mp h
  unfold roundAway
  split_ifs with h0
  · rw [Int.floor_eq_iff]; constructor <;> push_cast <;> linarith
  · rw [neg_eq_zero, Int.floor_eq_iff]; constructor <;> push_cast <;> linarith

theorem roundAway_lt {q : ℚ} {b : ℕ} (h : |q| < 2 ^ b) : |roundAway q| ≤ 2 ^ b := by
  have h1 := roundAway_err q
  have h2 : |(roundAway q : ℚ)| < 2 ^ b + 1 := by
    have := abs_sub q (q - roundAway q)
    rw [sub_sub_cancel] at this
    linarith
  have : |roundAway q| < 2 ^ b + 1 := by exact_mod_cast h2
  omega

theorem Num.val_scale (x : Num) : scale x.mant x.exp = x.val := scale_eq _ _

theorem Num.Normal.lt_two_pow {x : Num} (h : x.Normal) {b : ℕ} (he : x.exp ≤ b) :
    |x.val| < 2 ^ b := by
  refine h.lt_pow.trans_le ?_
  rw [← zpow_natCast]
  exact zpow_le_zpow_right₀ (by norm_num) he

theorem round_isSome {m : Mem} {x y : Nat} (hy : (m y).Normal) : ∃ m', round m x y = some m' := by
  unfold round
  split_ifs with h1 h2
  · exact setSi_isSome m x (by norm_num)
  · exact ⟨_, rfl⟩
  · rw [Num.val_scale]
    apply setD_int_isSome
    have := roundAway_lt (hy.lt_two_pow (b := 64) (by omega))
    omega

theorem round_spec {m m' : Mem} {x y : Nat} (h : round m x y = some m') (hy : (m y).Normal) :
    Only x m m' ∧ (m' x).Normal ∧
    (m' x).val = if 64 ≤ (m y).exp then (roundAway (m y).val : ℚ)
      else rnd 53 (roundAway (m y).val) := by
  unfold round at h
  split_ifs at h with h1 h2
  · obtain ⟨a, b, c⟩ := setSi_spec h (by norm_num)
    refine ⟨a, b, ?_⟩
    have hs : |(m y).val| < 1 / 2 := by
      refine hy.lt_pow.trans_le ?_
      rw [show (1 / 2 : ℚ) = 2 ^ (-1 : ℤ) by norm_num]
      exact zpow_le_zpow_right₀ (by norm_num) (by omega)
    rw [c, if_neg (by omega), roundAway_small hs]
    simp [rnd]
  · cases Option.some.inj h
    obtain ⟨a, b⟩ := set_spec m x y
    obtain ⟨n, hn⟩ := hy.isInt h2
    refine ⟨a, b ▸ hy, ?_⟩
    rw [b, if_pos h2, hn, roundAway_int]
  · obtain ⟨a, b, c⟩ := setD_spec h
    refine ⟨a, b, ?_⟩
    rw [c, if_neg (by omega), Num.val_scale]

theorem floor_isSome {m : Mem} {x y : Nat} (hy : (m y).Normal) : ∃ m', floor m x y = some m' := by
  unfold floor
  split_ifs with h1 h2 h3
  · exact setSi_isSome m x (by norm_num)
  · exact setSi_isSome m x (by norm_num)
  · exact ⟨_, rfl⟩
  · rw [Num.val_scale]
    apply setD_int_isSome
    have h4 := abs_lt.mp (hy.lt_two_pow (b := 64) (by omega))
    have h5 := Int.floor_le (m y).val
    have h6 := Int.lt_floor_add_one (m y).val
    have h7 : |(⌊(m y).val⌋ : ℚ)| < 2 ^ 65 := by rw [abs_lt]; constructor <;> linarith
    exact_mod_cast h7

theorem floor_spec {m m' : Mem} {x y : Nat} (h : floor m x y = some m') (hy : (m y).Normal) :
    Only x m m' ∧ (m' x).Normal ∧
    (m' x).val = if 64 ≤ (m y).exp then (⌊(m y).val⌋ : ℚ) else rnd 53 ⌊(m y).val⌋ := by
  unfold floor at h
  split_ifs at h with h1 h2 h3
  · obtain ⟨a, b, c⟩ := setSi_spec h (by norm_num)
    refine ⟨a, b, ?_⟩
    rw [sign_val] at h2
    have hs := abs_lt.mp (hy.lt_two_pow (b := 0) (by simpa using h1))
    have h0 : 0 ≤ (m y).val := by
      by_contra hc
      push Not at hc
      simp [sign, hc] at h2
    have : ⌊(m y).val⌋ = 0 := by
      rw [Int.floor_eq_iff]; constructor <;> push_cast <;> linarith [hs.1, hs.2]
    rw [c, if_neg (by omega), this]
    simp [rnd]
  · obtain ⟨a, b, c⟩ := setSi_spec h (by norm_num)
    refine ⟨a, b, ?_⟩
    rw [sign_val] at h2
    have hs := abs_lt.mp (hy.lt_two_pow (b := 0) (by simpa using h1))
    have h0 : (m y).val < 0 := by
      by_contra hc
      push Not at hc
      apply h2
      unfold sign
      rw [if_neg (not_lt.mpr hc)]
      split_ifs <;> norm_num
    have : ⌊(m y).val⌋ = -1 := by
      rw [Int.floor_eq_iff]; constructor <;> push_cast <;> linarith [hs.1, hs.2]
    rw [c, if_neg (by omega), this]
    exact (rnd_float (p := 53) (by norm_num) (IsFloat.int (by norm_num) (by norm_num))).symm
  · cases Option.some.inj h
    obtain ⟨a, b⟩ := set_spec m x y
    obtain ⟨n, hn⟩ := hy.isInt h3
    refine ⟨a, b ▸ hy, ?_⟩
    rw [b, if_pos h3, hn, Int.floor_intCast]
  · obtain ⟨a, b, c⟩ := setD_spec h
    refine ⟨a, b, ?_⟩
    rw [c, if_neg (by omega), Num.val_scale]

theorem ceil_isSome {m : Mem} {x y : Nat} (hy : (m y).Normal) : ∃ m', ceil m x y = some m' := by
  unfold ceil
  split_ifs with h1 h2 h3
  · exact setSi_isSome m x (by norm_num)
  · exact setSi_isSome m x (by norm_num)
  · exact ⟨_, rfl⟩
  · rw [Num.val_scale]
    have := setD_int_isSome m x (v := -⌊-(m y).val⌋) (by
      have h4 := abs_lt.mp (hy.lt_two_pow (b := 64) (by omega))
      have h5 := Int.floor_le (-(m y).val)
      have h6 := Int.lt_floor_add_one (-(m y).val)
      have h7 : |((-⌊-(m y).val⌋ : ℤ) : ℚ)| < 2 ^ 65 := by
        push_cast
        rw [abs_lt]; constructor <;> linarith
      exact_mod_cast h7)
    simpa using this

theorem ceil_spec {m m' : Mem} {x y : Nat} (h : ceil m x y = some m') (hy : (m y).Normal) :
    Only x m m' ∧ (m' x).Normal ∧
    (m' x).val = if 64 ≤ (m y).exp then (⌈(m y).val⌉ : ℚ) else rnd 53 ⌈(m y).val⌉ := by
  unfold ceil at h
  split_ifs at h with h1 h2 h3
  · obtain ⟨a, b, c⟩ := setSi_spec h (by norm_num)
    refine ⟨a, b, ?_⟩
    rw [sign_val] at h2
    have hs := abs_lt.mp (hy.lt_two_pow (b := 0) (by simpa using h1))
    have h0 : 0 < (m y).val := by
      by_contra hc
      unfold sign at h2
      rw [if_neg hc] at h2
      split_ifs at h2 <;> norm_num at h2
    have : ⌈(m y).val⌉ = 1 := by
      rw [Int.ceil_eq_iff]; constructor <;> push_cast <;> linarith [hs.1, hs.2]
    rw [c, if_neg (by omega), this]
    exact (rnd_float (p := 53) (by norm_num) (IsFloat.int (by norm_num) (by norm_num))).symm
  · obtain ⟨a, b, c⟩ := setSi_spec h (by norm_num)
    refine ⟨a, b, ?_⟩
    rw [sign_val] at h2
    have hs := abs_lt.mp (hy.lt_two_pow (b := 0) (by simpa using h1))
    have h0 : (m y).val ≤ 0 := by
      by_contra hc
      push Not at hc
      apply h2
      unfold sign
      rw [if_neg (not_lt.mpr hc.le), if_pos hc]
      norm_num
    have : ⌈(m y).val⌉ = 0 := by
      rw [Int.ceil_eq_iff]; constructor <;> push_cast <;> linarith [hs.1, hs.2]
    rw [c, if_neg (by omega), this]
    simp [rnd]
  · cases Option.some.inj h
    obtain ⟨a, b⟩ := set_spec m x y
    obtain ⟨n, hn⟩ := hy.isInt h3
    refine ⟨a, b ▸ hy, ?_⟩
    rw [b, if_pos h3, hn, Int.ceil_intCast]
  · obtain ⟨a, b, c⟩ := setD_spec h
    refine ⟨a, b, ?_⟩
    rw [c, if_neg (by omega), Num.val_scale]
    congr 1

theorem truncZ_bounds (q : ℚ) : |q - truncZ q| < 1 ∧ |(truncZ q : ℚ)| ≤ |q| := by
  unfold truncZ
  split_ifs with h
  · have h1 := Int.floor_le q
    have h2 := Int.lt_floor_add_one q
    have h3 : (0 : ℚ) ≤ ⌊q⌋ := by exact_mod_cast Int.floor_nonneg.mpr h
    refine ⟨?_, ?_⟩
    · rw [abs_lt]; constructor <;> linarith
    · rw [abs_of_nonneg h3, abs_of_nonneg h]; exact h1
  · push Not at h
    have h1 := Int.floor_le (-q)
    have h2 := Int.lt_floor_add_one (-q)
    have h3 : (0 : ℚ) ≤ ⌊-q⌋ := by exact_mod_cast Int.floor_nonneg.mpr (by linarith)
    push_cast
    refine ⟨?_, ?_⟩
    · rw [abs_lt]; constructor <;> linarith
    · rw [abs_neg, abs_of_nonneg h3, abs_of_neg h]; exact h1

theorem truncZ_int (n : ℤ) : truncZ n = n := by
  unfold truncZ
  split_ifs
  · simp
  · rw [Int.floor_neg]; simp

theorem frac_spec {m m' : Mem} {x y : Nat} (h : frac m x y = some m') (hy : (m y).Normal) :
    Only x m m' ∧ (m' x).Normal ∧
    (m' x).val = if (m y).exp ≤ 0 ∨ 64 ≤ (m y).exp then (m y).val - truncZ (m y).val
      else rnd 53 ((m y).val - truncZ (m y).val) := by
  unfold frac at h
  split_ifs at h with h1 h2
  · cases Option.some.inj h
    obtain ⟨a, b⟩ := set_spec m x y
    refine ⟨a, b ▸ hy, ?_⟩
    have hs := abs_lt.mp (hy.lt_two_pow (b := 0) (by simpa using h1))
    have : truncZ (m y).val = 0 := by
      unfold truncZ
      split_ifs
      · rw [Int.floor_eq_iff]; constructor <;> push_cast <;> linarith [hs.1, hs.2]
      · rw [neg_eq_zero, Int.floor_eq_iff]; constructor <;> push_cast <;> linarith [hs.1, hs.2]
    rw [b, if_pos (Or.inl h1), this]; simp
  · obtain ⟨a, b, c⟩ := setSi_spec h (by norm_num)
    refine ⟨a, b, ?_⟩
    obtain ⟨n, hn⟩ := hy.isInt h2
    rw [c, if_pos (Or.inr h2), hn, truncZ_int]; simp
  · obtain ⟨a, b, c⟩ := setD_spec h
    refine ⟨a, b, ?_⟩
    rw [c, if_neg (by omega), Num.val_scale]
    congr 1
    -- the subtraction of `long double`s is exact
    have : IsFloat 64 ((m y).val - truncZ (m y).val) := by
      obtain ⟨k, hk⟩ := hy.mult
      have e : (m y).val = k * 2 ^ ((m y).exp - 64) := by
        unfold Num.val
        rw [hk, mul_assoc, ← zpow_add₀ (by norm_num)]; congr 2; ring
      refine ⟨k - truncZ (m y).val * 2 ^ (64 - (m y).exp).toNat, (m y).exp - 64, ?_, ?_⟩
      · have h3 := (truncZ_bounds (m y).val).1
        have e2 : ((k - truncZ (m y).val * 2 ^ (64 - (m y).exp).toNat : ℤ) : ℚ)
            = ((m y).val - truncZ (m y).val) * 2 ^ (64 - (m y).exp) := by
          push_cast
          rw [sub_mul, ← zpow_natCast (2 : ℚ), Int.toNat_of_nonneg (by omega)]
          have e3 : (m y).val * 2 ^ (64 - (m y).exp) = k := by
            rw [e, mul_assoc, ← zpow_add₀ (by norm_num)]
            simp
          rw [e3]
        have h4 : |((k - truncZ (m y).val * 2 ^ (64 - (m y).exp).toNat : ℤ) : ℚ)| < 2 ^ 64 := by
          rw [e2, abs_mul, abs_of_pos (by positivity : (0 : ℚ) < 2 ^ (64 - (m y).exp))]
          have h5 : (2 : ℚ) ^ (64 - (m y).exp) ≤ 2 ^ (64 : ℤ) :=
            zpow_le_zpow_right₀ (by norm_num) (by omega)
          have h6 : (0 : ℚ) < 2 ^ (64 - (m y).exp) := by positivity
          have h7 : (2 : ℚ) ^ (64 : ℤ) = 2 ^ 64 := by norm_cast
          rw [← h7]
          nlinarith
        exact_mod_cast h4
      · push_cast
        rw [sub_mul, ← zpow_natCast (2 : ℚ), Int.toNat_of_nonneg (by omega), mul_assoc (_ : ℚ) (2 ^ (64 - (m y).exp)),
          ← zpow_add₀ (by norm_num), show 64 - (m y).exp + ((m y).exp - 64) = 0 by ring, ← e]
        simp
    exact rnd_float (p := 64) (by norm_num) this

/-! ## Conversions -/

theorem trunc_trunc (q : ℚ) (n : ℕ) (hn : 0 < n) : truncZ ((truncZ (q * n) : ℚ) / n) = truncZ q := by
  have hn' : (0 : ℚ) < n := by exact_mod_cast hn
  have key : ∀ a : ℚ, 0 ≤ a → ⌊(⌊a * n⌋ : ℚ) / n⌋ = ⌊a⌋ := by
    intro a _
    rw [Int.floor_eq_iff]
    constructor
    · rw [le_div_iff₀ hn']
      have : ⌊a⌋ * (n : ℤ) ≤ ⌊a * n⌋ := by
        rw [Int.le_floor]; push_cast
        have := Int.floor_le a
        nlinarith
      exact_mod_cast this
    · have h1 := Int.floor_le (a * n)
      have h2 := Int.lt_floor_add_one a
      rw [div_lt_iff₀ hn']
      nlinarith
  unfold truncZ
  by_cases h : 0 ≤ q
  · have h1 : 0 ≤ q * n := by positivity
    rw [if_pos h1, if_pos (by
      have : (0 : ℚ) ≤ ⌊q * n⌋ := by exact_mod_cast Int.floor_nonneg.mpr h1
      positivity), if_pos h, key q h]
  · push Not at h
    have h1 : ¬ 0 ≤ q * n := by
      push Not; exact mul_neg_of_neg_of_pos h hn'
    rw [if_neg h1, if_neg (not_le.mpr h)]
    have h2 : (0 : ℚ) ≤ ⌊-q * n⌋ := by
      exact_mod_cast Int.floor_nonneg.mpr (by nlinarith)
    have e : ((-⌊-(q * n)⌋ : ℤ) : ℚ) / n = -((⌊-q * n⌋ : ℚ) / n) := by
      push_cast; rw [neg_mul]; ring
    rw [e]
    split_ifs with h3
    · have h4 : (⌊-q * n⌋ : ℚ) / n = 0 := by
        have : 0 ≤ (⌊-q * n⌋ : ℚ) / n := by positivity
        linarith
      have := key (-q) (by linarith)
      rw [h4] at this ⊢
      rw [← this]
      simp
    · rw [neg_neg, key (-q) (by linarith)]

theorem getSiExp_spec {y : Num} (hy : y.Normal) : (y.exp ≤ 63 → getSiExp y = (truncZ y.val, 0)) ∧
    (64 ≤ y.exp → (getSiExp y).2 = y.exp - 63 ∧
      (getSiExp y).1 = truncZ (y.val * 2 ^ (63 - y.exp))) ∧ |(getSiExp y).1| < 2 ^ 63 := by
  have two : (2 : ℚ) ≠ 0 := by norm_num
  have hr : rnd 64 (y.mant * pow2 63) = y.mant * 2 ^ (63 : ℤ) := by
    rw [pow2_eq]
    exact rnd_float (p := 64) (by norm_num) (hy.float.mul 63)
  have hb : ∀ q : ℚ, |q| < 2 ^ 63 → |truncZ q| < 2 ^ 63 := by
    intro q hq
    have := (truncZ_bounds q).2
    have : |(truncZ q : ℚ)| < 2 ^ 63 := by linarith
    exact_mod_cast this
  have hm : |y.mant * 2 ^ (63 : ℤ)| < 2 ^ 63 := by
    have := hy.mant_bounds
    rw [abs_mul, abs_of_pos (by positivity : (0 : ℚ) < 2 ^ (63 : ℤ))]
    norm_num
    linarith
  unfold getSiExp getSiExp0
  simp only [hr]
  by_cases h0 : y.mant = 0
  · have he : y.exp = intMin := by
      rcases hy with h | h
      · exact h.2
      · rw [h0] at h; norm_num at h
    have hv := Num.val_eq_zero.mpr h0
    have t0 : truncZ 0 = 0 := by simpa using truncZ_int 0
    simp [h0, hv, t0, he, intMin]
  simp only [h0, if_false]
  split_ifs with h1
  · have hv : scale ((truncZ (y.mant * 2 ^ (63 : ℤ)) : ℤ) : ℚ) (y.exp - 63)
        = (truncZ (y.mant * 2 ^ (63 : ℤ)) : ℚ) * 2 ^ (y.exp - 63) := scale_eq _ _
    have ht : truncZ (scale ((truncZ (y.mant * 2 ^ (63 : ℤ)) : ℤ) : ℚ) (y.exp - 63)) = truncZ y.val := by
      have hn : (0 : ℕ) < 2 ^ (63 - y.exp).toNat := by positivity
      have := trunc_trunc y.val (2 ^ (63 - y.exp).toNat) hn
      have e1 : ((2 ^ (63 - y.exp).toNat : ℕ) : ℚ) = 2 ^ (63 - y.exp) := by
        push_cast
        rw [← zpow_natCast, Int.toNat_of_nonneg (by omega)]
      rw [e1] at this
      rw [hv, ← this]
      congr 1
      have e2 : y.val * 2 ^ (63 - y.exp) = y.mant * 2 ^ (63 : ℤ) := by
        unfold Num.val
        rw [mul_assoc, ← zpow_add₀ two]; congr 2; ring
      rw [e2, div_eq_mul_inv, ← zpow_neg]
      congr 2; ring
    refine ⟨fun _ => by rw [ht], fun h => by omega, ?_⟩
    simp only
    rw [ht]
    exact hb _ (hy.lt_two_pow (b := 63) (by push_cast; omega))
  · have e2 : y.val * 2 ^ (63 - y.exp) = y.mant * 2 ^ (63 : ℤ) := by
      unfold Num.val
      rw [mul_assoc, ← zpow_add₀ two]; congr 2; ring
    refine ⟨fun h => ?_, fun h => ⟨rfl, by rw [e2]⟩, hb _ hm⟩
    have he : y.exp = 63 := by omega
    rw [he] at e2
    simp at e2
    simp [he, e2]

theorem viaString_eq (v : ℤ) : viaString v = if v = -1 then Conv.overrun else Conv.ok v := by
  have lenle : ∀ n k : ℕ, 0 < k → n < 10 ^ k → (Nat.toDigits 10 n).length ≤ k := fun n k hk h =>
    (Nat.length_toDigits_le_iff (by norm_num) hk).mpr h
  unfold viaString decLen
  rcases lt_trichotomy v 0 with h | h | h
  · simp only [h, h.ne, if_true, if_false]
    by_cases h1 : v = -1
    · subst h1; decide
    · have hn : v.natAbs ≠ 0 := by omega
      have hL : 1 ≤ Nat.log2 v.natAbs := (Nat.le_log2 hn).mpr (by omega)
      have hlt : v.natAbs < 2 ^ (Nat.log2 v.natAbs + 1) := Nat.lt_log2_self
      have h10 : ∀ L : ℕ, 1 ≤ L → 2 ^ (L + 1) ≤ 10 ^ L := by
        intro L hL
        induction L, hL using Nat.le_induction with
        | base => norm_num
        | succ L _ ih => rw [pow_succ, pow_succ 10]; omega
      have := lenle v.natAbs _ hL (hlt.trans_le (h10 _ hL))
      rw [if_pos (by omega), if_neg h1]
  · subst h; decide
  · have hn : v.natAbs ≠ 0 := by omega
    have hlt : v.natAbs < 2 ^ (Nat.log2 v.natAbs + 1) := Nat.lt_log2_self
    have := lenle v.natAbs (Nat.log2 v.natAbs + 1) (by omega)
      (hlt.trans_le (Nat.pow_le_pow_left (by norm_num) _))
    rw [if_pos, if_neg (by omega)]
    rw [if_neg (by omega), if_neg (by omega)]
    omega

theorem setF_spec {y : Num} (hy : y.Normal) :
    (64 ≤ y.exp → ∃ v : ℤ, (v : ℚ) = y.val ∧ setF y = Conv.ok v) ∧
    (y.exp ≤ 63 → setF y = if roundAway y.val = 2 ^ 63 then Conv.lroundRange
      else if roundAway y.val = -1 then Conv.overrun else Conv.ok (roundAway y.val)) := by
  constructor
  · intro h
    obtain ⟨k, hk⟩ := hy.mult
    have hm : y.mant * pow2 64 = k := by
      rw [pow2_eq, hk, mul_assoc, ← zpow_add₀ (by norm_num)]; simp
    refine ⟨k * 2 ^ (y.exp - 64).toNat, ?_, ?_⟩
    · unfold Num.val
      rw [hk, mul_assoc, ← zpow_add₀ (by norm_num)]
      push_cast
      rw [← zpow_natCast, Int.toNat_of_nonneg (by omega)]
      congr 2; ring
    · unfold setF
      rw [if_pos h, hm, truncZ_int, viaString_eq]
      have : k ≠ -1 := by
        rintro rfl
        have hm0 : y.mant ≠ 0 := by rw [hk]; norm_num
        obtain ⟨a, -⟩ := hy.ne_cases hm0
        rw [hk] at a
        norm_num at a
      rw [if_neg this]
  · intro h
    unfold setF
    rw [if_neg (by omega), Num.val_scale]
    have hb := roundAway_lt (hy.lt_two_pow (b := 63) (by push_cast; omega))
    have hb2 := abs_le.mp hb
    unfold lround
    by_cases h1 : roundAway y.val = 2 ^ 63
    · rw [h1]; simp
    · rw [if_pos ⟨hb2.1, lt_of_le_of_ne hb2.2 h1⟩, if_neg h1]
      exact viaString_eq _

theorem setFld_spec (x : ℚ) : setFld x =
    if |roundAway x| ≤ 2 ^ 63 ∧ roundAway x ≠ 2 ^ 63 then
      (if roundAway x = -1 then Conv.overrun else Conv.ok (roundAway x))
    else Conv.lroundRange := by
  unfold setFld lround
  by_cases h : |roundAway x| ≤ 2 ^ 63 ∧ roundAway x ≠ 2 ^ 63
  · have h1 := abs_le.mp h.1
    rw [if_pos ⟨h1.1, lt_of_le_of_ne h1.2 h.2⟩, if_pos h]
    exact viaString_eq _
  · rw [if_neg h, if_neg]
    rintro ⟨a, b⟩
    exact h ⟨abs_le.mpr ⟨a, b.le⟩, b.ne⟩

theorem sizeInBits_eq {v : ℤ} (hv : v ≠ 0) : sizeInBits v = Nat.log2 v.natAbs := by
  have key : ∀ n : ℕ, n ≠ 0 → sizeInBits.go n = Nat.log2 n := by
    intro n
    induction n using Nat.strong_induction_on with
    | _ n ih =>
      intro hn
      rw [sizeInBits.go]
      split_ifs with h
      · rw [ih (n >>> 1) (by rw [Nat.shiftRight_one]; omega) (by rw [Nat.shiftRight_one]; omega)]
        rw [Nat.shiftRight_one]
        conv_rhs => rw [Nat.log2_def]
        rw [if_pos (by omega)]
      · have : n = 1 := by omega
        subst this; decide
  unfold sizeInBits
  have : v.natAbs ≠ 0 := by omega
  rw [if_neg this, key _ this]

theorem setZ_spec (m : Mem) (x : Nat) {z : ℤ} (hz : z ≠ 0) :
    Only x m (setZ m x z) ∧ (setZ m x z x).val = rnd 64 (rnd 80 z) ∧
    1 / 2 ≤ |(setZ m x z x).mant| ∧ |(setZ m x z x).mant| < 1 ∧ IsFloat 64 (setZ m x z x).mant := by
  have two : (2 : ℚ) ≠ 0 := by norm_num
  have h80 : rnd 80 (z : ℚ) ≠ 0 := fun h =>
    hz (by exact_mod_cast (rnd_eq_zero (p := 80) (by norm_num)).mp h)
  have h64 : rnd 64 (rnd 80 (z : ℚ)) ≠ 0 := fun h =>
    h80 ((rnd_eq_zero (p := 64) (by norm_num)).mp h)
  have hx : setZ m x z x = ⟨rnd 64 (rnd 80 z) * pow2 (-bexp (rnd 64 (rnd 80 z))),
      bexp (rnd 64 (rnd 80 z))⟩ := by
    simp [setZ, getLd2exp, h80]
  refine ⟨(only_setMant m x _).trans (only_setExp _ x _), ?_, ?_⟩
  · rw [hx]
    simp only [Num.val, pow2_eq]
    rw [mul_assoc, ← zpow_add₀ two]; simp
  · rw [hx]
    obtain ⟨a, b⟩ := frexp_range h64
    refine ⟨a, b, ?_⟩
    rw [pow2_eq]
    exact (rnd_isFloat _).mul _

theorem setZ_err (z : ℤ) : |(rnd 64 (rnd 80 z) : ℚ) - z| ≤ (2 ^ (-64 : ℤ) + 2 ^ (-79 : ℤ)) * |(z : ℚ)| := by
  have h1 := rnd_err (p := 80) (z : ℚ)
  have h2 := rnd_err (p := 64) (rnd 80 (z : ℚ))
  have h3 : |rnd 80 (z : ℚ)| ≤ |(z : ℚ)| + |(z : ℚ) - rnd 80 z| := by
    have := abs_sub (z : ℚ) ((z : ℚ) - rnd 80 z)
    rwa [sub_sub_cancel] at this
  have h4 : |(rnd 64 (rnd 80 z) : ℚ) - z| ≤ |rnd 80 (z : ℚ) - rnd 64 (rnd 80 z)| + |(z : ℚ) - rnd 80 z| := by
    have := abs_add_le (-(rnd 80 (z : ℚ) - rnd 64 (rnd 80 z))) (-((z : ℚ) - rnd 80 z))
    rw [abs_neg, abs_neg] at this
    refine le_trans (le_of_eq ?_) this
    congr 1; ring
  norm_num at h1 h2 ⊢
  nlinarith [abs_nonneg (z : ℚ)]

end HPLLL.Ldpe
