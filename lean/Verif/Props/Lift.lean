import Verif.Props.RelF
import Verif.Model.Lift
import Verif.Spec.Exact
/-!
# `lift_z` (C80)
-/

namespace HPLLL.Props
open HPLLL Spec Matrix Finset

variable {F G : Type}

theorem lzStep_cases {e : RelFEnv F G} {d : ℕ} {gapbits lllmethod : ℤ} {delta : F}
    {s s' : LiftState F G} {r : Option ℤ} (h : lzStep e d gapbits lllmethod delta s = some (s', r)) :
    ∃ r0, liftStep e d gapbits 0 lllmethod 0 delta s = some (s', r0) ∧
      ∀ x, r = some x → r0 = some x ∧ (x = 1 → e.q.lt s'.newQuot (e.q.ofZ 10) = true) := by
  unfold lzStep at h
  split at h
  · simp at h
  · rename_i s1 r1 hs
    split at h
    · rename_i hr
      split at h
      · rename_i hlt
        simp only [Option.some.injEq, Prod.mk.injEq] at h
        obtain ⟨rfl, rfl⟩ := h
        exact ⟨_, hs, fun x hx => ⟨by rw [hr, hx], fun _ => hlt⟩⟩
      · simp only [Option.some.injEq, Prod.mk.injEq] at h
        obtain ⟨rfl, rfl⟩ := h
        exact ⟨_, hs, by simp⟩
    · rename_i hr
      simp only [Option.some.injEq, Prod.mk.injEq] at h
      obtain ⟨rfl, rfl⟩ := h
      refine ⟨_, hs, fun x hx => ⟨hx, fun h1 => ?_⟩⟩
      simp only [Option.some.injEq] at hx
      exact absurd (hx.trans h1) hr
  · rename_i s1 hs
    simp only [Option.some.injEq, Prod.mk.injEq] at h
    obtain ⟨rfl, rfl⟩ := h
    exact ⟨_, hs, by simp⟩

/-- What a relation reported by `lift_z` has passed. -/
def LiftPassed (e : RelFEnv F G) (d : ℕ) (gapbits : ℤ) (q0 : G) (log : List (RelFCall F G))
    (residual : ℤ) : Prop :=
  QuotChain q0 log ∧ LastTest e d (e.pow2 (-gapbits)) log residual ∧
    ∃ l c, log = l ++ [c] ∧ e.q.lt c.quot (e.q.ofZ 10) = true

theorem lzLoop_inv {e : RelFEnv F G} {d : ℕ} (hd : 0 < d) {gapbits shift increment lllmethod : ℤ}
    {delta : F} {L0 : Mat Int} {q0 : G} : ∀ (fuel : ℕ) (S : ℤ) (s s' : LiftState F G) (r : ℤ),
    LiftInv e d lllmethod L0 s → QuotOk q0 s.newQuot s.log →
    lzLoop e d gapbits shift increment lllmethod delta fuel S s = some (s', r) →
    LiftInv e d lllmethod L0 s' ∧ QuotOk q0 s'.newQuot s'.log ∧
      (r = 0 ∨ (r = 1 ∧ LiftPassed e d gapbits q0 s'.log (s'.L 0 0))) ∧
      ∃ l, s'.log = s.log ++ l ∧ (∀ c ∈ l, c.sizemethod = 0 ∧ c.delta = delta) ∧
        s'.newDef = s.newDef + increment * l.length := by
  intro fuel
  induction fuel with
  | zero => intro S s s' r _ _ h; simp [lzLoop] at h
  | succ fuel ih =>
    intro S s s' r hI hq h
    have hI' : LiftInv e d lllmethod L0 { s with newDef := s.newDef + increment } :=
      ⟨hI.hist, hI.lrow, hI.uu, hI.low, hI.pr⟩
    unfold lzLoop at h
    split at h
    · split at h
      · simp at h
      · rename_i s1 r1 hs
        simp only [Option.some.injEq, Prod.mk.injEq] at h
        obtain ⟨rfl, rfl⟩ := h
        obtain ⟨r0, hs0, hr0⟩ := lzStep_cases hs
        obtain ⟨hr1, hlt⟩ := hr0 _ rfl
        obtain ⟨a, b, c, c1, c2, c3⟩ := liftStep_inv hd hI' hs0
        have hq1 := liftStep_quot (s := { s with newDef := s.newDef + increment }) hq hs0
        refine ⟨a, hq1, ?_, [c], c1, fun c' hc' => ?_, by rw [b]; simp⟩
        · rw [hr1] at hs0
          rcases liftStep_found hd hs0 with h | ⟨h1, h2⟩
          · exact Or.inl h
          · refine Or.inr ⟨h1, hq1.1, by simpa using h2, s.log, c, c1, ?_⟩
            have h3 := hlt h1
            have h4 := hq1.2
            rw [c1] at h4
            rw [h4] at h3
            simpa [lastQuot] using h3
        · rw [List.mem_singleton.1 hc']; exact ⟨c2, c3⟩
      · rename_i s1 hs
        obtain ⟨r0, hs0, -⟩ := lzStep_cases hs
        obtain ⟨a, b, c, c1, c2, c3⟩ := liftStep_inv hd hI' hs0
        have hq1 := liftStep_quot (s := { s with newDef := s.newDef + increment }) hq hs0
        obtain ⟨k1, kq, kr, l, k2, k3, k4⟩ := ih _ s1 s' r a hq1 h
        refine ⟨k1, kq, kr, c :: l, by rw [k2, c1]; simp, fun c' hc' => ?_, ?_⟩
        · rcases List.mem_cons.1 hc' with rfl | hc'
          · exact ⟨c2, c3⟩
          · exact k3 c' hc'
        · rw [k4, b, List.length_cons]; push_cast; ring
    · simp only [Option.some.injEq, Prod.mk.injEq] at h
      obtain ⟨rfl, rfl⟩ := h
      exact ⟨hI, hq, Or.inl rfl, [], by simp, by simp, by simp⟩

theorem lzMain_inv {e : RelFEnv F G} {d : ℕ} (hd : 0 < d) {inner : ℕ}
    {target gapbits shift increment lllmethod : ℤ} {delta : F} {A : Mat Int} {q0 : G} :
    ∀ (fuel : ℕ) (s s' : RelFState F G) (r : ℤ), RelFInv e d lllmethod A s → QuotOk q0 s.newQuot s.log →
      lzMain e inner d target gapbits shift increment lllmethod delta fuel s = some (s', r) →
      RelFInv e d lllmethod A s' ∧ (r = 0 ∨ (r = 1 ∧ LiftPassed e d gapbits q0 s'.log (s'.A 0 0))) ∧
        (r = 0 → target ≤ s'.def_) ∧ ∃ l, s'.log = s.log ++ l ∧
        (∀ c ∈ l, c.sizemethod = 0 ∧ c.delta = delta) ∧ s'.def_ = s.def_ + increment * l.length := by
  intro fuel
  induction fuel with
  | zero => intro s s' r _ _ h; simp [lzMain] at h
  | succ fuel ih =>
    intro s s' r hI hq h
    unfold lzMain at h
    split at h
    · simp only [] at h
      split at h
      · simp at h
      rename_i t found ht
      obtain ⟨k1, kq, kr, l, k2, k3, k4⟩ := lzLoop_inv hd inner 0 (liftStart e d 0 s) t found
        (liftStart_inv 0 hI) hq ht
      have hround := fun sh => liftRound_inv hd hI k1 k2 sh
      split at h
      · rename_i hf
        simp only [Option.some.injEq, Prod.mk.injEq] at h
        obtain ⟨rfl, rfl⟩ := h
        refine ⟨hround _, Or.inr ⟨rfl, ?_⟩, by simp, l, k2, k3, k4⟩
        have h2 : t.L 0 0 = matprodIn (1 + d) d t.U s.A 0 0 := by
          have a := congrFun (congrFun k1.lrow 0) ⟨0, hd⟩
          have b := congrFun (congrFun (C46_products (1 + d) d d hd s.A t.U s.A).2.1 ⟨0, by omega⟩) ⟨0, hd⟩
          rw [Matrix.mul_apply] at a b
          simp only [toMatrix, of_apply] at a b
          simp only [Fin.val_zero] at a
          rw [a, b]
        rcases kr with h3 | ⟨-, h3⟩
        · omega
        · simp only []
          rw [← h2]
          exact h3
      · obtain ⟨m1, m2, m3, l', m4, m5, m6⟩ := ih _ s' r (hround _) kq h
        refine ⟨m1, m2, m3, l ++ l', by rw [m4]; simp only []; rw [k2]; exact List.append_assoc _ _ _, ?_, ?_⟩
        · intro c hc
          rcases List.mem_append.1 hc with hc | hc
          · exact k3 c hc
          · exact m5 c hc
        · rw [m6]; simp only []; rw [k4, List.length_append]; simp only [liftStart]; push_cast; ring
    · simp only [Option.some.injEq, Prod.mk.injEq] at h
      obtain ⟨rfl, rfl⟩ := h
      exact ⟨hI, Or.inl rfl, fun _ => by omega, [], by simp, by simp, by simp⟩

theorem liftZ_cases {e : RelFEnv F G} {fuel inner d : ℕ} (hd : 0 < d) {A : Mat Int}
    {alpha gapbits shift increment lllmethod : ℤ} {delta : F} {C0 : Mat Int} {out : RelFOut F G}
    (h : liftZ e fuel inner d A alpha gapbits shift increment lllmethod delta C0 = some out) :
    RelFInv e d lllmethod A out.last ∧
    (out.found = 0 ∨ (out.found = 1 ∧ LiftPassed e d gapbits e.q.one out.last.log (out.last.A 0 0))) ∧
    (out.found = 0 → out.C = C0 ∧ alpha ≤ increment * out.last.log.length) ∧
    (out.found = 1 → ∀ j < d, out.C 0 j = out.last.A 0 (1 + j)) ∧
    (∀ c ∈ out.last.log, c.sizemethod = 0 ∧ c.delta = delta) := by
  unfold liftZ at h
  simp only [] at h
  split at h
  · simp at h
  rename_i s found hl
  simp only [Option.some.injEq] at h
  subst h
  obtain ⟨k1, k2, k3, l, k4, k5, k6⟩ := lzMain_inv hd fuel _ s found
    (relFStart_inv e d A lllmethod _ _ _) (QuotOk.start _) hl
  simp only [List.nil_append] at k4
  refine ⟨k1, k2, fun h => ⟨by simp only [] at h; simp [h], ?_⟩, fun h j hj => ?_, ?_⟩
  · have := k3 h
    simp only [] at k6 ⊢
    rw [k4]
    omega
  · simp only [] at h ⊢
    rw [if_pos h]
    exact relC_apply d s.A 0 C0 j hj
  · simp only []
    rw [k4]; exact k5

/-- **C80, parameters.** Every reduction of `lift_z` is done with the factor given, and the default size
reduction; when nothing is found, `C` is left as it was and the lifts have covered `alpha`. -/
theorem C80_parameters (e : RelFEnv F G) (fuel inner d : ℕ) (hd : 0 < d) (A : Mat Int)
    (alpha gapbits shift increment lllmethod : ℤ) (delta : F) (C0 : Mat Int) (out : RelFOut F G)
    (h : liftZ e fuel inner d A alpha gapbits shift increment lllmethod delta C0 = some out) :
    (out.found = 0 ∨ out.found = 1) ∧ (∀ c ∈ out.last.log, c.sizemethod = 0 ∧ c.delta = delta) ∧
    (out.found = 0 → out.C = C0 ∧ alpha ≤ increment * out.last.log.length) :=
  ⟨(liftZ_cases hd h).2.1.imp id And.left, (liftZ_cases hd h).2.2.2.2, (liftZ_cases hd h).2.2.1⟩

/-- **C80.** When `lift_z` reports a relation `C` for the integers `A(0,0), ..., A(0,d-1)`, `C` is the first column of
an integer matrix `W`, for every floating point behaviour, conversion, external reducer and number of lifts.
`W` is unimodular, hence `C` is primitive, provided that conversions to `long` are exact or give more than 50 bits,
and that: with HLLL, conversions to the floating point integers are exact below `2^53`, the coefficients of the
reduced matrices stay below `2^53`, and no operation on them is rounded in the reductions; with FPLLL, the external reducer returns unimodular matrices. -/
theorem C80_relation (e : RelFEnv F G) (fuel inner d : ℕ) (hd : 0 < d) (A : Mat Int)
    (alpha gapbits shift increment lllmethod : ℤ) (delta : F) (C0 : Mat Int) (out : RelFOut F G)
    (h : liftZ e fuel inner d A alpha gapbits shift increment lllmethod delta C0 = some out)
    (hf : out.found ≠ 0) :
    ∃ W : Matrix (Fin d) (Fin d) ℤ, (∀ j, entry out.C j = W j ⟨0, hd⟩) ∧
      ((∀ z, e.setF z = z ∨ 2 ^ 50 ≤ |e.setF z|) →
        ((lllmethod = methodHLLL ∧ (∀ z, e.setZ z = z ∨ 2 ^ 53 ≤ |e.setZ z|) ∧
            (∀ c ∈ out.last.log, ∀ i < d, ∀ j < d, |c.T i (1 + j)| < 2 ^ 53) ∧
            ∀ c ∈ out.last.log, c.exact = true) ∨
          (lllmethod = methodFPLLL ∧ ∀ delta T, Unimodular (toMatrix d d (e.fplll delta T).2))) →
        Unimodular W ∧ ∃ u : Fin d → ℤ, ∑ j, u j * entry out.C j = 1) := by
  obtain ⟨⟨⟨W, hW, hWu⟩, -⟩, h01, -, hC, -⟩ := liftZ_cases hd h
  have hlow := lowBlock_relInit d A out.last.A W hW
  have hC' : ∀ j, entry out.C j = W j ⟨0, hd⟩ := by
    intro j
    unfold entry
    rw [hC ((h01.resolve_left hf).1) j j.2, ← hlow]
    rfl
  refine ⟨W, hC', fun h1 h2 => ?_⟩
  have hu : IsUnit W.det := hWu ⟨h1, h2⟩
  refine ⟨unimodular_of_isUnit hu, fun j => W⁻¹ ⟨0, hd⟩ j, ?_⟩
  have := congrFun (congrFun (Matrix.nonsing_inv_mul W hu) ⟨0, hd⟩) ⟨0, hd⟩
  rw [Matrix.mul_apply, Matrix.one_apply_eq] at this
  simp only [hC']
  exact this

/-- **C80, no overflow.** The products of 64 bit matrices done by `lift_z` cannot overflow for `d ≤ 2^13`:
the test on the bit sizes bounds every term and every partial sum. -/
theorem C80_no_overflow (e : RelFEnv F G) (fuel inner d : ℕ) (hd : 0 < d) (hd' : d ≤ 2 ^ 13) (A : Mat Int)
    (alpha gapbits shift increment lllmethod : ℤ) (delta : F) (C0 : Mat Int) (out : RelFOut F G)
    (h : liftZ e fuel inner d A alpha gapbits shift increment lllmethod delta C0 = some out) :
    ∀ p ∈ out.last.prods, ∀ i < d, ∀ j < d, (∀ k < d, |p.1 k i * p.2 j k| < 2 ^ 63) ∧
      ∀ l ≤ d, |∑ k ∈ range l, p.1 k i * p.2 j k| < 2 ^ 63 := by
  intro p hp i hi j hj
  have hb := (liftZ_cases hd h).1.pr p hp
  have h1 := (C31_maxbitsize_rows 0 d d p.1).1
  have h2 := (C31_maxbitsize_rows 0 d d p.2).1
  set a := maxbitsizeRows 0 d d p.1
  set b := maxbitsizeRows 0 d d p.2
  have hk : ∀ k < d, |p.1 k i * p.2 j k| < 2 ^ 50 := by
    intro k hk
    rw [abs_mul]
    calc |p.1 k i| * |p.2 j k| < 2 ^ a * 2 ^ b :=
          mul_lt_mul'' (h1 i (Nat.zero_le _) hi k hk) (h2 k (Nat.zero_le _) hk j hj) (abs_nonneg _) (abs_nonneg _)
      _ = 2 ^ (a + b) := (pow_add _ _ _).symm
      _ ≤ 2 ^ 50 := pow_le_pow_right₀ (by norm_num) hb
  refine ⟨fun k hkd => lt_trans (hk k hkd) (by norm_num), fun l hl => ?_⟩
  rcases Nat.eq_zero_or_pos l with rfl | hl0
  · simp
  calc |∑ k ∈ range l, p.1 k i * p.2 j k| ≤ ∑ k ∈ range l, |p.1 k i * p.2 j k| := abs_sum_le_sum_abs _ _
    _ < ∑ _k ∈ range l, (2 : ℤ) ^ 50 := by
        refine sum_lt_sum_of_nonempty ⟨0, mem_range.2 hl0⟩ fun k hk' => hk k ?_
        have := mem_range.1 hk'
        omega
    _ = l * 2 ^ 50 := by simp
    _ ≤ 2 ^ 63 := by
        have : (l : ℤ) ≤ 2 ^ 13 := by exact_mod_cast le_trans hl hd'
        nlinarith

/-- **C80, the test.** The residual used by the test of a reported relation is the exact value of `A . C` (or 1
if it is zero); divided by the largest coefficient of the first column of the last reduced matrix it is less
than 10, and its ratio to the quotient of the preceding lift (1 for the first one) is below
`2^(-confidence_gap)`. -/
theorem C80_gap (e : RelFEnv F G) (fuel inner d : ℕ) (hd : 0 < d) (A : Mat Int)
    (alpha gapbits shift increment lllmethod : ℤ) (delta : F) (C0 : Mat Int) (out : RelFOut F G)
    (h : liftZ e fuel inner d A alpha gapbits shift increment lllmethod delta C0 = some out)
    (hf : out.found ≠ 0) :
    LiftPassed e d gapbits e.q.one out.last.log (∑ j : Fin d, A j 0 * entry out.C j) := by
  obtain ⟨⟨⟨W, hW, -⟩, -⟩, h01, -, hC, -⟩ := liftZ_cases hd h
  obtain ⟨hf1, hp⟩ := h01.resolve_left hf
  have hlow := lowBlock_relInit d A out.last.A W hW
  have hval : ∑ j : Fin d, A j 0 * entry out.C j = out.last.A 0 0 := by
    have a := congrFun (congrFun hW ⟨0, by omega⟩) ⟨0, hd⟩
    rw [relInit_mul, dif_pos rfl] at a
    simp only [toMatrix, of_apply] at a
    rw [a]
    refine sum_congr rfl fun j _ => ?_
    unfold entry
    rw [hC hf1 j j.2, ← hlow]
    rfl
  rw [hval]
  exact hp

/-- **C80, first lift.** Exact quotients: a relation reported by the first lift goes with a coefficient above
`2^confidence_gap` in the first column of the reduced matrix (its last row excepted), or with zeros there.  Hence, a
smaller relation found by the first lift is not reported by it. -/
theorem C80_first_lift (e : RelFEnv F ℝ) (he : Exact e.q) (hp : ∀ k : ℤ, e.pow2 k = (2 : ℝ) ^ k)
    (fuel inner d : ℕ) (hd : 0 < d) (A : Mat Int)
    (alpha gapbits shift increment lllmethod : ℤ) (delta : F) (C0 : Mat Int) (out : RelFOut F ℝ)
    (h : liftZ e fuel inner d A alpha gapbits shift increment lllmethod delta C0 = some out)
    (hf : out.found ≠ 0) (c : RelFCall F ℝ) (h1 : out.last.log = [c]) :
    (∀ i < d, c.Af 0 i = 0) ∨ ∃ i < d, (2 : ℝ) ^ gapbits < |(c.Af 0 i : ℝ)| := by
  obtain ⟨hch, ⟨l, c', m, hl, ⟨hm1, i, hi, hm2⟩, hq, hlt⟩, -⟩ := C80_gap e fuel inner d hd A alpha gapbits shift
    increment lllmethod delta C0 out h hf
  rw [h1] at hl hch
  have hc : l = [] ∧ c' = c := by
    cases l with
    | nil => simpa [eq_comm] using hl
    | cons a b => simp at hl
  obtain ⟨rfl, rfl⟩ := hc
  have hpv : c'.prev = 1 := by
    rw [hch [] c' [] rfl]
    exact he.one
  by_cases hm0 : m = 0
  · refine Or.inl fun j hj => ?_
    have := hm1 j hj
    rw [hm0] at this
    exact abs_eq_zero.1 (le_antisymm this (abs_nonneg _))
  refine Or.inr ⟨i, hi, ?_⟩
  have hmp : 0 < m := lt_of_le_of_ne (hm2 ▸ abs_nonneg _) (Ne.symm hm0)
  have hmr : (0 : ℝ) < m := by exact_mod_cast hmp
  obtain ⟨x, hx⟩ : ∃ x : ℤ, x = (if (∑ j : Fin d, A j 0 * entry out.C j) = 0 then 1
    else |∑ j : Fin d, A j 0 * entry out.C j|) := ⟨_, rfl⟩
  have hx1 : 1 ≤ x := by
    rw [hx]
    split
    · exact le_refl _
    · rename_i hne
      exact Int.one_le_abs hne
  rw [← hx] at hq
  rw [he.lt, he.abs, he.div, hpv, hq, he.div, he.ofZ, he.ofZ, hp, div_one, abs_div, abs_of_pos hmr,
    _root_.zpow_neg, div_lt_iff₀ hmr] at hlt
  have hx1r : (1 : ℝ) ≤ |(x : ℝ)| := le_trans (by exact_mod_cast hx1) (le_abs_self _)
  have h2 : (0 : ℝ) < 2 ^ gapbits := by positivity
  have h3 : (1 : ℝ) < (2 ^ gapbits)⁻¹ * m := lt_of_le_of_lt hx1r hlt
  rw [inv_mul_eq_div, lt_div_iff₀ h2, one_mul] at h3
  rw [← hm2] at h3
  exact_mod_cast h3

/-- **C80, termination fails for `shift ≤ 0`.** If `shift ≤ 0 < alpha` `lift_z` never returns. -/
theorem C80_never_returns (e : RelFEnv F G) (fuel inner d : ℕ) (A : Mat Int)
    (alpha gapbits shift increment lllmethod : ℤ) (delta : F) (C0 : Mat Int) (hs : shift ≤ 0)
    (ha : 0 < alpha) :
    liftZ e fuel inner d A alpha gapbits shift increment lllmethod delta C0 = none := by
  set bs : ℤ := ((maxbitsizeRows 0 1 d A : ℕ) : ℤ) with hbs
  have key : ∀ (fuel : ℕ) (s : RelFState F G), s.def_ < -bs + alpha → s.internShift ≤ 0 →
      lzMain e inner d (-bs + alpha) gapbits shift increment lllmethod delta fuel s = none := by
    intro fuel
    induction fuel with
    | zero => intro s _ _; rfl
    | succ fuel ih =>
      intro s h1 h2
      unfold lzMain
      rw [if_pos h1]
      simp only []
      rw [if_neg (by omega)]
      unfold lzDetect
      simp only []
      cases inner with
      | zero => simp [lzLoop]
      | succ inner =>
        simp only [lzLoop]
        rw [if_neg (by omega)]
        simp only [zero_ne_one, if_false]
        exact ih _ h1 h2
  unfold liftZ
  simp only []
  rw [key fuel _ (by simp only []; omega) hs]

/-- The reduction object of a round: built by the constructor, then used by `assign` and `hlll`. -/
inductive LzObject (e : RelFEnv F G) (d : ℕ) (delta : F) : Lat F → Prop
  | new (Af : Mat Int) : LzObject e d delta
      (newLattice e.o e.junk (1 + d) d Af true 0 e.longFlag 0)
  | reduce {s s' : Lat F} {st : ℤ} (T : Mat Int) (f : ℕ) : LzObject e d delta s →
      fHlll e.o e.rd e.rdE f delta true (s.assign T) = some (st, s') → LzObject e d delta s'

/-- **C80, termination.** For `shift > 0` and `increment > 0` `lift_z` returns if the reductions do: there is
a number of steps for the reductions with which the whole ends, in at most `max(alpha, 0) + 1` rounds of at
most `shift` lifts. -/
theorem C80_returns (e : RelFEnv F G) (d : ℕ) (A : Mat Int)
    (alpha gapbits shift increment lllmethod : ℤ) (delta : F) (C0 : Mat Int) (hs : 0 < shift)
    (hi : 0 < increment)
    (hred : lllmethod = methodHLLL → ∀ T B, LzObject e d delta B →
      ∃ f, (fHlll e.o e.rd e.rdE f delta true (B.assign T)).isSome = true) :
    ∃ f0, ∀ f ≥ f0, (liftZ { e with fuel := f } (max alpha 0 + 1).toNat (shift + 1).toNat d A alpha gapbits
      shift increment lllmethod delta C0).isSome = true := by
  have hredd : ∀ T B, LzObject e d delta B → ∃ f0 B' Af Vf, LzObject e d delta B' ∧
      ∀ f ≥ f0, liftReduce { e with fuel := f } d lllmethod delta T B = some (B', Af, Vf) := by
    intro T B hB
    unfold liftReduce
    by_cases hm : lllmethod = methodHLLL
    · obtain ⟨f0, hf0⟩ := hred hm T B hB
      obtain ⟨⟨st, B'⟩, hB'⟩ := Option.isSome_iff_exists.1 hf0
      refine ⟨f0, B', B'.getbase.M, B'.getU.M, .reduce T f0 hB hB', fun f hf => ?_⟩
      obtain ⟨k, rfl⟩ : ∃ k, f = f0 + k := ⟨f - f0, by omega⟩
      simp only [hm, if_true, fHlll_mono e.o e.rd e.rdE f0 k delta true _ _ hB']
    · by_cases hm' : lllmethod = methodFPLLL
      · exact ⟨0, B, _, _, hB, fun f _ => by simp only [if_neg hm, if_pos hm']; rfl⟩
      · exact ⟨0, B, _, _, hB, fun f _ => by simp only [if_neg hm, if_neg hm']; rfl⟩
  have hstep0 : ∀ (s : LiftState F G), LzObject e d delta s.B → ∃ f0 s' r,
      (∀ f ≥ f0, liftStep { e with fuel := f } d gapbits 0 lllmethod 0 delta s = some (s', r)) ∧
      s'.newDef = s.newDef ∧ LzObject e d delta s'.B := by
    intro s hO
    obtain ⟨f0, B, Af, Vf, hB, hf⟩ := hredd (liftRowF e d s.newDef s.L s.Af) s.B hO
    have hf' : ∀ f ≥ f0, liftReduce { e with fuel := f } d lllmethod delta
      (liftRowF { e with fuel := f } d s.newDef s.L s.Af) s.B = some (B, Af, Vf) := hf
    have h0 : ∃ s' r, liftStep { e with fuel := f0 } d gapbits 0 lllmethod 0 delta s = some (s', r) ∧
        s'.newDef = s.newDef ∧ LzObject e d delta s'.B := by
      unfold liftStep
      simp only [hf' f0 (le_refl _)]
      split
      · exact ⟨_, _, rfl, rfl, hB⟩
      · exact ⟨_, _, rfl, rfl, hB⟩
    obtain ⟨s', r, h1, h2, h3⟩ := h0
    refine ⟨f0, s', r, fun f hff => ?_, h2, h3⟩
    rw [← h1]
    unfold liftStep
    simp only [hf' f hff, hf' f0 (le_refl _)]
    rfl
  have hstep : ∀ (s : LiftState F G), LzObject e d delta s.B → ∃ f0 s' r,
      (∀ f ≥ f0, lzStep { e with fuel := f } d gapbits lllmethod delta s = some (s', r)) ∧
      s'.newDef = s.newDef ∧ LzObject e d delta s'.B := by
    intro s hO
    obtain ⟨f0, s', r, h1, h2, h3⟩ := hstep0 s hO
    have h0 : ∃ r', lzStep { e with fuel := f0 } d gapbits lllmethod delta s = some (s', r') := by
      unfold lzStep
      rw [h1 f0 (le_refl _)]
      cases r with
      | none => exact ⟨_, rfl⟩
      | some r =>
        simp only []
        split
        · split
          · exact ⟨_, rfl⟩
          · exact ⟨_, rfl⟩
        · exact ⟨_, rfl⟩
    obtain ⟨r', h4⟩ := h0
    refine ⟨f0, s', r', fun f hf => ?_, h2, h3⟩
    rw [← h4]
    unfold lzStep
    rw [h1 f hf, h1 f0 (le_refl _)]
  have hloop : ∀ (fuel : ℕ) (sh S : ℤ) (s : LiftState F G), LzObject e d delta s.B →
      sh - S < fuel → 0 < fuel →
      ∃ f0 s' r, (∀ f ≥ f0, lzLoop { e with fuel := f } d gapbits sh increment lllmethod delta
          fuel S s = some (s', r)) ∧
        s.newDef ≤ s'.newDef ∧ (S < sh → s.newDef < s'.newDef) := by
    intro fuel
    induction fuel with
    | zero => intro sh S s _ _ h; omega
    | succ fuel ih =>
      intro sh S s hO h1 _
      unfold lzLoop
      by_cases hlt : S < sh
      · obtain ⟨f1, s1, r1, hs1, hd1, hO1⟩ := hstep { s with newDef := s.newDef + increment } hO
        simp only [] at hd1
        cases r1 with
        | some r =>
          exact ⟨f1, s1, r, fun f hf => by simp only [hlt, if_true, hs1 f hf], by omega, fun _ => by omega⟩
        | none =>
          obtain ⟨f2, s', r, k1, k2, -⟩ := ih sh (S + increment) s1 hO1 (by push_cast at h1; omega)
            (by push_cast at h1; omega)
          refine ⟨max f1 f2, s', r, fun f hf => ?_, by omega, fun _ => by omega⟩
          simp only [hlt, if_true, hs1 f (le_trans (le_max_left _ _) hf)]
          exact k1 f (le_trans (le_max_right _ _) hf)
      · exact ⟨0, s, 0, fun f _ => by simp only [hlt, if_false], le_refl _, fun h => absurd h hlt⟩
  set bs : ℤ := ((maxbitsizeRows 0 1 d A : ℕ) : ℤ) with hbs
  have key : ∀ (fuel : ℕ) (s : RelFState F G), (-bs + alpha) - s.def_ < fuel → 0 < fuel →
      0 < s.internShift → s.internShift ≤ shift → ∃ f0, ∀ f ≥ f0,
      (lzMain { e with fuel := f } (shift + 1).toNat d (-bs + alpha) gapbits shift increment lllmethod delta
        fuel s).isSome = true := by
    intro fuel
    induction fuel with
    | zero => intro s _ h; omega
    | succ fuel ih =>
      intro s h1 _ h3 h4
      unfold lzMain
      by_cases hlt : s.def_ < -bs + alpha
      · simp only [hlt, if_true]
        set sh := (if -bs + alpha - s.def_ ≤ shift then -bs + alpha - s.def_ else s.internShift) with hsh
        have hsh0 : 0 < sh ∧ sh ≤ shift := by
          rw [hsh]; split <;> omega
        unfold lzDetect
        simp only []
        obtain ⟨f1, t, r, k1, k2, k3⟩ := hloop (shift + 1).toNat sh 0
          { U := setId d d fun _ _ => 0
            L := forRange 0 d (fun j M => setEntry M 0 j (s.A j 0)) fun _ _ => 0
            Af := forRange 0 d (fun i M => forRange 0 d (fun j M => setEntry M (1 + i) j
              (forRange 0 d (fun i M => forRange 0 d (fun j M => setEntry M i j (e.setZ (s.A j (1 + i)))) M)
                (fun _ _ => 0) j i)) M) fun j i => if i = 0 then e.af0 j else 0
            B := newLattice e.o e.junk (1 + d) d
              (forRange 0 d (fun i M => forRange 0 d (fun j M => setEntry M (1 + i) j
              (forRange 0 d (fun i M => forRange 0 d (fun j M => setEntry M i j (e.setZ (s.A j (1 + i)))) M)
                (fun _ _ => 0) j i)) M) fun j i => if i = 0 then e.af0 j else 0) true 0 e.longFlag 0
            newDef := s.def_
            newQuot := s.newQuot
            log := s.log
            prods := s.prods } (.new _) (by omega) (by omega)
        have k4 := k3 hsh0.1
        simp only [] at k4
        by_cases hr : r = 1
        · exact ⟨f1, fun f hf => by simp only [k1 f hf, hr, if_true, Option.isSome_some]⟩
        · obtain ⟨f2, hf2⟩ := ih
            { A := matprodIn (1 + d) d t.U s.A, def_ := t.newDef, newQuot := t.newQuot, internShift := sh,
              log := t.log, prods := t.prods }
            (by simp only []; push_cast at h1; omega) (by push_cast at h1; omega) hsh0.1 hsh0.2
          refine ⟨max f1 f2, fun f hf => ?_⟩
          simp only [k1 f (le_trans (le_max_left _ _) hf), hr, if_false]
          exact hf2 f (le_trans (le_max_right _ _) hf)
      · exact ⟨0, fun f _ => by simp [hlt]⟩
  obtain ⟨f0, hf0⟩ := key (max alpha 0 + 1).toNat
    { A := relInit d A, def_ := -bs, newQuot := e.q.one, internShift := shift, log := [], prods := [] }
    (by simp only []; omega) (by omega) hs (le_refl _)
  refine ⟨f0, fun f hf => ?_⟩
  obtain ⟨⟨s, r⟩, hsr⟩ := Option.isSome_iff_exists.1 (hf0 f hf)
  unfold liftZ
  simp only []
  have hsr' : lzMain { e with fuel := f } (shift + 1).toNat d (-((maxbitsizeRows 0 1 d A : ℕ) : ℤ) + alpha) gapbits
      shift increment lllmethod delta (max alpha 0 + 1).toNat
      { A := relInit d A, def_ := -((maxbitsizeRows 0 1 d A : ℕ) : ℤ),
        newQuot := e.q.one, internShift := shift, log := [], prods := [] } = some (s, r) := hsr
  rw [hsr']
  rfl


/-! ## Concrete runs -/

/-- The relation `4 * 3 - 3 * 4 = 0` is found in one lift. -/
example : ((liftZ toyRelF 40 40 2 (ofCols [[3], [4]]) 6 1 6 6 methodHLLL toy99 (fun _ _ => 0)).map
    fun r => (r.found, toCols 2 1 r.C, r.last.log.map fun c => (c.sizemethod, c.delta))) =
    some (1, [[4, -3]], [(0, toy99)]) := by
  decide +kernel

/-- **C80, first lift (DEFECT).** The quotient of the first lift is compared with 1, whatever `alpha`: a relation
already present after the first lift is not reported although it is found (the quotient is `1/4`, the threshold
`2^-6`), while `relation_f_z`, which starts from `2^alpha`, reports it for the same arguments. -/
theorem C80_first_lift_missed :
    ((liftZ toyRelF 40 40 2 (ofCols [[3], [4]]) 12 6 6 6 methodHLLL toy99 (fun _ _ => 0)).map
      fun r => (r.found, toCols 2 1 r.C, toCols 3 2 r.last.A)) = some (0, [[0, 0]], [[0, 4, -3], [1, -1, 1]]) ∧
    ((relationFZ toyRelF 40 40 2 (ofCols [[3], [4]]) 12 6 6 6 methodHLLL (fun _ _ => 0)).map
      fun r => (r.found, toCols 2 1 r.C)) = some (1, [[4, -3]]) := by
  decide +kernel

/-- **C80, false positives.** A column can be reported that is not a relation: `-3 + 4 = 1`. -/
theorem C80_false_relation :
    ((liftZ toyRelF 40 40 2 (ofCols [[3], [4]]) 5 1 5 1 methodHLLL toy99 (fun _ _ => 0)).map
      fun r => (r.found, toCols 2 1 r.C)) = some (1, [[-1, 1]]) := by
  decide +kernel

end HPLLL.Props
