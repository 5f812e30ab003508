import Verif.Proof.CondTri
import Verif.Spec.LLL
import Verif.Props.Exact
import Mathlib.Analysis.SpecialFunctions.Pow.Real
import Mathlib.Analysis.SpecialFunctions.Log.Base
import Mathlib.Data.Int.Log
import Verif.Proof.Printed
/-!
# Condition numbers, quality ratios and the precision they leave behind (C40, C41, C47-C49)
-/

namespace HPLLL.Props
open HPLLL Spec Matrix Finset

/-- The matrix of a basis over the reals. -/
def realMat (d : ℕ) (B : Mat Int) : Matrix (Fin d) (Fin d) ℝ :=
  (toMatrix d d B).map (Int.cast : ℤ → ℝ)

/-- `R` is a triangular factor of the `n × d` basis `B` (it is unique up to the signs of its rows):
upper triangular, with `Rᵀ R = Bᵀ B`. -/
structure IsRFactor {n d : ℕ} (M : Matrix (Fin n) (Fin d) ℤ) (R : Matrix (Fin d) (Fin d) ℝ) : Prop where
  upper : ∀ i j, j < i → R i j = 0
  gram : Rᵀ * R = (Mᵀ * M).map (Int.cast : ℤ → ℝ)

/-! ## C40: the global precision -/

section Precision
variable {F G : Type}

/-- **C40 (the claim is false).** `lcond(tproper, p, 0)` for a precision `p ≥ 2` given by the user leaves
the global default precision at `p`, and `lcond(tproper, 1, flagheur)` at `2 d maxbitsize`, whatever it was
before: the statements restoring it follow `return`.  With the heuristic check the default becomes the precision of
the object (`own`, 53 for `double`), not the default before.  In the other cases it is unchanged. -/
theorem C40_precision_after_lcond (o : FPOps F) (expo : F → ℤ) (mp : ℕ → FPOps G) (expoG : G → ℤ)
    (junk : Mat F) (junkG : ℕ → Mat G) (fuel : ℕ) (tproper flagprec flagheur : ℤ) (own pr : ℕ)
    (s : Lat F) (v : ℤ) (pr' : ℕ)
    (h : s.lcond o expo mp expoG junk junkG fuel tproper flagprec flagheur own pr = some (v, pr')) :
    (flagprec ≤ 0 → pr' = pr) ∧
    (flagprec = 1 → pr' = 2 * s.d * maxbitsize s.n s.d s.B) ∧
    (2 ≤ flagprec → flagheur = 0 → (pr' : ℤ) = flagprec) ∧
    (2 ≤ flagprec → flagheur = 1 → pr' = own) ∧
    (2 ≤ flagprec → flagheur ≠ 0 → flagheur ≠ 1 → pr' = pr ∧ v = 0) := by
  unfold Lat.lcond at h
  split at h
  · refine ⟨fun _ => ?_, by omega, by omega, by omega, by omega⟩
    split at h <;> simp only [Option.some.injEq, Prod.mk.injEq] at h <;> exact h.2.symm
  split at h
  · simp only [Option.some.injEq, Prod.mk.injEq] at h
    refine ⟨by omega, by omega, fun _ _ => ?_, by omega, by omega⟩
    rw [← h.2]; omega
  split at h
  · refine ⟨by omega, by omega, by omega, fun _ _ => ?_, by omega⟩
    split at h
    · simp at h
    · simp only [Option.some.injEq, Prod.mk.injEq] at h; exact h.2.symm
  split at h
  · simp only [Option.some.injEq, Prod.mk.injEq] at h
    exact ⟨by omega, fun _ => h.2.symm, by omega, by omega, by omega⟩
  · simp only [Option.some.injEq, Prod.mk.injEq] at h
    exact ⟨fun _ => h.2.symm, by omega, by omega, by omega, fun _ _ _ => ⟨h.2.symm, h.1.symm⟩⟩

/-- It always returns, except possibly with the heuristic check, which compares the values at the
precisions `p, 2p, 3p, ...`: it returns the first one that repeats (starting from 0), and never returns
if no two successive values agree. -/
theorem C40_lcond_returns (o : FPOps F) (expo : F → ℤ) (mp : ℕ → FPOps G) (expoG : G → ℤ)
    (junk : Mat F) (junkG : ℕ → Mat G) (tproper flagprec flagheur : ℤ) (own pr : ℕ) (s : Lat F) :
    (¬ (2 ≤ flagprec ∧ flagheur = 1) → ∀ fuel,
      (s.lcond o expo mp expoG junk junkG fuel tproper flagprec flagheur own pr).isSome = true) ∧
    (2 ≤ flagprec ∧ flagheur = 1 →
      let val (k : ℕ) : ℤ :=
        if k = 0 then 0 else lcondAt mp expoG junkG s.n s.d s.B (k * flagprec.toNat)
      (∀ k, val (k + 1) = val k → (∀ i < k, val (i + 1) ≠ val i) → ∀ fuel, k < fuel →
        s.lcond o expo mp expoG junk junkG fuel tproper flagprec flagheur own pr = some (val k, own)) ∧
      ((∀ k, val (k + 1) ≠ val k) → ∀ fuel,
        s.lcond o expo mp expoG junk junkG fuel tproper flagprec flagheur own pr = none)) := by
  constructor
  · intro h fuel
    unfold Lat.lcond
    by_cases h0 : flagprec = 0
    · rw [if_pos h0]; split <;> rfl
    rw [if_neg h0]
    by_cases h1 : flagprec ≥ 2 ∧ flagheur = 0
    · rw [if_pos h1]; rfl
    rw [if_neg h1, if_neg (by omega)]
    split <;> rfl
  · intro hf
    simp only []
    have hl : ∀ fuel, s.lcond o expo mp expoG junk junkG fuel tproper flagprec flagheur own pr =
        match lcondLoop (lcondAt mp expoG junkG s.n s.d s.B) flagprec.toNat fuel 0 0 with
        | none => none
        | some (cond, _) => some (cond, own) := by
      intro fuel
      unfold Lat.lcond
      rw [if_neg (by omega), if_neg (by omega), if_pos ⟨hf.1, hf.2⟩]
      rfl
    generalize hat : lcondAt mp expoG junkG s.n s.d s.B = at_ at *
    set p := flagprec.toNat with hp
    set val : ℕ → ℤ := fun k => if k = 0 then 0 else at_ (k * p) with hval
    have hstep : ∀ k, at_ (k * p + p) = val (k + 1) := by
      intro k; simp [hval, add_mul]
    constructor
    · intro k hk hne fuel hfuel
      have key : ∀ m fuel i, m + i = k → m < fuel →
          ∃ q, lcondLoop at_ p fuel (i * p) (val i) = some (val k, q) := by
        intro m
        induction m with
        | zero =>
          intro fuel i hi hfu
          obtain ⟨fuel, rfl⟩ := Nat.exists_eq_succ_of_ne_zero (by omega : fuel ≠ 0)
          have : i = k := by omega
          subst this
          have hk' : val (i + 1) = val i := hk
          exact ⟨i * p + p, by simp only [lcondLoop, hstep, hk', if_true]⟩
        | succ m ih =>
          intro fuel i hi hfu
          obtain ⟨fuel, rfl⟩ := Nat.exists_eq_succ_of_ne_zero (by omega : fuel ≠ 0)
          obtain ⟨q, hq⟩ := ih fuel (i + 1) (by omega) (by omega)
          have hne' : val (i + 1) ≠ val i := hne i (by omega)
          refine ⟨q, ?_⟩
          rw [add_mul, one_mul] at hq
          simp only [lcondLoop, hstep, hne', if_false]
          exact hq
      obtain ⟨q, hq⟩ := key k fuel 0 (by omega) hfuel
      have h0 : val 0 = 0 := by simp [hval]
      rw [Nat.zero_mul, h0] at hq
      rw [hl, hq]
    · intro hne fuel
      have key : ∀ fuel i, lcondLoop at_ p fuel (i * p) (val i) = none := by
        intro fuel
        induction fuel with
        | zero => intro i; rfl
        | succ fuel ih =>
          intro i
          have hne' : val (i + 1) ≠ val i := hne i
          have := ih (i + 1)
          rw [add_mul, one_mul] at this
          simp only [lcondLoop, hstep, hne', if_false]
          exact this
      have h0 : val 0 = 0 := by simp [hval]
      have hk := key fuel 0
      rw [Nat.zero_mul, h0] at hk
      rw [hl, hk]

/-- The precision really changes: default 53, `lcond(ANY, 100, 0)` on the toy arithmetic. -/
example : ((newLattice toyOps 7 2 2 (ofCols [[1, 2], [3, 4]]) false 0 true 0).lcond toyOps (fun x => (x / toyScale).natAbs.log2)
    (fun _ => toyOps) (fun x => (x / toyScale).natAbs.log2) (fun _ _ => 3) (fun _ _ _ => 5) 10 0 100 0 53 53).map
      Prod.snd = some 100 := by
  rfl

end Precision

/-! ## C41: `ratio` -/

/-- Length of the `i`-th Gram-Schmidt vector divided by that of the next one. -/
noncomputable def gsRatio {n d : ℕ} (M : Matrix (Fin n) (Fin d) ℤ) (i : ℕ) (h : i + 1 < d) : ℝ :=
  ‖gs M ⟨i, by omega⟩‖ / ‖gs M ⟨i + 1, h⟩‖

section Exact
variable {o : FPOps ℝ}

/-- A sufficient condition that is easy to evaluate. -/
theorem fullColumnRank_of_det_ne_zero {d : ℕ} {M : Matrix (Fin d) (Fin d) ℤ} (h : M.det ≠ 0) :
    FullColumnRank M := Matrix.linearIndependent_cols_of_det_ne_zero h

theorem toReal_congr {d : ℕ} {R R' : Mat ℝ} (h : ∀ c < d, ∀ r < d, R c r = R' c r) :
    toReal d R = toReal d R' := by
  ext i j; exact h j j.2 i i.2

/-- `getR` after `householder`, on the d × d part. -/
theorem getR_householder (ho : Exact o) (junk : ℝ) (s : Lat ℝ) (hdn : s.d ≤ s.n) (c r : ℕ) (hc : c < s.d)
    (hr : r < s.d) : (s.householder o).getR o junk c r = (s.householder o).fp.R c r := by
  simp only [Lat.getR]
  by_cases h : r ≤ c
  · rw [if_pos h, if_pos]
    simp only [Lat.householder]; omega
  · rw [if_neg h, ho.zero, householder_lower ho s r c (by omega) hr]

/-- **C41.** In exact arithmetic and for independent columns (`0 < d ≤ n`), `ratio` returns the condition
number `|| |R| |R^-1| ||_F` of the triangular factor with the true inverse; `max_ratio` is the largest
`||b*_i|| / ||b*_(i+1)||` (0 when `d = 1`); `av_ratio` is the sum of these `d - 1` quotients divided by
`d`; `c` is `(||b_1|| / vol^(1/d))^(1/d)`.  The global default precision is left at `2 d`. -/
theorem C41_ratio (mp : ℕ → FPOps ℝ) (lg pw : ℝ → ℝ) (junk : ℝ) (n d : ℕ) (B : Mat Int)
    (ho : Exact (mp (2 * d))) (hlg : ∀ x, 0 < x → lg x = Real.logb 2 x)
    (hpw : ∀ x, pw x = (2 : ℝ) ^ x) (hd : 0 < d) (hdn : d ≤ n)
    (hB : FullColumnRank (toMatrix n d B)) :
    let r := (ratio mp lg pw junk n d B).1
    let M := toMatrix n d B
    (∃ R, IsRFactor M R ∧ r.fcond = condF R) ∧
    r.avRatio * d = ∑ i : Fin (d - 1), gsRatio M i (by omega) ∧
    (∀ i h, gsRatio M i h ≤ r.maxRatio) ∧
    (d = 1 → r.maxRatio = 0) ∧ (2 ≤ d → ∃ i h, r.maxRatio = gsRatio M i h) ∧
    r.c = (‖colVec M ⟨0, hd⟩‖ / Real.sqrt ((Mᵀ * M).det : ℤ) ^ (1 / (d : ℝ))) ^ (1 / (d : ℝ)) ∧
    (ratio mp lg pw junk n d B).2 = 2 * d := by
  set o := mp (2 * d) with hoo
  set s := newLattice o junk n d B false 0 true 0 with hs
  have hsn : s.n = n := rfl
  have hsd : s.d = d := rfl
  have hsB : s.B = B := rfl
  obtain ⟨f1, f2, f3, f4, f5⟩ := householder_facts ho s hB hdn
  set R := (s.householder o).getR o junk with hR
  have hRR : ∀ c < d, ∀ r < d, R c r = (s.householder o).fp.R c r := fun c hc r hr =>
    getR_householder ho junk s hdn c r hc hr
  have g1 : ∀ i j, j < i → i < d → R j i = 0 := fun i j hij hi => by
    rw [hRR j (by omega) i hi]; exact f1 i j hij hi
  have g2 : ∀ i < d, R i i ≠ 0 := fun i hi => by rw [hRR i hi i hi]; exact f2 i hi
  have g3 : ∀ i (h : i < d), |R i i| = ‖gs (toMatrix n d B) ⟨i, h⟩‖ := fun i h => by
    rw [hRR i h i h]; exact f3 ⟨i, h⟩
  have g5 : (toReal d R)ᵀ * toReal d R =
      ((toMatrix n d B)ᵀ * toMatrix n d B).map (Int.cast : ℤ → ℝ) := by
    rw [toReal_congr hRR]; exact f5
  have habs : ∀ i < d, absMat o d R (fun _ _ => o.zero) i i = |R i i| := fun i hi => by
    rw [absMat_apply ho, if_pos ⟨hi, hi⟩]
  have hr : (ratio mp lg pw junk n d B).1 = ratioOf o lg pw (o.ofZ d) d R := rfl
  simp only []
  rw [hr]
  have hcd : o.ofZ (d : ℤ) = (d : ℝ) := by rw [ho.ofZ]; simp
  have hd0 : (d : ℝ) ≠ 0 := by positivity
  -- the pair of sum and maximum
  let f : ℕ → ℝ := fun i => absMat o d R (fun _ _ => o.zero) (i - 1) (i - 1) /
    absMat o d R (fun _ _ => o.zero) i i
  have hf : ∀ i (h : i + 1 < d), f (i + 1) = gsRatio (toMatrix n d B) i h := by
    intro i h
    simp only [f, gsRatio]
    rw [Nat.add_sub_cancel, habs i (by omega), habs (i + 1) h, g3 i (by omega), g3 (i + 1) h]
  have hpair : forRange 1 d (fun i (q : ℝ × ℝ) =>
      let tt := o.div (absMat o d R (fun _ _ => o.zero) (i - 1) (i - 1))
        (absMat o d R (fun _ _ => o.zero) i i)
      (o.add q.1 tt, if o.lt q.2 tt then tt else q.2)) (o.zero, o.zero) =
      (0 + ∑ i ∈ Ico 1 d, f i, forRange 1 d (fun i c => if c < f i then f i else c) 0) := by
    rw [← forRange_sum f 0 (show 1 ≤ d from hd)]
    refine forRange_ind (fun b (q : ℝ × ℝ) => q = (forRange 1 b (fun i c => c + f i) 0,
      forRange 1 b (fun i c => if c < f i then f i else c) 0)) (show 1 ≤ d from hd) _ _ ?_ ?_
    · rw [forRange_empty (le_refl _), forRange_empty (le_refl _), ho.zero]
    · intro i t h1 _ h
      rw [forRange_succ h1, forRange_succ h1, h]
      simp only [ho.add, ho.div, ho.lt, f]
  obtain ⟨m1, m2, m3⟩ := forRange_maxR f 0 (show 1 ≤ d from hd)
  have hmax : (ratioOf o lg pw (o.ofZ d) d R).maxRatio =
      forRange 1 d (fun i c => if c < f i then f i else c) 0 := congrArg Prod.snd hpair
  have hgspos : ∀ i (h : i < d), 0 < ‖gs (toMatrix n d B) ⟨i, h⟩‖ := fun i h => by
    rw [← g3 i h]; exact abs_pos.2 (g2 i h)
  have hrpos : ∀ i (h : i + 1 < d), 0 < gsRatio (toMatrix n d B) i h := fun i h =>
    div_pos (hgspos _ _) (hgspos _ _)
  refine ⟨⟨toReal d R, ⟨fun i j hij => g1 i j hij i.2, g5⟩, ?_⟩, ?_, ?_, ?_, ?_, ?_, rfl⟩
  · simp only [ratioOf]
    refine condOf_zero ho d R _ g1 g2 fun j k hjk hk => ?_
    rw [setDiagOne_apply ho, if_neg (by omega), ho.zero]
  · have : (ratioOf o lg pw (o.ofZ d) d R).avRatio = o.div (0 + ∑ i ∈ Ico 1 d, f i) (o.ofZ d) := by
      exact congrArg (fun q => o.div q.1 (o.ofZ d)) hpair
    rw [this, ho.div, hcd, div_mul_cancel₀ _ hd0, zero_add, sum_Ico_eq_sum_range,
      ← Fin.sum_univ_eq_sum_range (fun i => f (1 + i)) (d - 1)]
    refine sum_congr rfl fun i _ => ?_
    rw [← hf i (by omega), Nat.add_comm]
  · intro i h
    rw [hmax, ← hf i h]
    exact m2 (i + 1) (by omega) h
  · intro h1
    rw [hmax, h1, forRange_empty (le_refl _)]
  · intro h2
    rw [hmax]
    rcases m3 with m3 | ⟨i, a, b, e⟩
    · have := m2 1 (le_refl _) (by omega)
      have h3 : f 1 = _ := hf 0 (by omega)
      have h4 := hrpos 0 (by omega)
      rw [m3, h3] at this
      linarith
    · refine ⟨i - 1, by omega, ?_⟩
      rw [e, ← hf (i - 1) (by omega), Nat.sub_add_cancel a]
  · have hprod : forRange 1 d (fun i v => o.mul v (absMat o d R (fun _ _ => o.zero) i i))
        (absMat o d R (fun _ _ => o.zero) 0 0) = ∏ i ∈ range d, |R i i| := by
      refine forRange_ind (fun b v => b ≤ d → v = ∏ i ∈ range b, |R i i|) (show 1 ≤ d from hd) _ _ ?_ ?_
        (le_refl _)
      · intro _; rw [prod_range_one, habs 0 hd]
      · intro i v h1 h2 h _
        rw [prod_range_succ, ho.mul, h (by omega), habs i h2]
    have hvol : ∏ i ∈ range d, |R i i| =
        Real.sqrt (((toMatrix n d B)ᵀ * toMatrix n d B).det : ℤ) := by
      have h1 := congrArg Matrix.det g5
      rw [Matrix.det_mul, Matrix.det_transpose, toReal_det d R g1] at h1
      have h2 : (((toMatrix n d B)ᵀ * toMatrix n d B).map (Int.cast : ℤ → ℝ)).det =
          ((((toMatrix n d B)ᵀ * toMatrix n d B).det : ℤ) : ℝ) :=
        (RingHom.map_det (Int.castRingHom ℝ) _).symm
      rw [← h2, ← h1, Real.sqrt_mul_self_eq_abs, abs_prod,
        Fin.prod_univ_eq_prod_range (fun i => |R i i|) d]
    have hvpos : 0 < ∏ i ∈ range d, |R i i| :=
      prod_pos fun i hi => abs_pos.2 (g2 i (mem_range.1 hi))
    have hb1 : |R 0 0| = ‖colVec (toMatrix n d B) ⟨0, hd⟩‖ := by
      rw [g3 0 hd]
      congr 1
      unfold gs
      rw [InnerProductSpace.gramSchmidt_def, sum_eq_zero, sub_zero]
      intro i hi
      exact absurd (Fin.lt_def.1 (mem_Iio.1 hi)) (Nat.not_lt_zero _)
    have hbpos : 0 < |R 0 0| := abs_pos.2 (g2 0 hd)
    have hc : (ratioOf o lg pw (o.ofZ d) d R).c =
        pw (o.div (o.sub (lg (absMat o d R (fun _ _ => o.zero) 0 0))
          (o.div (lg (forRange 1 d (fun i v => o.mul v (absMat o d R (fun _ _ => o.zero) i i))
            (absMat o d R (fun _ _ => o.zero) 0 0))) (o.ofZ d))) (o.ofZ d)) := rfl
    rw [hc, hprod, habs 0 hd, ho.div, ho.sub, ho.div, hcd, hlg _ hbpos, hlg _ hvpos, hpw, ← hvol, ← hb1]
    have e1 : Real.logb 2 |R 0 0| - Real.logb 2 (∏ i ∈ range d, |R i i|) / d =
        Real.logb 2 (|R 0 0| / (∏ i ∈ range d, |R i i|) ^ (1 / (d : ℝ))) := by
      rw [Real.logb_div hbpos.ne' (Real.rpow_pos_of_pos hvpos _).ne',
        Real.logb_rpow_eq_mul_logb_of_pos hvpos]
      ring
    rw [e1, div_eq_mul_one_div (Real.logb 2 _), Real.rpow_mul (by norm_num),
      Real.rpow_logb (by norm_num) (by norm_num) (div_pos hbpos (Real.rpow_pos_of_pos hvpos _))]

/-- Non-trivial case: three independent columns, `realOps` at every precision. -/
example : ∃ R, IsRFactor (toMatrix 3 3 (ofCols [[2, 1, 0], [1, 3, 0], [5, 1, 4]])) R ∧
    (ratio (fun _ => realOps) (Real.logb 2) (fun x => (2 : ℝ) ^ x) 7 3 3
      (ofCols [[2, 1, 0], [1, 3, 0], [5, 1, 4]])).1.fcond = condF R := by
  refine (C41_ratio (fun _ => realOps) (Real.logb 2) (fun x => (2 : ℝ) ^ x) 7 3 3 _
    realOps_exact.toExact (fun _ _ => rfl) (fun _ => rfl) (by norm_num) (le_refl _) ?_).1
  exact fullColumnRank_of_det_ne_zero (by decide +kernel)

/-- **C41, `ratio0`.** The generic version computes the same quantities, with natural logarithms. -/
theorem C41_ratio0 {o : FPOps ℝ} (ho : Exact o) (ln pw : ℝ → ℝ) (l2 junk : ℝ) (n d : ℕ) (B : Mat Int)
    (hln : ∀ x, 0 < x → ln x = Real.log x) (hl2 : l2 = Real.log 2)
    (hpw : ∀ x, pw x = (2 : ℝ) ^ x) (hd : 0 < d) (hdn : d ≤ n) (hB : FullColumnRank (toMatrix n d B)) :
    let r := ratio0 o ln pw l2 junk n d B
    let M := toMatrix n d B
    (∃ R, IsRFactor M R ∧ r.fcond = condF R) ∧
    r.avRatio * d = ∑ i : Fin (d - 1), gsRatio M i (by omega) ∧
    (∀ i h, gsRatio M i h ≤ r.maxRatio) ∧
    (d = 1 → r.maxRatio = 0) ∧ (2 ≤ d → ∃ i h, r.maxRatio = gsRatio M i h) ∧
    r.c = (‖colVec M ⟨0, hd⟩‖ / Real.sqrt ((Mᵀ * M).det : ℤ) ^ (1 / (d : ℝ))) ^ (1 / (d : ℝ)) := by
  obtain ⟨h1, h2, h3, h4, h5, h6, -⟩ := C41_ratio (fun _ => o) (fun x => o.div (ln x) l2) pw junk n d B ho
    (fun x hx => by rw [ho.div, hln x hx, hl2]; rfl) hpw hd hdn hB
  exact ⟨h1, h2, h3, h4, h5, h6⟩

/-- Non-trivial case of `C41_ratio0`. -/
example : (ratio0 realOps Real.log (fun x => (2 : ℝ) ^ x) (Real.log 2) 7 2 2 (ofCols [[2, 0], [1, 3]])).c =
    (‖colVec (toMatrix 2 2 (ofCols [[2, 0], [1, 3]])) 0‖ /
      Real.sqrt (((toMatrix 2 2 (ofCols [[2, 0], [1, 3]]))ᵀ * toMatrix 2 2 (ofCols [[2, 0], [1, 3]])).det : ℤ) ^
        (1 / ((2 : ℕ) : ℝ))) ^ (1 / ((2 : ℕ) : ℝ)) :=
  (C41_ratio0 realOps_exact.toExact Real.log _ _ 7 2 2 _ (fun _ _ => rfl) rfl (fun _ => rfl) (by norm_num)
    (le_refl _) (fullColumnRank_of_det_ne_zero (by decide +kernel))).2.2.2.2.2

/-! ## C47: `lcond(ANY)` -/

/-- **C47.** In exact arithmetic, for independent columns (`0 < d ≤ n`): `2^lcond` exceeds the condition
number of the triangular factor, whatever the uninitialised storage contains; it is within a factor 2
of it when that storage happens to be zero. -/
theorem C47_lcond_any (ho : Exact o) (expo : ℝ → ℤ) (hexp : IsExponent expo) (junk : Mat ℝ) (s : Lat ℝ)
    (hd : 0 < s.d) (hdn : s.d ≤ s.n) (hB : FullColumnRank (toMatrix s.n s.d s.B)) :
    ∃ R, IsRFactor (toMatrix s.n s.d s.B) R ∧ condF R < (2 : ℝ) ^ s.lcondAny o expo junk ∧
      ((∀ c r, junk c r = 0) → (2 : ℝ) ^ (s.lcondAny o expo junk - 1) ≤ condF R) := by
  obtain ⟨f1, f2, f3, f4, f5⟩ := householder_facts ho s hB hdn
  refine ⟨toReal s.d (s.householder o).fp.R, ⟨fun i j hij => f1 i j hij i.2, f5⟩, ?_, fun hj => ?_⟩
  · have h1 := condOf_ge ho s.d _ (setDiagOne o s.d junk) f1 f2
    have h2 := condF_ge_one s.d hd _ f1 f2
    have h3 := (hexp (condOf o s.d (s.householder o).fp.R (setDiagOne o s.d junk)) (by linarith)).2
    rw [abs_of_pos (by linarith)] at h3
    exact lt_of_le_of_lt h1 h3
  · have h1 := condOf_zero ho s.d _ (setDiagOne o s.d junk) f1 f2 (fun j k hjk hk => by
      rw [setDiagOne_apply ho, if_neg (by omega), hj])
    have h2 := condF_ge_one s.d hd _ f1 f2
    have h3 := (hexp (condOf o s.d (s.householder o).fp.R (setDiagOne o s.d junk)) (by
      rw [h1]; linarith)).1
    rw [abs_of_pos (by rw [h1]; linarith)] at h3
    rw [← h1]
    exact h3

/-- **C47 (defect).** `iR.resize(d, d)` is followed by the initialisation of the diagonal only: for every
basis of at least two vectors and every `K` there is a content of the uninitialised storage for which `lcond`
returns at least `K`. -/
theorem C47_lcond_any_unbounded (ho : Exact o) (expo : ℝ → ℤ) (hexp : IsExponent expo) (s : Lat ℝ)
    (hd : 2 ≤ s.d) (hdn : s.d ≤ s.n) (hB : FullColumnRank (toMatrix s.n s.d s.B)) (K : ℤ) :
    ∃ junk, K ≤ s.lcondAny o expo junk := by
  obtain ⟨f1, f2, f3, f4, f5⟩ := householder_facts ho s hB hdn
  set R := (s.householder o).fp.R with hR
  have hpos : 0 < |R 1 1| := abs_pos.2 (f2 1 (by omega))
  refine ⟨fun _ _ => (2 : ℝ) ^ K / |R 1 1|, ?_⟩
  have h1 := condOf_ge_junk ho s.d R (setDiagOne o s.d fun _ _ => (2 : ℝ) ^ K / |R 1 1|) f1 f2
    ⟨1, by omega⟩ ⟨0, by omega⟩ (by simp [Fin.lt_def])
  rw [setDiagOne_apply ho] at h1
  simp only [Nat.zero_ne_one, false_and, if_false, abs_div, abs_abs] at h1
  rw [mul_div_cancel₀ _ hpos.ne', abs_of_pos (by positivity : (0 : ℝ) < 2 ^ K)] at h1
  have h2 : (0 : ℝ) < 2 ^ K := by positivity
  have h3 := (hexp _ (ne_of_gt (lt_of_lt_of_le h2 h1))).2
  rw [abs_of_pos (lt_of_lt_of_le h2 h1)] at h3
  have h4 := lt_of_le_of_lt h1 h3
  exact ((zpow_lt_zpow_iff_right₀ (by norm_num : (1 : ℝ) < 2)).1 h4).le

/-- An exponent function. -/
noncomputable def realExpo (x : ℝ) : ℤ := Int.log 2 |x| + 1

theorem realExpo_spec : IsExponent realExpo := by
  intro x hx
  have h := abs_pos.2 hx
  constructor
  · have := Int.zpow_log_le_self (b := 2) (by norm_num) h
    simpa [realExpo] using this
  · have := Int.lt_zpow_succ_log_self (b := 2) (by norm_num) |x|
    simpa [realExpo] using this

example (K : ℤ) : ∃ junk, K ≤ (newLattice realOps 7 2 2 (ofCols [[2, 1], [1, 3]]) false 0 true 0).lcondAny
    realOps realExpo junk :=
  C47_lcond_any_unbounded realOps_exact.toExact realExpo realExpo_spec _ (by decide) (by decide)
    (fullColumnRank_of_det_ne_zero (by decide +kernel)) K

/-! ## C48: `lcond(TRIANGULAR_PROPER)` -/

theorem lcondTri_eq (ho : Exact o) (expo : ℝ → ℤ) (s : Lat ℝ) :
    s.lcondTri o expo = expo (triMaxquo o s.d fun c r => (s.B c r : ℝ)) +
      ((s.d : ℤ) - 1 + expo (1 + triEta o s.d fun c r => (s.B c r : ℝ))) +
      (1 + (sizeInBits s.d : ℤ)) := by
  have hc : ∀ c < s.d, ∀ r ≤ c, forRange 0 s.d (fun j R => fsetcolZ o R j (s.B j) (j + 1)) s.fp.R c r =
      (fun c r => (s.B c r : ℝ)) c r := fun c hc r hr => triCopy_apply ho s.d s.B s.fp.R c r hc hr
  simp only [Lat.lcondTri, triEta_congr s.d _ _ hc, triMaxquo_congr s.d _ _ hc, ho.add, ho.one]

/-- **C48.** For an upper triangular basis whose entries do not exceed in absolute value the diagonal entry of
their row ("proper"), `lcond(TRIANGULAR_PROPER)` is an upper bound of the logarithm of the condition
number, in exact arithmetic. -/
theorem C48_lcond_triangular (ho : Exact o) (expo : ℝ → ℤ) (hexp : IsExponent expo) (s : Lat ℝ)
    (hup : ∀ i j, j < i → i < s.d → s.B j i = 0) (hdiag : ∀ i < s.d, s.B i i ≠ 0)
    (hprop : ∀ i j, i < j → j < s.d → |s.B j i| ≤ |s.B i i|) (hd : 0 < s.d) :
    condF (realMat s.d s.B) < (2 : ℝ) ^ s.lcondTri o expo := by
  set R : Mat ℝ := fun c r => (s.B c r : ℝ) with hR
  have hT : realMat s.d s.B = toReal s.d R := by ext i j; rfl
  have f1 : ∀ i j, j < i → i < s.d → R j i = 0 := fun i j h1 h2 => by
    simp only [hR, hup i j h1 h2, Int.cast_zero]
  have f2 : ∀ i < s.d, R i i ≠ 0 := fun i hi => by
    simpa [hR] using hdiag i hi
  obtain ⟨e1, e2, e3⟩ := triEta_spec ho s.d R
  obtain ⟨q2, q3⟩ := triMaxquo_spec ho s.d R
  have hη : ∀ j < s.d, ∀ i < j, |R j i / R i i| ≤ 1 := by
    intro j hj i hi
    rw [abs_div, div_le_one (abs_pos.2 (f2 i (by omega)))]
    simp only [hR, ← Int.cast_abs]
    exact_mod_cast hprop i j hi hj
  have hq1 : 1 ≤ triMaxquo o s.d R := by
    have := q2 0 hd 0 hd
    rwa [div_self (f2 0 hd), abs_one] at this
  have hb := condF_tri_le s.d R f1 f2 hη (triMaxquo o s.d R) q2 (by linarith)
  rw [hT, lcondTri_eq ho]
  have x1 := (hexp (triMaxquo o s.d R) (by linarith)).2
  rw [abs_of_pos (by linarith)] at x1
  have x2 := (hexp (1 + triEta o s.d R) (by linarith)).2
  rw [abs_of_pos (by linarith)] at x2
  have x2' : (1 : ℝ) < (2 : ℝ) ^ expo (1 + triEta o s.d R) := by linarith
  have x3 : (s.d : ℝ) < (2 : ℝ) ^ (1 + (sizeInBits s.d : ℤ)) := by
    have h1 : s.d < 2 ^ (Nat.log2 s.d + 1) := Nat.lt_log2_self
    have h2 : (s.d : ℝ) < 2 ^ (Nat.log2 s.d + 1) := by exact_mod_cast h1
    have h3 : (1 + (sizeInBits s.d : ℤ)) = ((Nat.log2 s.d + 1 + 1 : ℕ) : ℤ) := by
      simp [sizeInBits]; ring
    rw [h3, zpow_natCast]
    refine lt_trans h2 ?_
    exact pow_lt_pow_right₀ (by norm_num) (by omega)
  have hd1 : (2 : ℝ) ^ (s.d - 1) = (2 : ℝ) ^ ((s.d : ℤ) - 1) := by
    rw [← zpow_natCast]; congr 1; omega
  rw [hd1] at hb
  rw [zpow_add₀ (by norm_num), zpow_add₀ (by norm_num), zpow_add₀ (by norm_num)]
  set P : ℝ := (2 : ℝ) ^ ((s.d : ℤ) - 1) with hP
  have hPpos : 0 < P := by positivity
  set E := (2 : ℝ) ^ expo (triMaxquo o s.d R) with hE
  set T := (2 : ℝ) ^ expo (1 + triEta o s.d R) with hTT
  set D := (2 : ℝ) ^ (1 + (sizeInBits s.d : ℤ)) with hD
  have hdpos : (0 : ℝ) < s.d := by exact_mod_cast hd
  calc condF (toReal s.d R) ≤ s.d * (triMaxquo o s.d R * P) := hb
    _ < s.d * (E * P) := by
        apply mul_lt_mul_of_pos_left _ hdpos
        exact mul_lt_mul_of_pos_right x1 hPpos
    _ < D * (E * P) := by
        apply mul_lt_mul_of_pos_right x3
        have : 0 < E := by positivity
        positivity
    _ ≤ D * (E * P) * T := by
        refine le_mul_of_one_le_right ?_ x2'.le
        have : 0 < E := by positivity
        have : 0 < D := by positivity
        positivity
    _ = E * (P * T) * D := by ring

/-- A basis that is not proper: entries above the diagonal much larger than the diagonal. -/
def improper : Mat Int := ofCols [[1, 0, 0], [1000, 1, 0], [0, 1000, 1]]

/-- **C48 (without "proper" the bound is false).** On `improper` `lcond(TRIANGULAR_PROPER)` returns 16, the
condition number exceeds `2^20`. -/
theorem C48_improper_witness :
    (newLattice realOps 7 3 3 improper false 0 true 0).lcondTri realOps realExpo = 16 ∧
      (2 : ℝ) ^ 20 < condF (realMat 3 improper) := by
  constructor
  · rw [lcondTri_eq realOps_exact.toExact]
    set R : Mat ℝ := fun c r => ((newLattice realOps 7 3 3 improper false 0 true 0).B c r : ℝ) with hR
    have r00 : R 0 0 = 1 := by simp [hR, newLattice, improper, ofCols]
    have r11 : R 1 1 = 1 := by simp [hR, newLattice, improper, ofCols]
    have r22 : R 2 2 = 1 := by simp [hR, newLattice, improper, ofCols]
    have r10 : R 1 0 = 1000 := by simp [hR, newLattice, improper, ofCols]
    have r20 : R 2 0 = 0 := by simp [hR, newLattice, improper, ofCols]
    have r21 : R 2 1 = 1000 := by simp [hR, newLattice, improper, ofCols]
    have hdd : (newLattice realOps 7 3 3 improper false 0 true 0).d = 3 := rfl
    rw [hdd]
    obtain ⟨e1, e2, e3⟩ := triEta_spec realOps_exact.toExact 3 R
    obtain ⟨q2, q3⟩ := triMaxquo_spec realOps_exact.toExact 3 R
    have hq : triMaxquo realOps 3 R = 1 := by
      have h1 := q2 0 (by norm_num) 0 (by norm_num)
      rw [r00, div_one, abs_one] at h1
      rcases q3 with q3 | ⟨j, hj, i, hi, e⟩
      · linarith
      · rw [e]
        have : ∀ k < 3, R k k = 1 := by
          intro k hk
          interval_cases k <;> assumption
        rw [this j hj, this i hi]; norm_num
    have he : triEta realOps 3 R = 1000 := by
      have h1 := e2 1 (by norm_num) 0 (by norm_num)
      rw [r10, r00] at h1
      norm_num at h1
      rcases e3 with e3 | ⟨j, hj, i, hi, e⟩
      · linarith
      · rw [e]
        rw [e] at h1
        interval_cases j <;> interval_cases i <;>
          simp only [r00, r10, r20, r21, r11] at h1 ⊢ <;> norm_num at h1 <;> norm_num
    rw [hq, he]
    have x1 : realExpo 1 = 1 := by
      have := realExpo_spec 1 (by norm_num)
      rw [abs_one] at this
      have a : (2 : ℝ) ^ (realExpo 1 - 1) ≤ 2 ^ (0 : ℤ) := by simpa using this.1
      have b : (2 : ℝ) ^ (0 : ℤ) < 2 ^ realExpo 1 := by simpa using this.2
      have a' := (zpow_le_zpow_iff_right₀ (by norm_num : (1 : ℝ) < 2)).1 a
      have b' := (zpow_lt_zpow_iff_right₀ (by norm_num : (1 : ℝ) < 2)).1 b
      omega
    have x2 : realExpo (1 + 1000) = 10 := by
      have := realExpo_spec (1 + 1000) (by norm_num)
      rw [abs_of_pos (by norm_num)] at this
      have a : (2 : ℝ) ^ (realExpo (1 + 1000) - 1) < 2 ^ (10 : ℤ) :=
        lt_of_le_of_lt this.1 (by norm_num)
      have b : (2 : ℝ) ^ (9 : ℤ) < 2 ^ realExpo (1 + 1000) := lt_of_le_of_lt (by norm_num) this.2
      have a' := (zpow_lt_zpow_iff_right₀ (by norm_num : (1 : ℝ) < 2)).1 a
      have b' := (zpow_lt_zpow_iff_right₀ (by norm_num : (1 : ℝ) < 2)).1 b
      omega
    rw [x1, x2]
    decide
  · have hinv : (realMat 3 improper)⁻¹ = !![1, -1000, 1000000; 0, 1, -1000; 0, 0, 1] := by
      apply Matrix.inv_eq_right_inv
      ext i j
      fin_cases i <;> fin_cases j <;>
        simp [realMat, toMatrix, improper, ofCols, Matrix.mul_apply, Fin.sum_univ_three] <;> norm_num
    unfold condF frobNorm
    apply Real.lt_sqrt_of_sq_lt
    rw [hinv]
    set P := absM (realMat 3 improper) * absM !![(1 : ℝ), -1000, 1000000; 0, 1, -1000; 0, 0, 1]
    have hP : P 0 2 = 2000000 := by
      simp [P, absM, realMat, toMatrix, improper, ofCols, Matrix.mul_apply, Fin.sum_univ_three]
      norm_num
    refine lt_of_lt_of_le ?_ (single_le_sum (f := fun i : Fin 3 => ∑ j : Fin 3, P i j ^ 2)
      (fun _ _ => sum_nonneg fun _ _ => sq_nonneg _) (mem_univ 0))
    refine lt_of_lt_of_le ?_ (single_le_sum (f := fun j : Fin 3 => P 0 j ^ 2)
      (fun _ _ => sq_nonneg _) (mem_univ 2))
    simp only [hP]
    norm_num

/-! ## C49: the `delta` printed by `isreduced` -/

/-- **C49.** In exact arithmetic and for at least two independent columns, the value printed as `delta` by
`isreduced` is the largest `δ ≤ 1` for which the Lovasz conditions hold. -/
theorem C49_printed_delta (ho : Exact o) (junk : ℝ) (s : Lat ℝ) (hd : 2 ≤ s.d) (hdn : s.d ≤ s.n)
    (hB : FullColumnRank (toMatrix s.n s.d s.B)) :
    IsGreatest {δ : ℝ | δ ≤ 1 ∧ LovaszCond δ (toMatrix s.n s.d s.B)}
      (printedDelta o s.d ((s.setprec o junk).householder o).fp.R) := by
  exact printedDelta_greatest ho hd (householder_rfacts ho (s.setprec o junk) hB hdn)

example : IsGreatest {δ : ℝ | δ ≤ 1 ∧ LovaszCond δ (toMatrix 2 2 (ofCols [[2, 1], [1, 3]]))}
    (printedDelta realOps 2 (((newLattice realOps 7 2 2 (ofCols [[2, 1], [1, 3]]) false 0 true 0).setprec
      realOps 7).householder realOps).fp.R) :=
  C49_printed_delta realOps_exact.toExact 7 (newLattice realOps 7 2 2 (ofCols [[2, 1], [1, 3]]) false 0 true 0)
    (by decide) (by decide) (fullColumnRank_of_det_ne_zero (by decide +kernel))

end Exact

end HPLLL.Props
