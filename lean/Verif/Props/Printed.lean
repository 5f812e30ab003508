import Verif.Proof.Printed
import Verif.Proof.Gen
import Verif.Props.Idem
/-!
# The values printed by `isreduced` (C56), exact arithmetic
-/

namespace HPLLL.Props
open HPLLL Spec Matrix

variable {o o' : FPOps ℝ}

/-- **C56, first block of messages.**  For a basis with `d ≥ 2` independent columns on any object: the
printed `delta` is the best Lovász parameter (at most 1), `||b_1||` and `Vol(L)` are the norm of the
first column and the volume, and the basis is weakly size-reduced for the printed `eta` and `theta`.
`eta` is never too small, and at most what is needed if the bound is asked with `-theta`.  When
`eta² < delta`, the printed `alpha` bounds the decrease of the Gram–Schmidt norms, so that
`||b_1||^d ≤ alpha^(d(d-1)/2) Vol(L)`. -/
theorem C56_first_block (ho : Exact o) (junk θ : ℝ) (hθ : 0 ≤ θ) (s : Lat ℝ) (hd : 2 ≤ s.d)
    (hB : FullColumnRank (toMatrix s.n s.d s.B)) :
    let M := toMatrix s.n s.d s.B
    let p := printed1 o θ s.n s.d s.B (s.isreducedPrep o junk).fp.R
    IsGreatest {δ : ℝ | δ ≤ 1 ∧ LovaszCond δ M} p.delta ∧
    p.b1 = ‖colVec M ⟨0, by omega⟩‖ ∧
    p.vol = volume M ∧
    p.theta = θ ∧
    0 ≤ p.eta ∧ WeakSizeReduced p.eta p.theta M ∧
    (∀ η, 0 ≤ η → WeakSizeReduced η (-θ) M → p.eta ≤ η) ∧
    (p.eta ^ 2 < p.delta → 0 ≤ p.alpha ∧
      (∀ i j : Fin s.d, (j : ℕ) + 1 = i → ‖gs M j‖ ≤ p.alpha * ‖gs M i‖) ∧
      p.b1 ^ s.d ≤ p.alpha ^ (s.d * (s.d - 1) / 2) * p.vol) := by
  intro M p
  have hdn : s.d ≤ s.n := by
    by_contra h
    exact not_fcr_of_lt (by omega) _ hB
  have hR : RFacts s.n s.d s.B (s.isreducedPrep o junk).fp.R :=
    householder_rfacts ho (s.setprec o junk) hB hdn
  have h1 : IsGreatest {δ : ℝ | δ ≤ 1 ∧ LovaszCond δ M} p.delta := printedDelta_greatest ho hd hR
  have h2 : p.b1 = ‖colVec M ⟨0, by omega⟩‖ := printedB1_eq ho s.B (by omega) (by omega)
  have h3 : p.vol = volume M := printedVol_eq ho (by omega) hR
  obtain ⟨e0, e2, e3⟩ := printedEta_spec ho θ s.d (by omega) (s.isreducedPrep o junk).fp.R
  have e1 : 0 ≤ p.eta := e0
  have e2 : ∀ i j, i < j → j < s.d → _ → _ ≤ p.eta := e2
  have e3 : p.eta = 0 ∨ ∃ i j, i < j ∧ j < s.d ∧ _ ∧ p.eta = _ := e3
  have hth : p.theta = θ := rfl
  have hal : p.alpha = printedAlpha o p.delta p.eta θ := rfl
  generalize (s.isreducedPrep o junk).fp.R = R at *
  have hr : ∀ i j : Fin s.d, j < i → |mu M i j| * ‖gs M j‖ = |R i j| := by
    intro i j hji
    rw [hR.mu i j hji, ← hR.norm j, abs_div, div_mul_cancel₀]
    exact abs_ne_zero.2 (hR.diag j j.2)
  have hw : WeakSizeReduced p.eta p.theta M := by
    intro i j hji
    rw [hr i j hji, ← hR.norm j, ← hR.norm i, hth]
    by_cases hp : 0 < |R i j| - θ * R i i
    · have := e2 j i hji i.2 hp
      rw [abs_div, abs_of_pos hp, div_le_iff₀ (abs_pos.2 (hR.diag j j.2))] at this
      have h4 := mul_le_mul_of_nonneg_left (le_abs_self (R i i)) hθ
      linarith
    · have h4 := mul_le_mul_of_nonneg_left (le_abs_self (R i i)) hθ
      have h5 := mul_nonneg e1 (abs_nonneg (R j j))
      linarith
  refine ⟨h1, h2, h3, hth, e1, hw, ?_, ?_⟩
  · intro η hη hW
    rcases e3 with e3 | ⟨i, j, hij, hj, hp, e3⟩
    · rw [e3]; exact hη
    · have := hW ⟨j, hj⟩ ⟨i, by omega⟩ hij
      rw [hr _ _ hij, ← hR.norm, ← hR.norm] at this
      rw [e3, abs_div, abs_of_pos hp, div_le_iff₀ (abs_pos.2 (hR.diag i (by omega)))]
      have h4 := mul_le_mul_of_nonneg_left (neg_abs_le (R j j)) hθ
      simp only at this
      linarith
  · intro hη
    have hgs : ∀ i : Fin s.d, 0 < ‖gs M i‖ := by
      intro i
      rw [← hR.norm i]; exact abs_pos.2 (hR.diag i i.2)
    have hα : p.alpha = _ := hal.trans (printedAlpha_eq ho p.delta p.eta θ)
    have hα0 : 0 ≤ p.alpha := by
      rw [hα]
      exact div_nonneg (add_nonneg (mul_nonneg e1 hθ) (Real.sqrt_nonneg _)) (by linarith)
    have hstep : ∀ i j : Fin s.d, (j : ℕ) + 1 = i → ‖gs M j‖ ≤ p.alpha * ‖gs M i‖ := by
      intro i j hji
      rw [hα]
      refine alpha_bound (hgs i) hη ?_
      have hl := h1.1.2 i j hji
      have hs := hw i j (by rw [Fin.lt_def]; omega)
      have : mu M i j ^ 2 * ‖gs M j‖ ^ 2 = (|mu M i j| * ‖gs M j‖) ^ 2 := by
        rw [mul_pow, sq_abs]
      rw [this] at hl
      have h6 : (|mu M i j| * ‖gs M j‖) ^ 2 ≤ (p.eta * ‖gs M j‖ + θ * ‖gs M i‖) ^ 2 :=
        pow_le_pow_left₀ (by positivity) hs 2
      linarith
    refine ⟨hα0, hstep, ?_⟩
    rw [h2, h3, volume_prod hR]
    have h0 : colVec M ⟨0, by omega⟩ = gs M ⟨0, by omega⟩ := (gs_zero M _ rfl).symm
    rw [h0]
    exact first_le_vol (by omega) (fun i => ‖gs M i‖) (fun i => norm_nonneg _) hα0 hstep

/-- The hypotheses are met, also that of the last part: for (3,0), (1,5) the printed `eta` is at most
0.34 and `delta` is 1, so that `alpha` is a valid bound. -/
example :
    let s := newLattice realOps 7 2 2 (ofCols [[3, 0], [1, 5]]) true 0 true 0
    let p := printed1 realOps (1 / 100000) s.n s.d s.B (s.isreducedPrep realOps 7).fp.R
    p.eta ≤ 34 / 100 ∧ p.delta = 1 ∧ p.b1 ^ 2 ≤ p.alpha * p.vol := by
  intro s p
  have hup : ∀ c r, c < r → r < 2 → ofCols [[3, 0], [1, 5]] c r = 0 := by
    intro c r h1 h2
    rw [show c = 0 by omega, show r = 1 by omega]; rfl
  have hdi : ∀ i < 2, ofCols [[3, 0], [1, 5]] i i ≠ 0 := by decide
  have hA : FullColumnRank (toMatrix 2 2 (ofCols [[3, 0], [1, 5]])) := by
    rw [fcr_iff_det, upper_det _ hup]; decide
  have g0 : ‖gs (toMatrix 2 2 (ofCols [[3, 0], [1, 5]])) 0‖ = 3 := by
    rw [gs_upper _ hup hdi]; simp [ofCols]
  have g1 : ‖gs (toMatrix 2 2 (ofCols [[3, 0], [1, 5]])) 1‖ = 5 := by
    rw [gs_upper _ hup hdi]; simp [ofCols]
  have gm : mu (toMatrix 2 2 (ofCols [[3, 0], [1, 5]])) 1 0 = 1 / 3 := by
    rw [mu_upper _ hup hdi]; simp [ofCols]
  obtain ⟨h1, -, -, h4, h5, -, h7, h8⟩ := C56_first_block realOps_exact.toExact 7 (1 / 100000) (by norm_num)
    s (le_refl _) hA
  change IsGreatest _ p.delta at h1
  change 0 ≤ p.eta at h5
  change ∀ η : ℝ, 0 ≤ η → _ → p.eta ≤ η at h7
  have he : p.eta ≤ 34 / 100 := by
    refine h7 _ (by norm_num) ?_
    intro i j hij
    have hi : i = (1 : Fin 2) := by
      have hij : (j : ℕ) < i := hij
      have : (i : ℕ) < 2 := i.2
      apply Fin.ext; show (i : ℕ) = 1; omega
    have hj : j = (0 : Fin 2) := by
      have hij : (j : ℕ) < i := hij
      have : (i : ℕ) < 2 := i.2
      apply Fin.ext; show (j : ℕ) = 0; omega
    subst hi hj
    change |mu (toMatrix 2 2 (ofCols [[3, 0], [1, 5]])) 1 0| * ‖gs (toMatrix 2 2 (ofCols [[3, 0], [1, 5]])) 0‖ ≤
      34 / 100 * ‖gs (toMatrix 2 2 (ofCols [[3, 0], [1, 5]])) 0‖ +
      -(1 / 100000) * ‖gs (toMatrix 2 2 (ofCols [[3, 0], [1, 5]])) 1‖
    rw [g0, g1, gm]; norm_num
  have hδ : p.delta = 1 := by
    refine le_antisymm h1.1.1 (h1.2 ⟨le_refl _, ?_⟩)
    intro i j hij
    have hi : i = (1 : Fin 2) := by
      have : (i : ℕ) < 2 := i.2
      apply Fin.ext; show (i : ℕ) = 1; omega
    have hj : j = (0 : Fin 2) := by
      have : (i : ℕ) < 2 := i.2
      apply Fin.ext; show (j : ℕ) = 0; omega
    subst hi hj
    change 1 * ‖gs (toMatrix 2 2 (ofCols [[3, 0], [1, 5]])) 0‖ ^ 2 ≤
      ‖gs (toMatrix 2 2 (ofCols [[3, 0], [1, 5]])) 1‖ ^ 2 +
      mu (toMatrix 2 2 (ofCols [[3, 0], [1, 5]])) 1 0 ^ 2 * ‖gs (toMatrix 2 2 (ofCols [[3, 0], [1, 5]])) 0‖ ^ 2
    rw [g0, g1, gm]; norm_num
  refine ⟨he, hδ, ?_⟩
  have := (h8 (by change p.eta ^ 2 < p.delta; rw [hδ]; nlinarith)).2.2
  have e2 : s.d * (s.d - 1) / 2 = 1 := by rw [show s.d = 2 from rfl]
  rw [e2, pow_one] at this
  exact this

/-- **C56, the messages of a call.**  `isreduced` on an object after any history.  The messages do not
change the value returned nor the object.  If the budget of tests cannot be exhausted, the second
block, printed when the status is not 0, shows the best Lovász parameter, the first norm and the volume
of the basis *after* the reduction; and the number announced as "non-trivial swaps" is between once
and twice the number of swaps. -/
theorem C56_messages (ho : Exact o) (junk' : ℝ) (n d : ℕ) (hd : 2 ≤ d)
    (A : Mat Int) (forU : Bool) (method : ℤ) (longFlag : Bool) (vd : ℤ)
    (cs : List (Call ℝ)) (t : Lat ℝ)
    (hr : Runs (newLattice o' junk' n d A forU method longFlag vd) cs t)
    (hA : FullColumnRank (toMatrix n d (lastBasis A cs))) (hS : 0 < t.numS)
    (junk θ1 θ2 : ℝ) (fuel : ℕ) (δ : ℝ) (hδ : δ ≤ 1)
    (p1 : Printed ℝ) (p2 : Option (ℤ × Printed ℝ)) (st : ℤ) (s' : Lat ℝ)
    (h : t.isreducedMsg o junk θ1 θ2 fuel δ = some (p1, p2, st, s')) :
    t.isreduced o junk fuel δ = some (st, s') ∧ (p2 = none ↔ st = 0) ∧
    (∀ w q, p2 = some (w, q) → 2 * potential n d t.B + d ≤ t.nblovMax → t.nblovMax < 2 ^ 32 →
      IsGreatest {δ : ℝ | δ ≤ 1 ∧ LovaszCond δ (toMatrix n d s'.getbase.M)} q.delta ∧
      q.b1 = ‖colVec (toMatrix n d s'.getbase.M) ⟨0, by omega⟩‖ ∧
      q.vol = volume (toMatrix n d t.getbase.M) ∧
      (s'.nbswaps : ℤ) - t.nbswaps ≤ w ∧ w ≤ 2 * ((s'.nbswaps : ℤ) - t.nbswaps) ∧
      0 < (s'.nbswaps : ℤ) - t.nbswaps) := by
  unfold Lat.isreducedMsg at h
  unfold Lat.isreduced
  have hRy := isreducedPrep_ready (o' := o') ho junk' n d A forU method longFlag vd cs t hr hS junk
  have hH := (newLattice_hist o' junk' n d A forU method longFlag vd).runs hr
  dsimp only at h
  cases hl : hlll o fuel δ true (t.isreducedPrep o junk) with
  | none => rw [hl] at h; simp at h
  | some r =>
    obtain ⟨st1, s1⟩ := r
    rw [hl] at h
    simp only [Option.some.injEq, Prod.mk.injEq] at h
    obtain ⟨h1, h2, h3, rfl⟩ := h
    have hX := hlll_exit o fuel δ true _ s1 st1 hRy.inv (le_of_eq hRy.km) hl
    have hd1 : s1.d = d := hX.inv.hd
    have hn1 : s1.n = n := hX.inv.hn
    refine ⟨by dsimp only; rw [h3], ?_, ?_⟩
    · rw [← h2, ← h3]
      split <;> simp
    · intro w q hq hpot hb32
      have hb : s1.nblov < t.nblovMax := by
        have h1 := hRy.nblov_le ho hA hδ hl
        have h1 : (s1.nblov : ℤ) + 1 ≤ ((0 : ℕ) : ℤ) + (2 * potential n d t.B + d) := h1
        omega
      have hb' : s1.nblov < s1.nblovMax := by rw [hX.cfg.nblovMax]; exact hb
      have hst : st1 = 0 := (hRy.hlll ho hA hδ hl).1
      obtain ⟨hdn, hqr⟩ := hRy.hlll_qr ho hA hδ hl hd hb'
      have hR := hqr.facts hdn
      obtain ⟨c, c1', e1, e2, e3⟩ := hX.done hst hb'
      have e1 : s1.nbswaps = t.nbswaps + c := e1
      have e3 : s1.nblov + c1' + 1 = 0 + max (t.isreducedPrep o junk).kappaMax 1 + 2 * c := e3
      rw [show (t.isreducedPrep o junk).kappaMax = d from hH.km] at e3
      rw [hq] at h2
      split at h2
      · simp at h2
      · rename_i hne
        simp only [Option.some.injEq, Prod.mk.injEq] at h2
        obtain ⟨rfl, rfl⟩ := h2
        have hsb : s1.nblov < 2 ^ 32 := lt_trans hb hb32
        have hmod : ((s1.nblov : ℤ) - s1.d + 1) % 4294967296 = (s1.nblov : ℤ) - s1.d + 1 := by
          apply Int.emod_eq_of_lt <;> omega
        rw [hd1] at hne
        have hvol : volume (toMatrix n d s1.B) = volume (toMatrix n d t.B) := by
          obtain ⟨W, hW, hB, -⟩ := hX.inv.uni
          obtain ⟨W0, hW0, hB0, -⟩ := hH.inv.uni
          have key : ∀ (C : Matrix (Fin n) (Fin d) ℤ) (W : Matrix (Fin d) (Fin d) ℤ), IsUnit W.det →
              volume (C * W) = volume C := by
            intro C W hW
            unfold volume
            congr 2
            rw [Matrix.transpose_mul, show Wᵀ * Cᵀ * (C * W) = Wᵀ * (Cᵀ * C) * W by
              simp only [Matrix.mul_assoc], Matrix.det_mul, Matrix.det_mul, Matrix.det_transpose]
            rcases Int.isUnit_iff.1 hW with h | h <;> rw [h] <;> ring
          rw [hB, hB0, key _ _ hW, key _ _ hW0]
        refine ⟨?_, ?_, ?_, ?_, ?_, ?_⟩
        · have := printedDelta_greatest ho hd hR
          rw [hd1]; exact this
        · rw [hn1]; exact printedB1_eq ho s1.B (by omega) (by omega)
        · have := printedVol_eq ho (by omega) hR
          rw [hvol] at this
          rw [hd1]; exact this
        · rw [hmod, hd1]
          show ((s1.nbswaps : ℕ) : ℤ) - _ ≤ _
          omega
        · rw [hmod, hd1]
          show _ ≤ 2 * (((s1.nbswaps : ℕ) : ℤ) - _)
          omega
        · show 0 < ((s1.nbswaps : ℕ) : ℤ) - _
          omega

/-- **C56, the `eta` of the second block is wrong.**  There the absolute value is taken before the
division by `R(i,i)`, and the diagonal of the Householder factor is negative whenever the entry met on
the diagonal is not negative.  If the diagonal is negative, `eta = 0` is printed whatever the basis is,
and `alpha` is computed from it. -/
theorem C56_second_eta (ho : Exact o) (θ : ℝ) (n d : ℕ) (hd : 0 < d) (B : Mat Int) (R : Mat ℝ)
    (hneg : ∀ i < d, R i i < 0) : (printed2 o θ n d B R).eta = 0 := by
  obtain ⟨e1, e2, e3⟩ := printedEta2_spec ho θ d hd R
  show printedEta2 o θ d R = 0
  rcases e3 with h | ⟨i, j, h1, h2, h3⟩
  · exact h
  · have : |(|R j i| - θ * R j j)| / R i i ≤ 0 := div_nonpos_of_nonneg_of_nonpos (abs_nonneg _) (hneg i (by omega)).le
    linarith

/-- A call of `isreduced` (fixed point arithmetic, 64 bits) on the basis `(1,-2,1)`, `(0,1,-1)`, `θ₂ =
0.001`: it is not reduced, the reduction ends with the hexagonal basis, for which `|R(0,1)| = |R(0,0)| / 2`;
the second block prints `eta = 0` and an `alpha` smaller than 1.01 while `|R(0,0)| > 1.15 |R(1,1)|`. -/
theorem C56_second_eta_witness :
    ((newLattice toyOps 0 3 2 (ofCols [[1, -2, 1], [0, 1, -1]]) true 0 true 0).isreducedMsg toyOps 0
      (toyScale / 100000) (toyScale / 1000) 20 toy99).map (fun r => (r.2.1.map fun q =>
        (q.2.eta, decide (100 * q.2.alpha < 101 * toyScale)), r.2.2.1, toCols 3 2 r.2.2.2.B)) =
      some (some (0, true), -1, [[0, 1, -1], [1, -1, 0]]) ∧
    (hlll toyOps 20 toy99 true ((newLattice toyOps 0 3 2 (ofCols [[1, -2, 1], [0, 1, -1]]) true 0 true
      0).isreducedPrep toyOps 0)).map (fun r => (decide (115 * |r.2.fp.R 1 1| < 100 * |r.2.fp.R 0 0|),
        decide (100 * |r.2.fp.R 1 0| > 49 * |r.2.fp.R 0 0|))) = some (true, true) := by
  constructor <;> decide +kernel

/-- The hypotheses are met: `isreduced(0.99)` on (5,0), (3,1) answers -1 and prints both blocks. -/
example : ∃ fuel p1 w q s', (newLattice realOps 7 2 2 (ofCols [[5, 0], [3, 1]]) true 0 true 0).isreducedMsg
      realOps 7 (1 / 100000) (1 / 1000) fuel (99 / 100) = some (p1, some (w, q), -1, s') ∧
    p1.b1 = ‖colVec (toMatrix 2 2 (ofCols [[5, 0], [3, 1]])) 0‖ ∧
    q.vol = volume (toMatrix 2 2 (ofCols [[5, 0], [3, 1]])) ∧ 0 < w := by
  have hA : FullColumnRank (toMatrix 2 2 (ofCols [[5, 0], [3, 1]])) := by
    have : (toMatrix 2 2 (ofCols [[5, 0], [3, 1]])).det ≠ 0 := by
      rw [Matrix.det_fin_two]; decide
    exact Matrix.linearIndependent_cols_of_det_ne_zero this
  have hp : potential 2 2 (ofCols [[5, 0], [3, 1]]) = 25 := by
    unfold potential
    rw [Finset.prod_range_succ, Finset.prod_range_succ, Finset.prod_range_zero]
    simp [Matrix.det_unique, Matrix.mul_apply, toMatrix, ofCols]
  have hr : Runs (newLattice realOps 7 2 2 (ofCols [[5, 0], [3, 1]]) true 0 true 0) []
      (newLattice realOps 7 2 2 (ofCols [[5, 0], [3, 1]]) true 0 true 0) := .nil _
  generalize ht : newLattice realOps 7 2 2 (ofCols [[5, 0], [3, 1]]) true 0 true 0 = t at *
  have tB : t.B = ofCols [[5, 0], [3, 1]] := by rw [← ht]; rfl
  have tS : t.numS = 1 := by rw [← ht]; rfl
  have tf : t.seysenFlag = 0 := by rw [← ht]; rfl
  have tn : t.nblovMax = 4294967295 := by rw [← ht]; rfl
  have tnn : t.n = 2 := by rw [← ht]; rfl
  have tdd : t.d = 2 := by rw [← ht]; rfl
  have hr' : Runs (newLattice realOps 7 2 2 (ofCols [[5, 0], [3, 1]]) true 0 true 0) [] t := by
    rw [← ht]; exact .nil _
  obtain ⟨f, ⟨st, s'⟩, hi⟩ := C54_isreduced_terminates (o' := realOps) realOps_exact 7 2 2 _ true 0
    (by norm_num) true 0 [] t hr' hA (by omega) tf 7 (99 / 100) (by norm_num)
  have hmsg : ∃ p1 p2 st s', t.isreducedMsg realOps 7 (1 / 100000) (1 / 1000) f (99 / 100) =
      some (p1, p2, st, s') := by
    unfold Lat.isreduced at hi
    unfold Lat.isreducedMsg
    cases hl : hlll realOps f (99 / 100) true (t.isreducedPrep realOps 7) with
    | none => rw [hl] at hi; simp at hi
    | some r => dsimp only; rw [hl]; exact ⟨_, _, _, _, rfl⟩
  obtain ⟨p1, p2, st', s'', hm⟩ := hmsg
  obtain ⟨m1, m2, m3⟩ := C56_messages (o' := realOps) realOps_exact.toExact 7 2 2 (le_refl _) _ true 0 true 0 []
    t hr' hA (by omega) 7 _ _ f (99 / 100) (by norm_num) p1 p2 st' s'' hm
  rw [hi] at m1
  simp only [Option.some.injEq, Prod.mk.injEq] at m1
  obtain ⟨rfl, rfl⟩ := m1
  have hst : st ≠ 0 := by
    rintro rfl
    obtain ⟨-, c2, c3⟩ := C16_isreduced_sound (o' := realOps) realOps_exact.toExact 7 2 2 (by norm_num) _ true 0
      true 0 [] t hr' hA (by omega) tf (by omega) 7 f (99 / 100) (by norm_num) s' hi
    have hc := C16_isreduced realOps 7 2 2 _ true 0 true 0 [] t hr' (by norm_num) realOps 7 f (99 / 100) 0 s' hi
    have hlat := hc.2.2.1
    obtain ⟨c, hcc⟩ := c3 0 (by norm_num)
    have hfs := LLLReduced.first_short (by norm_num) (by norm_num) (c2 (by norm_num)) 0 rfl
      (fun i => t.getbase.M 1 i) (by
        rw [hlat]; exact Submodule.subset_span ⟨1, rfl⟩) (by
        intro h0
        have := congrFun h0 0
        simp [Lat.getbase, tB, ofCols] at this)
    have h00 := hcc 0 (by norm_num)
    have h01 := hcc 1 (by norm_num)
    simp [Lat.getbase, tB, ofCols] at h00 h01
    simp [Fin.sum_univ_two, toMatrix, Lat.getbase, tB, ofCols, h00, h01] at hfs
    norm_num at hfs
  have hst1 : st = -1 := by
    rcases (C16_isreduced realOps 7 2 2 _ true 0 true 0 [] t hr' (by norm_num) realOps 7 f (99 / 100) st s'
      hi).1 with h | h
    · exact absurd h hst
    · exact h
  cases hp2 : p2 with
  | none => exact absurd (m2.1 hp2) hst
  | some wq =>
    obtain ⟨w, q⟩ := wq
    rw [hp2] at hm
    obtain ⟨-, -, q3, q4, q5, q6⟩ := m3 w q hp2 (by rw [tB, hp, tn]; norm_num) (by rw [tn]; norm_num)
    refine ⟨f, p1, w, q, s', by rw [hm, hst1], ?_, ?_, by omega⟩
    · unfold Lat.isreducedMsg at hm
      dsimp only at hm
      split at hm
      · simp at hm
      · simp only [Option.some.injEq, Prod.mk.injEq] at hm
        obtain ⟨rfl, -⟩ := hm
        have := printedB1_eq (d := 2) realOps_exact.toExact t.B (by norm_num) (show 0 < 2 by norm_num)
        rw [tB] at this
        show printedB1 realOps t.n t.B = _
        rw [tnn, tB, this]; rfl
    · rw [q3]; show volume (toMatrix 2 2 t.B) = _; rw [tB]

end HPLLL.Props
