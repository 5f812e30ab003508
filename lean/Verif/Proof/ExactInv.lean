import Verif.Proof.SizeSpec
/-! Invariants of an exact run: cached data, triangular factor, size reduction of a column. -/

namespace HPLLL
open Spec Finset

variable {o : FPOps ℝ}

/-- Geometry of the current basis. -/
structure Geo (n d : ℕ) (str : ℕ → ℤ) (B : Mat Int) : Prop where
  le : ∀ j < d, nmaxOf str j ≤ n
  mono : ∀ i j, i ≤ j → j < d → nmaxOf str i ≤ nmaxOf str j
  supp : ∀ j < d, ∀ r, nmaxOf str j ≤ r → r < n → B j r = 0
  diag : ∀ j < d, j < nmaxOf str j
  rank : ∀ k ≤ d, 0 < gd n B k

theorem fcr_mul_unit {n d : ℕ} {M : Matrix (Fin n) (Fin d) ℤ} {W : Matrix (Fin d) (Fin d) ℤ}
    (hW : IsUnit W.det) (h : FullColumnRank M) : FullColumnRank (M * W) := by
  unfold FullColumnRank at *
  rw [Fintype.linearIndependent_iff] at *
  intro g hg
  have h1 : M.mulVec (W.mulVec g) = 0 := by
    rw [Matrix.mulVec_mulVec]
    ext r
    have := congrFun hg r
    simp only [Finset.sum_apply, Pi.smul_apply, smul_eq_mul, Pi.zero_apply] at this
    rw [Pi.zero_apply, ← this]
    simp only [Matrix.mulVec, dotProduct]
    exact Finset.sum_congr rfl fun x _ => by ring
  have h2 : W.mulVec g = 0 := by
    funext i
    refine h (W.mulVec g) ?_ i
    ext r
    have := congrFun h1 r
    simp only [Finset.sum_apply, Pi.smul_apply, smul_eq_mul, Pi.zero_apply]
    rw [← this.trans (Pi.zero_apply r)]
    conv_rhs => rw [Matrix.mulVec]
    simp only [dotProduct]
    exact Finset.sum_congr rfl fun x _ => by ring
  have h3 : W⁻¹.mulVec (W.mulVec g) = 0 := by rw [h2]; simp
  rw [Matrix.mulVec_mulVec, Matrix.nonsing_inv_mul _ hW, Matrix.one_mulVec] at h3
  exact fun i => congrFun h3 i

theorem LInv.geo {n d : ℕ} {A : Mat Int} {track : Prop} {s : Lat ℝ} (h : LInv n d A track s)
    (hA : FullColumnRank (toMatrix n d A)) : Geo n d s.str s.B := by
  have hB : FullColumnRank (toMatrix n d s.B) := by
    obtain ⟨W, hW, e, _⟩ := h.uni
    rw [e]; exact fcr_mul_unit hW hA
  constructor
  · intro j hj; have := h.lt j hj; unfold nmaxOf; omega
  · intro i j hij hj; have := h.mono i j hij hj; unfold nmaxOf; omega
  · intro j hj r hr hrn; exact h.supp j hj r hrn (by unfold nmaxOf at hr; omega)
  · intro j hj
    have := structure_ge_diag n d s.B hB s.str h.mono h.lt h.supp j hj
    unfold nmaxOf; omega
  · intro k hk; exact gd_pos hk hB

theorem ZSteps.gd {n d : ℕ} {A : Mat Int} {track : Prop} {κ : ℕ} {s s' : Lat ℝ} (hκ : κ < d)
    (hI : LInv n d A track s) (h : ZSteps κ s s') (k : ℕ) : gd n s'.B k = gd n s.B k := by
  induction h with
  | refl => rfl
  | tail h1 h2 ih =>
    rw [← ih]
    have hI' := hI.zsteps hκ h1
    cases h2 with
    | fp => rfl
    | col p b i c hi =>
      exact gd_axpy n _ κ i hi c _ (fun r hr hrn => hI'.supp i (by omega) r hrn
        (by unfold nmaxOf at hr; omega)) k
    | pcol i c l hi hl hp =>
      exact gd_axpy n _ κ i hi c _ (fun r hr hrn => hI'.supp i (by omega) r hrn
        (by unfold nmaxOf at hl; omega)) k

/-- Everything that is not about column `κ`. -/
structure Oth (n d : ℕ) (str : ℕ → ℤ) (B : Mat Int) (p : FPart ℝ) (κ : ℕ) : Prop where
  qr : QRv n str B p.V p.R κ
  bz : ∀ c < d, ∀ r, nmaxOf str c ≤ r → r < n → p.Bfp c r = 0
  kb : ∀ c < d, c ≠ κ → p.colKept c = true → (∀ r < n, p.Bfp c r = bv n B c r) ∧
    p.normB2 c = Ex.dot n (bv n B c) (bv n B c) ∧ 0 ≤ p.kappamin c
  lo : ∀ c < κ, p.colKept c = true ∧ p.kappamin c = c ∧
    ∀ k < c, p.VR c k = vprod n p.V k (bv n B c)
  hi : ∀ c, κ < c → c < d → p.colKept c = true → p.kappamin c ≤ κ ∧
    ∀ k : ℕ, (k : ℤ) < p.kappamin c → p.VR c k = vprod n p.V k (bv n B c)
  de : ∀ c, κ < c → c < d → p.descendu c = 0

theorem Oth.congr {n d : ℕ} {str : ℕ → ℤ} {B B' : Mat Int} {p p' : FPart ℝ} {κ : ℕ}
    (h : Oth n d str B p κ) (hB : ∀ c, c ≠ κ → B' c = B c) (f : HhFrame κ p p')
    (hz : κ < d → ∀ r, nmaxOf str κ ≤ r → r < n → p'.Bfp κ r = 0) : Oth n d str B' p' κ := by
  have hbv : ∀ c, c ≠ κ → bv n B' c = bv n B c := by
    intro c hc; unfold bv; rw [hB c hc]
  constructor
  · exact h.qr.congr (fun _ _ => rfl) (fun k hk => hB k (by omega)) (fun k _ => by rw [f.V])
      (fun k hk => f.R k (by omega))
  · intro c hc r hr hrn
    by_cases hcκ : c = κ
    · subst hcκ; exact hz hc r hr hrn
    · rw [f.Bfp c hcκ]; exact h.bz c hc r hr hrn
  · intro c hc hcκ
    rw [f.colKept c hcκ, f.Bfp c hcκ, f.normB2 c hcκ, f.kappamin c hcκ, hbv c hcκ]
    exact h.kb c hc hcκ
  · intro c hc
    have hcκ : c ≠ κ := by omega
    rw [f.colKept c hcκ, f.kappamin c hcκ, f.VR c hcκ, hbv c hcκ, f.V]
    exact h.lo c hc
  · intro c hc hcd
    have hcκ : c ≠ κ := by omega
    rw [f.colKept c hcκ, f.kappamin c hcκ, f.VR c hcκ, hbv c hcκ, f.V]
    exact h.hi c hc hcd
  · intro c hc hcd; rw [f.descendu]; exact h.de c hc hcd

/-- Before `householder_r(κ)`. -/
def Mid (n d : ℕ) (κ : ℕ) (s : Lat ℝ) : Prop :=
  Oth n d s.str s.B s.fp κ ∧
    (s.fp.colKept κ = true → ColPre n (nmaxOf s.str κ) κ s.fp (bv n s.B κ))

/-- After `householder_r(κ)`. -/
def Post (n d : ℕ) (κ : ℕ) (s : Lat ℝ) : Prop :=
  Oth n d s.str s.B s.fp κ ∧ ColPost n (nmaxOf s.str κ) κ s.fp (bv n s.B κ)

theorem Mid.hhR (ho : Exact o) {n d κ : ℕ} {s : Lat ℝ} (hκ : 0 < κ) (hκd : κ < d)
    (hg : Geo n d s.str s.B) (h : Mid n d κ s) : Post n d κ (s.hhR o κ) := by
  obtain ⟨h1, h2⟩ := h
  obtain ⟨a, b⟩ := householderR_spec ho s.str s.B s.fp hκ (hg.diag κ hκd) (hg.le κ hκd)
    (fun k hk r hr hrn => h1.qr.vsupp k hk r
      (le_trans (hg.mono k κ (by omega) hκd) hr) hrn)
    (h1.bz κ hκd) (hg.supp κ hκd) h2
  refine ⟨h1.congr (fun _ _ => rfl) b ?_, a⟩
  intro _ r hr hrn
  have := a.bfp r hrn
  rw [show (s.hhR o κ).fp = householderR o s.str s.B κ s.fp from rfl, this]
  simp only [bv]
  rw [if_pos hrn, hg.supp κ hκd r hr hrn]; simp

/-- Column `κ` is size reduced. -/
def SizeRed (κ : ℕ) (R : Mat ℝ) : Prop := ∀ i < κ, |R κ i| ≤ |R i i| / 2

theorem sizeAnomaly_false (ho : Exact o) {n κ : ℕ} {str : ℕ → ℤ} {B : Mat Int} {p : FPart ℝ}
    (hq : QRv n str B p.V p.R κ) (h : SizeRed κ p.R) : sizeAnomaly o κ p = false := by
  unfold sizeAnomaly
  rw [List.any_eq_false]
  intro i hi
  have hi' : i < κ := by simpa using hi
  rw [ho.lt, ho.add, ho.abs, ho.abs, ho.one, ho.div, ho.div, not_lt]
  have hne := hq.rdiag i hi'
  have h1 : |p.R κ i / p.R i i| ≤ 1 / 2 := by
    rw [abs_div, div_le_iff₀ (abs_pos.mpr hne)]
    have := h i hi'; linarith
  have h2 := abs_nonneg (o.mul (o.sqrt (p.normB2 κ)) o.eps / p.R i i)
  linarith

/-- One iteration of the size reduction loop. -/
theorem pass_spec (ho : Exact o) {n d κ : ℕ} {A : Mat Int} {track : Prop} {s : Lat ℝ}
    (hκ : 0 < κ) (hκd : κ < d) (hA : FullColumnRank (toMatrix n d A)) (hS : 0 < s.numS)
    (hI : LInv n d A track s) (h : Post n d κ s) :
    let q := hsizePass o κ κ s
    (q.2 = false → Post n d κ q.1 ∧ SizeRed κ q.1.fp.R) ∧
    (let t : Lat ℝ :=
      { q.1 with fp := { q.1.fp with colKept := setAt q.1.fp.colKept κ false } }
     Mid n d κ t ∧ LInv n d A track t ∧ Post n d κ (t.hhR o κ) ∧
      SizeRed κ (t.hhR o κ).fp.R) ∧
    (ExactTies o → SizeRed κ s.fp.R → q.2 = false) := by
  have hg := hI.geo hA
  obtain ⟨h1, h2⟩ := h
  have hzs := hsizePass_zs o (κ := κ) (le_refl κ) s
  have hfr := hzs.frame
  have hnm := hg.diag κ hκd
  obtain ⟨a1, ⟨R, x, a2⟩, a3, a4⟩ := hsizePass_spec ho s hS h1.qr
    (fun i hi => hg.supp i (by omega)) (fun r hr => h2.r r (by omega))
  intro q
  have hstr : q.1.str = s.str := hfr.str
  have hI' : LInv n d A track q.1 := hI.zsteps hκd hzs
  have hR : q.1.fp.R = R := by
    show (hsizePass o κ κ s).1.fp.R = R
    rw [a2]
  -- rows of column κ are reduced with respect to the untouched diagonal
  have hfq : q.1.fp = { s.fp with R := R, x := x } := a2
  have a1R : SizeSt n κ 0 s.fp.V s.B s.fp.R q.1.B R := by
    have := a1; rw [a2] at this; exact this
  have hfr1 : HhFrame κ s.fp q.1.fp := by
    rw [hfq]
    refine ⟨rfl, ?_, fun _ _ => rfl, fun _ _ => rfl, fun _ _ => rfl, fun _ _ => rfl,
      fun _ _ => rfl, rfl⟩
    intro c hc; exact a1R.Rc c hc
  refine ⟨?_, ?_, ?_⟩
  · intro hq2
    obtain ⟨b1, b2⟩ := a3 hq2
    have b1 : q.1.B = s.B := b1
    have b2 : R = s.fp.R := by rw [← hR]; exact b2
    refine ⟨⟨?_, ?_⟩, ?_⟩
    · rw [hstr, b1]
      refine h1.congr (fun _ _ => rfl) hfr1 ?_
      intro _; rw [hfq]; exact h1.bz κ hκd
    · rw [hstr, b1, hfq]
      exact ⟨h2.nmk, h2.kept, h2.bfp, h2.nrm, h2.kmin, ⟨h2.col.rk, h2.col.vr⟩, by
        simp only []; rw [b2]; exact h2.r⟩
    · intro i hi
      rw [hR, a1R.Rc i (by omega)]
      exact a1R.red i (by omega) hi
  · intro t
    have hIt : LInv n d A track t := hI'.congr rfl rfl rfl rfl rfl rfl rfl rfl
    have hfr2 : HhFrame κ s.fp t.fp := by
      refine ⟨hfr1.V, hfr1.R, hfr1.Bfp, hfr1.normB2, ?_, hfr1.kappamin, hfr1.VR, hfr1.descendu⟩
      intro c hc
      show setAt q.1.fp.colKept κ false c = _
      rw [setAt_ne _ _ hc]; exact hfr1.colKept c hc
    have hmid : Mid n d κ t := by
      constructor
      · have : t.str = s.str := hstr
        rw [this]
        refine h1.congr (fun c hc => hfr.Bcol c hc) hfr2 ?_
        intro _
        show ∀ r, _ → _ → q.1.fp.Bfp κ r = 0
        rw [hfq]; exact h1.bz κ hκd
      · intro hk
        have : t.fp.colKept κ = false := setAt_same _ _ _
        rw [this] at hk; simp at hk
    have hpost := hmid.hhR ho hκ hκd (hIt.geo hA)
    refine ⟨hmid, hIt, hpost, ?_⟩
    intro i hi
    have e1 : (t.hhR o κ).fp.R κ i = R κ i := by
      rw [hpost.2.r i (by have := (hIt.geo hA).diag κ hκd; show i < nmaxOf t.str κ; omega)]
      have : (t.hhR o κ).fp.V = s.fp.V := by
        have := householderR_spec ho t.str t.B t.fp hκ ((hIt.geo hA).diag κ hκd)
          ((hIt.geo hA).le κ hκd)
          (fun k hk r hr hrn => hmid.1.qr.vsupp k hk r
            (le_trans ((hIt.geo hA).mono k κ (by omega) hκd) hr) hrn)
          (hmid.1.bz κ hκd) ((hIt.geo hA).supp κ hκd) hmid.2
        exact this.2.V.trans hfr2.V
      rw [this, a1R.tr i hi]
      rfl
    have e2 : (t.hhR o κ).fp.R i i = s.fp.R i i := by
      have := householderR_spec ho t.str t.B t.fp hκ ((hIt.geo hA).diag κ hκd)
          ((hIt.geo hA).le κ hκd)
          (fun k hk r hr hrn => hmid.1.qr.vsupp k hk r
            (le_trans ((hIt.geo hA).mono k κ (by omega) hκd) hr) hrn)
          (hmid.1.bz κ hκd) ((hIt.geo hA).supp κ hκd) hmid.2
      have h3 := this.2.R i (by omega)
      show (householderR o t.str t.B κ t.fp).R i i = _
      rw [h3, hfr2.R i (by omega)]
    rw [e1, e2]
    exact a1R.red i (by omega) hi
  · exact a4

/-- The size reduction loop. -/
theorem hsizeLoop_spec (ho : Exact o) {n d κ : ℕ} {A : Mat Int} {track : Prop}
    (hκ : 0 < κ) (hκd : κ < d) (hA : FullColumnRank (toMatrix n d A)) (fuel : ℕ) :
    ∀ (b : Bool) (s s' : Lat ℝ) (st : ℤ), 0 < s.numS → LInv n d A track s → Post n d κ s →
    hsizeLoop o κ κ fuel b s = some (st, s') →
    st = 0 ∧ Post n d κ s' ∧ SizeRed κ s'.fp.R := by
  induction fuel with
  | zero => intro b s s' st _ _ _ h; simp [hsizeLoop] at h
  | succ fuel ih =>
    intro b s s' st hS hI hP h
    obtain ⟨c1, ⟨c2, c3, c4, c5⟩, c6⟩ := pass_spec ho hκ hκd hA hS hI hP
    simp only [hsizeLoop] at h
    split at h
    · split at h
      · have hsa := sizeAnomaly_false ho c4.1.qr c5
        rw [hsa] at h
        simp only [Bool.false_eq_true, if_false, Option.some.injEq, Prod.mk.injEq] at h
        obtain ⟨rfl, rfl⟩ := h
        exact ⟨rfl, c4, c5⟩
      · refine ih _ _ _ _ ?_ ?_ c4 h
        · have := (hsizePass_zs o (κ := κ) (le_refl κ) s).frame.numS
          show 0 < (hsizePass o κ κ s).1.numS
          rw [this]; exact hS
        · exact c3.congr rfl rfl rfl rfl rfl rfl rfl rfl
    · rename_i hq
      simp only [Option.some.injEq, Prod.mk.injEq] at h
      obtain ⟨rfl, rfl⟩ := h
      obtain ⟨d1, d2⟩ := c1 (by simpa using hq)
      exact ⟨rfl, d1, d2⟩

/-- With ties rounded to zero two passes are enough. -/
theorem hsizeLoop_term (ho : ExactTies o) {n d κ : ℕ} {A : Mat Int} {track : Prop}
    (hκ : 0 < κ) (hκd : κ < d) (hA : FullColumnRank (toMatrix n d A)) (fuel : ℕ) (b : Bool)
    (s : Lat ℝ) (hS : 0 < s.numS) (hI : LInv n d A track s) (hP : Post n d κ s) :
    ∃ r, hsizeLoop o κ κ (fuel + 2) b s = some r := by
  have one : ∀ (b : Bool) (s : Lat ℝ), 0 < s.numS → LInv n d A track s → Post n d κ s →
      SizeRed κ s.fp.R → ∃ r, hsizeLoop o κ κ (fuel + 1) b s = some r := by
    intro b s hS hI hP hr
    obtain ⟨c1, c2, c6⟩ := pass_spec ho.toExact hκ hκd hA hS hI hP
    have := c6 ho hr
    simp only [hsizeLoop, this, Bool.false_eq_true, if_false]
    exact ⟨_, rfl⟩
  obtain ⟨c1, ⟨c2, c3, c4, c5⟩, c6⟩ := pass_spec ho.toExact hκ hκd hA hS hI hP
  rw [hsizeLoop]
  simp only []
  split
  · split
    · split <;> exact ⟨_, rfl⟩
    · refine one _ _ ?_ (c3.congr rfl rfl rfl rfl rfl rfl rfl rfl) c4 c5
      have := (hsizePass_zs o (κ := κ) (le_refl κ) s).frame.numS
      show 0 < (hsizePass o κ κ s).1.numS
      rw [this]; exact hS
  · exact ⟨_, rfl⟩

end HPLLL
