import Verif.Proof.ExactExit
import Verif.Proof.SeyBlocks
/-! The main loop in exact arithmetic with an arbitrary reduction of the columns (`hlllp`, and `hlll`
with the Seysen method). -/

namespace HPLLL
open Spec Finset

variable {o : FPOps ℝ}

/-- One iteration of the main loop, after the reduction of the column. -/
def gStep (o : FPOps ℝ) (red : Option (ℤ × Lat ℝ)) (deltab : ℝ) (h : HState ℝ) : HStep ℝ :=
  let κ := h.kappa
  match red with
  | none => .diverge
  | some (flag, s) =>
    if flag = -1 then .fail s
    else
      let lov := lovtest o deltab κ s.fp
      let s := { s with nblov := s.nblov + 1
                        ub := s.ub || !(decide (κ < s.d ∧ κ < s.n ∧ nmaxOf s.str κ ≤ s.n)) }
      if o.le lov (newt o s.str κ s.fp) then
        let s := s.hhV o κ
        if h.prevkappa = κ + 1 ∧ o.lt (h.prevR κ) (o.abs (s.fp.R κ κ)) then .fail s
        else
          .next { s := hlllUp κ s
                  kappa := κ + 1
                  prevkappa := κ
                  prevR := setAt h.prevR κ (o.abs (s.fp.R κ κ)) }
      else
        .next { s := hlllDown κ s
                kappa := max (κ - 1) 1
                prevkappa := κ
                prevR := h.prevR }

theorem hlllStep_g (fuel : ℕ) (δ : ℝ) (h : HState ℝ) :
    hlllStep o fuel δ h =
      gStep o (hlllReduce o fuel h.kappa (hlllPrep o h.kappa h.s)) δ h := by
  unfold hlllStep gStep
  simp only []
  cases hlllReduce o fuel h.kappa (hlllPrep o h.kappa h.s) <;> rfl

theorem hlllpStep_g (thr : ℝ) (dth : ℤ) (fuel : ℕ) (δ : ℝ) (h : HState ℝ) :
    hlllpStep o thr dth fuel δ h =
      gStep o (hlllpReduce o thr dth fuel h.kappa (hlllPrep o h.kappa h.s)) δ h := by
  unfold hlllpStep gStep
  simp only []
  cases hlllpReduce o thr dth fuel h.kappa (hlllPrep o h.kappa h.s) <;> rfl

/-- A property of column `κ` that only looks at the rows above the diagonal and the columns before. -/
def QLoc (Q : ℕ → Mat ℝ → Prop) : Prop :=
  ∀ κ R R', (∀ c < κ, R' c = R c) → (∀ i < κ, R' κ i = R κ i) → Q κ R → Q κ R'

/-- Lovász conditions and column property of the first `κ` columns. -/
def RedG (δ : ℝ) (Q : ℕ → Mat ℝ → Prop) (κ : ℕ) (R : Mat ℝ) : Prop :=
  ∀ k, 1 ≤ k → k < κ → Q k R ∧
    δ * (R (k - 1) (k - 1) * R (k - 1) (k - 1)) ≤ R k (k - 1) * R k (k - 1) + R k k * R k k

structure ExInvG (n d : ℕ) (A : Mat Int) (track : Prop) (Q : ℕ → Mat ℝ → Prop) (s0 : Lat ℝ) (δ : ℝ)
    (h : HState ℝ) : Prop where
  inv : LInv n d A track h.s
  cfg : SameCfg s0 h.s
  pos : 0 < h.kappa
  kd : h.kappa ≤ max d 1
  head : Head n d h.s.str h.s.B h.s.fp h.kappa
  red : h.kappa ≠ 1 → RedG δ Q h.kappa h.s.fp.R
  prev : δ ≤ 1 → PrevI n h.s.B h.kappa h.prevkappa h.prevR

/-- What one iteration guarantees. -/
def StepG (n d : ℕ) (A : Mat Int) (track : Prop) (Q : ℕ → Mat ℝ → Prop) (s0 : Lat ℝ) (δ : ℝ)
    (h : HState ℝ) : HStep ℝ → Prop
  | .diverge => True
  | .fail _ => ¬ δ ≤ 1
  | .next h' => ExInvG n d A track Q s0 δ h' ∧ GdStep n δ h h' ∧ h'.s.nblov = h.s.nblov + 1

/-- What the reduction of column `κ` guarantees. -/
def RedRes (n d κ : ℕ) (Q : ℕ → Mat ℝ → Prop) (s : Lat ℝ) : Option (ℤ × Lat ℝ) → Prop
  | none => True
  | some (st, s') => st = 0 ∧ ZSteps κ s s' ∧ Post n d κ s' ∧ Q κ s'.fp.R ∧
      ∀ c < κ, s'.fp.R c = s.fp.R c

theorem ExInvG.mid (ho : Exact o) {n d : ℕ} {A : Mat Int} {track : Prop} {Q : ℕ → Mat ℝ → Prop}
    {s0 : Lat ℝ} {δ : ℝ} {h : HState ℝ}
    (hA : FullColumnRank (toMatrix n d A)) (hE : ExInvG n d A track Q s0 δ h) (hκd : h.kappa < d) :
    Mid n d h.kappa (hlllPrep o h.kappa h.s) ∧ LInv n d A track (hlllPrep o h.kappa h.s) ∧
      SameCfg s0 (hlllPrep o h.kappa h.s) := by
  have hz := hlllPrep_zs o h.kappa h.s
  have f := hz.frame
  refine ⟨hE.head.prep ho hE.pos hκd hE.inv.hn hE.inv.hd (hE.inv.geo hA), hE.inv.zsteps hκd hz, ?_⟩
  exact hE.cfg.trans' ⟨f.n, f.d, f.transf, f.kappaMax, f.nblovMax, f.numS, f.parThr, f.seysenFlag,
    f.fastLong, f.verboseDepth⟩

theorem ExInvG.step (ho : Exact o) {n d : ℕ} {A : Mat Int} {track : Prop} {Q : ℕ → Mat ℝ → Prop}
    (hQ : QLoc Q) {s0 : Lat ℝ} {δ : ℝ} {h : HState ℝ}
    (hA : FullColumnRank (toMatrix n d A)) (hE : ExInvG n d A track Q s0 δ h) (hκd : h.kappa < d)
    (red : Option (ℤ × Lat ℝ))
    (hred0 : RedRes n d h.kappa Q (hlllPrep o h.kappa h.s) red) :
    StepG n d A track Q s0 δ h (gStep o red δ h) := by
  have hκ := hE.pos
  have hzp := hlllPrep_zs o h.kappa h.s
  unfold gStep
  simp only []
  cases red with
  | none => simp only [StepG]
  | some r =>
    obtain ⟨flag, s⟩ := r
    obtain ⟨rfl, hz2, hP, hsr', hRlow⟩ := hred0
    have hzs : ZSteps h.kappa h.s s := hzp.trans hz2
    have hfr := hzs.frame
    have hI : LInv n d A track s := hE.inv.zsteps hκd hzs
    have hg := hI.geo hA
    have hgd : ∀ k, gd n s.B k = gd n h.s.B k := fun k => ZSteps.gd hκd hE.inv hzs k
    have hnt := newt_eq ho hκ hκd hg hP
    -- reducedness of the earlier columns carries over
    have hred : RedG δ Q h.kappa s.fp.R := by
      intro k hk1 hk2
      have hne : h.kappa ≠ 1 := by omega
      have e : ∀ c, c < h.kappa → s.fp.R c = h.s.fp.R c := by
        intro c hc; rw [hRlow c hc, prep_R hne]
      obtain ⟨a, b⟩ := hE.red hne k hk1 hk2
      refine ⟨hQ k _ _ (fun c hc => e c (by omega)) (fun i _ => by rw [e k hk2]) a, ?_⟩
      rw [e k hk2, e (k - 1) (by omega)]
      exact b
    -- value of the last diagonal entry
    have hdiag : (gd n s.B h.kappa : ℝ) = gd n s.B (h.kappa - 1) *
        (s.fp.R (h.kappa - 1) (h.kappa - 1) * s.fp.R (h.kappa - 1) (h.kappa - 1)) := by
      have hn : h.kappa ≤ n := by have := hg.diag _ hκd; have := hg.le _ hκd; omega
      rw [hP.1.qr.gd_prod hn, (hP.1.qr.mono (by omega : h.kappa - 1 ≤ h.kappa)).gd_prod (by omega)]
      conv_lhs => rw [show h.kappa = h.kappa - 1 + 1 by omega]
      rw [prod_range_succ]
    simp only []
    rw [if_neg (by decide)]
    have hlv : lovtest o δ h.kappa s.fp = δ *
        (s.fp.R (h.kappa - 1) (h.kappa - 1) * s.fp.R (h.kappa - 1) (h.kappa - 1)) := by
      unfold lovtest; rw [ho.mul, ho.mul]
    set s1 : Lat ℝ :=
      { s with
        nblov := s.nblov + 1
        ub := s.ub || !(decide (h.kappa < s.d ∧ h.kappa < s.n ∧ nmaxOf s.str h.kappa ≤ s.n)) }
      with hs1
    have hI1' : LInv n d A track s1 := hI.congr rfl rfl rfl rfl rfl rfl rfl rfl
    have hP1 : Post n d h.kappa s1 := hP
    split
    · -- UP
      rename_i hle
      rw [ho.le, hlv, hnt] at hle
      obtain ⟨hh, vf, hRR, hgt⟩ := Post.up (s := s1) ho hκ hκd hI.hn hg hP1
      have hRR' : (s1.hhV o h.kappa).fp.R h.kappa h.kappa *
          (s1.hhV o h.kappa).fp.R h.kappa h.kappa =
          Ex.tail n h.kappa (Ex.app n s.fp.V h.kappa (bv n s.B h.kappa)) := hRR
      split
      · rename_i hf
        obtain ⟨hf1, hf2⟩ := hf
        show ¬ δ ≤ 1
        intro hδ
        rw [ho.lt, ho.abs] at hf2
        obtain ⟨p0, p1⟩ := (hE.prev hδ).up hf1
        rw [← hgd, ← hgd] at p1
        have hpos : (0 : ℝ) < gd n s.B h.kappa := by exact_mod_cast hg.rank _ hκd.le
        rw [hgt] at p1
        have p2 : (s1.hhV o h.kappa).fp.R h.kappa h.kappa *
            (s1.hhV o h.kappa).fp.R h.kappa h.kappa ≤ h.prevR h.kappa * h.prevR h.kappa := by
          nlinarith
        have := abs_le_of_sq_le_sq' (a := (s1.hhV o h.kappa).fp.R h.kappa h.kappa)
          (b := h.prevR h.kappa) (by rw [sq, sq]; exact p2) p0
        have h3 := abs_le.mpr this
        linarith
      · refine ⟨?_, ?_, ?_⟩
        · constructor
          · exact hI1'.congr rfl rfl rfl rfl rfl rfl rfl rfl
          · exact hE.cfg.trans' ⟨hfr.n, hfr.d, hfr.transf, hfr.kappaMax, hfr.nblovMax, hfr.numS,
              hfr.parThr, hfr.seysenFlag, hfr.fastLong, hfr.verboseDepth⟩
          · show 0 < h.kappa + 1; omega
          · show h.kappa + 1 ≤ max d 1; omega
          · exact hh
          · intro _ k hk1 hk2
            have hk2 : k < h.kappa + 1 := hk2
            show Q k (s1.hhV o h.kappa).fp.R ∧ _
            have e : ∀ c, c < h.kappa → (s1.hhV o h.kappa).fp.R c = s.fp.R c := fun c hc =>
              vf.R c (by omega)
            by_cases hkκ : k = h.kappa
            · subst hkκ
              have hκκ : h.kappa - 1 ≠ h.kappa := by omega
              refine ⟨hQ _ _ _ (fun c hc => e c hc) (fun i hi => vf.Rκ i (by omega)) hsr', ?_⟩
              ·
                show _ ≤ (s1.hhV o h.kappa).fp.R h.kappa (h.kappa - 1) *
                  (s1.hhV o h.kappa).fp.R h.kappa (h.kappa - 1) + _
                rw [show (hlllUp h.kappa (s1.hhV o h.kappa)).fp.R = (s1.hhV o h.kappa).fp.R from rfl]
                rw [e (h.kappa - 1) (by omega), vf.Rκ _ hκκ, hRR']
                rw [Ex.tail_succ n (h.kappa - 1) _
                  (by have := hg.diag _ hκd; have := hg.le _ hκd; omega),
                  show h.kappa - 1 + 1 = h.kappa by omega,
                  ← hP.2.r (h.kappa - 1) (by have := hg.diag _ hκd; omega)] at hle
                exact hle
            · obtain ⟨a, b⟩ := hred k hk1 (by omega)
              refine ⟨hQ _ _ _ (fun c hc => e c (by omega)) (fun i _ => by rw [e k (by omega)]) a, ?_⟩
              · rw [show (hlllUp h.kappa (s1.hhV o h.kappa)).fp.R = (s1.hhV o h.kappa).fp.R from rfl]
                rw [e k (by omega), e (k - 1) (by omega)]; exact b
          · intro hδ
            obtain ⟨l1, l2⟩ := hE.prev hδ
            constructor
            · intro j hj1 hj2
              have hj2 : j < h.kappa + 1 := hj2
              show 0 ≤ setAt h.prevR h.kappa (o.abs _) j ∧
                setAt h.prevR h.kappa (o.abs _) j * setAt h.prevR h.kappa (o.abs _) j *
                  (gd n s.B j : ℝ) = (gd n s.B (j + 1) : ℝ)
              by_cases hjκ : j = h.kappa
              · subst hjκ
                rw [setAt_same, ho.abs]
                refine ⟨abs_nonneg _, ?_⟩
                rw [abs_mul_abs_self]
                rw [show (gd n s.B (h.kappa + 1) : ℝ) = _ from hgt]
                exact mul_comm _ _
              · rw [setAt_ne _ _ hjκ, hgd, hgd]
                exact l1 j hj1 (by omega)
            · intro hk
              exfalso
              have hk : (h.kappa : ℤ) = ((h.kappa + 1 : ℕ) : ℤ) + 1 := hk
              push_cast at hk; omega
        · left
          exact ⟨rfl, hfr.nbswaps, hgd⟩
        · show s.nblov + 1 = h.s.nblov + 1
          rw [hfr.nblov]
    · -- DOWN
      rename_i hle
      rw [ho.le, hlv, hnt, not_le] at hle
      have hdn := hP1.down hκ hκd hg
      have hdI := hI1'.down hκd hκ
      have hgd' : ∀ k, k ≠ h.kappa → gd n (hlllDown h.kappa s1).B k = gd n s.B k :=
        fun k hk => gd_colswap n s.B h.kappa k hκ hk
      have hgκ : (gd n (hlllDown h.kappa s1).B h.kappa : ℝ) = gd n s.B (h.kappa - 1) *
          Ex.tail n (h.kappa - 1) (Ex.app n s.fp.V h.kappa (bv n s.B h.kappa)) := by
        have hq : QRv n s.str (hlllDown h.kappa s1).B s.fp.V s.fp.R (h.kappa - 1) := by
          refine (hP.1.qr.mono (by omega : h.kappa - 1 ≤ h.kappa)).congr (fun _ _ => rfl) ?_
            (fun _ _ => rfl) (fun _ _ => rfl)
          intro k hk; simp only [hlllDown, colswap]
          rw [if_neg (by omega), if_neg (by omega)]
        have hn : h.kappa < n := by have := hg.diag _ hκd; have := hg.le _ hκd; omega
        have e := hq.gd_tail (by omega)
        rw [show h.kappa - 1 + 1 = h.kappa by omega] at e
        rw [e, hgd' (h.kappa - 1) (by omega)]
        have hb : bv n (hlllDown h.kappa s1).B (h.kappa - 1) = bv n s.B h.kappa := by
          simp only [hlllDown, bv_colswap]; rw [if_pos trivial]
        rw [hb]
        have ht := Ex.tail_app n s.fp.V (h.kappa - 1) (by omega)
          (hP.1.qr.vnorm (h.kappa - 1) (by omega)) (bv n s.B h.kappa)
        rw [show h.kappa - 1 + 1 = h.kappa by omega] at ht
        rw [ht]
      have hlt : (gd n (hlllDown h.kappa s1).B h.kappa : ℝ) < δ * gd n s.B h.kappa := by
        rw [hgκ, hdiag]
        have hpos : (0 : ℝ) < gd n s.B (h.kappa - 1) := by
          exact_mod_cast hg.rank _ (by omega)
        nlinarith
      refine ⟨?_, ?_, ?_⟩
      · constructor
        · exact hdI
        · exact hE.cfg.trans' ⟨hfr.n, hfr.d, hfr.transf, hfr.kappaMax, hfr.nblovMax, hfr.numS,
              hfr.parThr, hfr.seysenFlag, hfr.fastLong, hfr.verboseDepth⟩
        · show 0 < max (h.kappa - 1) 1; omega
        · show max (h.kappa - 1) 1 ≤ max d 1; omega
        · exact hdn
        · intro hne k hk1 hk2
          have hk2 : k < max (h.kappa - 1) 1 := hk2
          exact hred k hk1 (by omega)
        · intro hδ
          obtain ⟨l1, l2⟩ := hE.prev hδ
          constructor
          · intro j hj1 hj2
            have hj2 : j < max (h.kappa - 1) 1 := hj2
            show 0 ≤ h.prevR j ∧ h.prevR j * h.prevR j * (gd n (hlllDown h.kappa s1).B j : ℝ) =
              (gd n (hlllDown h.kappa s1).B (j + 1) : ℝ)
            rw [hgd' j (by omega), hgd' (j + 1) (by omega), hgd, hgd]
            exact l1 j hj1 (by omega)
          · intro hk
            have hk : (h.kappa : ℤ) = ((max (h.kappa - 1) 1 : ℕ) : ℤ) + 1 := hk
            have hκ2 : 2 ≤ h.kappa := by omega
            show 0 ≤ h.prevR (max (h.kappa - 1) 1) ∧
              (gd n (hlllDown h.kappa s1).B (max (h.kappa - 1) 1 + 1) : ℝ) ≤
              h.prevR (max (h.kappa - 1) 1) * h.prevR (max (h.kappa - 1) 1) *
                (gd n (hlllDown h.kappa s1).B (max (h.kappa - 1) 1) : ℝ)
            rw [show max (h.kappa - 1) 1 = h.kappa - 1 by omega,
              show h.kappa - 1 + 1 = h.kappa by omega, hgd' (h.kappa - 1) (by omega)]
            obtain ⟨m1, m2⟩ := l1 (h.kappa - 1) (by omega) (by omega)
            refine ⟨m1, ?_⟩
            rw [show h.kappa - 1 + 1 = h.kappa by omega, ← hgd, ← hgd] at m2
            rw [m2]
            have hpos : (0 : ℝ) < gd n s.B h.kappa := by exact_mod_cast hg.rank _ hκd.le
            nlinarith
      · right
        refine ⟨rfl, ?_, ?_, ?_⟩
        · show s.nbswaps + 1 = h.s.nbswaps + 1
          rw [hfr.nbswaps]
        · intro k hk; rw [← hgd]; exact hgd' k hk
        · rw [← hgd]; exact hlt
      · show s.nblov + 1 = h.s.nblov + 1
        rw [hfr.nblov]


theorem gStep_term (r : ℤ × Lat ℝ) (δ : ℝ) (h : HState ℝ) : gStep o (some r) δ h ≠ .diverge := by
  unfold gStep
  simp only []
  split
  · simp
  · split
    · split <;> simp
    · simp

/-- The invariant holds initially. -/
theorem ExInvG.init {n d : ℕ} {A : Mat Int} {track : Prop} {Q : ℕ → Mat ℝ → Prop} {δ : ℝ} {s : Lat ℝ}
    (hI : LInv n d A track s) (hS : 0 < s.numS)
    (hz : ∀ c < d, ∀ r, nmaxOf s.str c ≤ r → r < n → s.fp.Bfp c r = 0) :
    ExInvG n d A track Q s δ (hlllInit o s) := by
  have h := ExInv.init (o := o) (δ := δ) hI hS hz
  exact ⟨h.inv, by constructor <;> rfl, h.pos, h.kd, h.head, fun hne => absurd rfl hne, h.prev⟩

/-! ### The reductions -/

theorem SeyRed.congr {c : ℝ} {κ : ℕ} {R R' : Mat ℝ} (h : SeyRed c κ R) (hR : ∀ j < κ, R' j = R j)
    (hk : ∀ i < κ, R' κ i = R κ i) : SeyRed c κ R' := fun t =>
  (h t).congr (fun j _ hj => hR j (by have := seyHi_le κ t; omega))
    (fun r _ hr => hk r (by have := seyHi_le κ t; omega))

/-- `seysenreduce` in a sequential setting. -/
theorem seysenLoop_red (ho : Exact o) {n d κ : ℕ} {A : Mat Int} {track : Prop} (hκ : 0 < κ)
    (hκd : κ < d) (hA : FullColumnRank (toMatrix n d A)) (fuel : ℕ) :
    ∀ (n0 n1 : Bool) (tmp vx : ℕ → ℝ) (s s' : Lat ℝ) (st : ℤ), SeqSey s → LInv n d A track s →
      Post n d κ s → seysenLoop o κ fuel n0 n1 tmp vx s = some (st, s') →
      SeyRed (1 / 2) κ s'.fp.R := by
  induction fuel with
  | zero => intro n0 n1 tmp vx s s' st _ _ _ h; simp [seysenLoop] at h
  | succ fuel ih =>
    intro n0 n1 tmp vx s s' st hs hI hP h
    simp only [seysenLoop] at h
    rw [seysenBlocks_G] at h
    obtain ⟨p1, ⟨p2, p3, p4, p5, p6⟩, p7⟩ := blocksG_pass ho (seysenBlock_spec ho n κ) hκ hκd hA s tmp
      vx ⟨hs, by rw [hI.hd]; exact hκd⟩ hI hP
    split at h
    · split at h
      · exact ih _ _ _ _ _ _ _ p3.1 (p2.congr rfl rfl rfl rfl rfl rfl rfl rfl) p4 h
      · simp only [Option.some.injEq, Prod.mk.injEq] at h
        obtain ⟨rfl, rfl⟩ := h
        exact p5
    · rename_i hd
      simp only [Option.some.injEq, Prod.mk.injEq] at h
      obtain ⟨rfl, rfl⟩ := h
      obtain ⟨a, b⟩ := p1 (by simpa using hd)
      rw [a]; exact b

theorem seysenLoop_term (ho : ExactTies o) {n d κ : ℕ} {A : Mat Int} {track : Prop} (hκ : 0 < κ)
    (hκd : κ < d) (hA : FullColumnRank (toMatrix n d A)) (fuel : ℕ) (n0 n1 : Bool) (tmp vx : ℕ → ℝ)
    (s : Lat ℝ) (hs : SeqSey s) (hI : LInv n d A track s) (hP : Post n d κ s) :
    ∃ r, seysenLoop o κ (fuel + 2) n0 n1 tmp vx s = some r := by
  simp only [seysenLoop]
  rw [seysenBlocks_G]
  obtain ⟨p1, ⟨p2, p3, p4, p5, p6⟩, p7⟩ := blocksG_pass ho.toExact (seysenBlock_spec ho.toExact n κ)
    hκ hκd hA s tmp vx ⟨hs, by rw [hI.hd]; exact hκd⟩ hI hP
  split
  · split
    · rw [seysenBlocks_G]
      obtain ⟨-, -, q7⟩ := blocksG_pass ho.toExact (seysenBlock_spec ho.toExact n κ)
        hκ hκd hA _ (blocksG (seysenBlock o κ) κ (κ + 1) 1 0
          { s := s, tmpcol := tmp, vectx := vx, somedone := false }).tmpcol
        (blocksG (seysenBlock o κ) κ (κ + 1) 1 0
          { s := s, tmpcol := tmp, vectx := vx, somedone := false }).vectx p3
        (p2.congr rfl rfl rfl rfl rfl rfl rfl rfl) p4
      rw [if_neg (by simpa using q7 ho p5)]
      exact ⟨_, rfl⟩
    · exact ⟨_, rfl⟩
  · exact ⟨_, rfl⟩

theorem LInv.hhR' {n d : ℕ} {A : Mat Int} {track : Prop} {s : Lat ℝ} (h : LInv n d A track s) (κ : ℕ) :
    LInv n d A track (s.hhR o κ) := h.congr rfl rfl rfl rfl rfl rfl rfl rfl

/-- `newseysenreduce`. -/
theorem nsLoop_red (ho : Exact o) {thr : ℝ} (ht : 1 / 2 ≤ thr) {n d κ : ℕ} {A : Mat Int}
    {track : Prop} (hκ : 0 < κ)
    (hκd : κ < d) (hA : FullColumnRank (toMatrix n d A)) (fuel : ℕ) :
    ∀ (tmp vx : ℕ → ℝ) (s s' : Lat ℝ) (st : ℤ), LInv n d A track s →
      Post n d κ s → nsLoop o thr κ fuel tmp vx s = some (st, s') →
      st = 0 ∧ Post n d κ s' ∧ SeyRed thr κ s'.fp.R ∧ ∀ c < κ, s'.fp.R c = s.fp.R c := by
  induction fuel with
  | zero => intro tmp vx s s' st _ _ h; simp [nsLoop] at h
  | succ fuel ih =>
    intro tmp vx s s' st hI hP h
    simp only [nsLoop] at h
    rw [nsBlocks_G] at h
    obtain ⟨p1, ⟨p2, p3, p4, p5, p6⟩, p7⟩ := blocksG_pass ho (nsBlock_spec ho n κ thr ht) hκ hκd hA s
      tmp vx trivial hI hP
    split at h
    · obtain ⟨a, b, c, e⟩ := ih _ _ _ _ _ (p2.hhR' (o := o) κ) p4 h
      exact ⟨a, b, c, fun i hi => (e i hi).trans (p6 i hi)⟩
    · rename_i hd
      simp only [Option.some.injEq, Prod.mk.injEq] at h
      obtain ⟨rfl, rfl⟩ := h
      obtain ⟨a, b⟩ := p1 (by simpa using hd)
      rw [a]; exact ⟨rfl, hP, b, fun _ _ => rfl⟩

theorem nsLoop_term (ho : Exact o) {thr : ℝ} (ht : 1 / 2 ≤ thr) {n d κ : ℕ} {A : Mat Int}
    {track : Prop} (hκ : 0 < κ) (hκd : κ < d) (hA : FullColumnRank (toMatrix n d A)) (fuel : ℕ)
    (tmp vx : ℕ → ℝ) (s : Lat ℝ) (hI : LInv n d A track s) (hP : Post n d κ s) :
    ∃ r, nsLoop o thr κ (fuel + 2) tmp vx s = some r := by
  simp only [nsLoop]
  rw [nsBlocks_G]
  obtain ⟨p1, ⟨p2, p3, p4, p5, p6⟩, p7⟩ := blocksG_pass ho (nsBlock_spec ho n κ thr ht)
    hκ hκd hA s tmp vx trivial hI hP
  split
  · rw [nsBlocks_G]
    obtain ⟨-, -, q7⟩ := blocksG_pass ho (nsBlock_spec ho n κ thr ht)
      hκ hκd hA _ (blocksG (nsBlock o thr κ) κ (κ + 1) 1 0
        { s := s, tmpcol := tmp, vectx := vx, somedone := false }).tmpcol
      (blocksG (nsBlock o thr κ) κ (κ + 1) 1 0
        { s := s, tmpcol := tmp, vectx := vx, somedone := false }).vectx p3
      (p2.hhR' (o := o) κ) p4
    rw [if_neg (by simpa using q7 trivial p5)]
    exact ⟨_, rfl⟩
  · exact ⟨_, rfl⟩

/-- What `hlllp` achieves on column `κ`. -/
def QP (thr : ℝ) (dth : ℤ) (s0 : Lat ℝ) (κ : ℕ) (R : Mat ℝ) : Prop :=
  (s0.seysenFlag < 1 → SizeRed κ R) ∧
  (¬ s0.seysenFlag < 1 → dth < κ → SeyRed thr κ R) ∧
  (¬ s0.seysenFlag < 1 → ¬ dth < κ → SeqSey s0 → SeyRed (1 / 2) κ R)

theorem QP.loc (thr : ℝ) (dth : ℤ) (s0 : Lat ℝ) : QLoc (QP thr dth s0) := by
  intro κ R R' h1 h2 ⟨a, b, c⟩
  refine ⟨fun h i hi => ?_, fun h h' => (b h h').congr h1 h2, fun h h' h'' => (c h h' h'').congr h1 h2⟩
  rw [h2 i hi, h1 i hi]; exact a h i hi

theorem hhR_low (κ : ℕ) (s : Lat ℝ) (hκ : κ ≠ 0) (c : ℕ) (hc : c ≠ κ) : (s.hhR o κ).fp.R c = s.fp.R c := by
  have upd : ∀ (l : List ℕ) (p : FPart ℝ),
      (l.foldl (fun p k => hhCompute o κ k p) p).R = p.R := by
    intro l
    induction l with
    | nil => intro p; rfl
    | cons a l ih => intro p; rw [List.foldl_cons, ih]; rfl
  have upd2 : ∀ (l : List ℕ) (p : FPart ℝ),
      (l.foldl (fun p k => hhApply o κ k p) p).R = p.R := by
    intro l
    induction l with
    | nil => intro p; rfl
    | cons a l ih => intro p; rw [List.foldl_cons, ih]; rfl
  show (householderR o s.str s.B κ s.fp).R c = _
  unfold householderR
  rw [if_neg (by omega)]
  simp only [hhCopyR, fsetcol]
  rw [setCol_ne _ _ hc]
  split
  · unfold hhKept
    split
    · split
      · unfold hhComputeRange; rw [upd]; rfl
      · simp only []; unfold hhComputeRange hhApplyRange; rw [upd, upd2]; rfl
    · rfl
  · unfold hhFull; simp only []; unfold hhComputeRange; rw [upd]; rfl

theorem SeqSey.cfg {s s' : Lat ℝ} (h : SameCfg s s') (hs : SeqSey s) : SeqSey s' := by
  unfold SeqSey; rw [h.fastLong, h.numS, h.d, h.parThr]; exact hs

theorem hlllpReduce_of_hlll (thr : ℝ) (dth : ℤ) (fuel κ : ℕ) (s : Lat ℝ)
    (h : s.seysenFlag < 1 ∨ ¬ dth < κ) : hlllpReduce o thr dth fuel κ s = hlllReduce o fuel κ s := by
  unfold hlllpReduce hlllReduce
  split
  · rfl
  · rename_i hf
    rw [if_neg (h.resolve_left hf)]

theorem hlllpReduce_res (ho : Exact o) {thr : ℝ} (ht : 1 / 2 ≤ thr) (dth : ℤ) {n d κ : ℕ}
    {A : Mat Int} {track : Prop} (hκ : 0 < κ) (hκd : κ < d) (hA : FullColumnRank (toMatrix n d A))
    (fuel : ℕ) (s0 s : Lat ℝ) (hS : 0 < s0.numS) (hc : SameCfg s0 s) (hI : LInv n d A track s)
    (hM : Mid n d κ s) :
    RedRes n d κ (QP thr dth s0) s (hlllpReduce o thr dth fuel κ s) := by
  have hpost := hM.hhR ho hκ hκd (hI.geo hA)
  have hI' : LInv n d A track (s.hhR o κ) := hI.congr rfl rfl rfl rfl rfl rfl rfl rfl
  have hS' : 0 < s.numS := by rw [hc.numS]; exact hS
  cases hr : hlllpReduce o thr dth fuel κ s with
  | none => trivial
  | some r =>
    obtain ⟨st, s'⟩ := r
    have hz := hlllpReduce_zs o hκ thr dth fuel s st s' hr
    by_cases hd : s.seysenFlag < 1 ∨ ¬ dth < κ
    · rw [hlllpReduce_of_hlll thr dth fuel κ s hd] at hr
      obtain ⟨a, b, c⟩ := hlllReduce_spec ho hκ hκd hA fuel s s' st hS' hI hM hr
      have hlow := post_R_of_red ho hκ hκd fuel s s' st hA hS' hI hM hr
      refine ⟨a, hz, b, ⟨fun hf => c (by rw [hc.seysenFlag]; exact hf), fun hf h' => ?_,
        fun hf h' hq => ?_⟩, fun c hc => funext (hlow c hc)⟩
      · rw [← hc.seysenFlag] at hf
        exact absurd h' (hd.resolve_left hf)
      · rw [← hc.seysenFlag] at hf
        unfold hlllReduce at hr
        rw [if_neg hf] at hr
        unfold seysenreduce at hr
        exact seysenLoop_red ho hκ hκd hA fuel _ _ _ _ (s.hhR o κ) _ _ (show SeqSey s from hq.cfg hc) hI' hpost hr
    · rw [not_or, not_not] at hd
      unfold hlllpReduce at hr
      rw [if_neg hd.1, if_pos hd.2] at hr
      unfold newseysenreduce at hr
      obtain ⟨a, b, c, e⟩ := nsLoop_red ho ht hκ hκd hA fuel _ _ _ _ _ hI' hpost hr
      refine ⟨a, hz, b, ⟨fun hf => ?_, fun _ _ => c, fun _ h' => absurd hd.2 h'⟩, fun c hc => ?_⟩
      · rw [← hc.seysenFlag] at hf; exact absurd hf hd.1
      · rw [e c hc, hhR_low κ s (by omega) c (by omega)]

theorem hlllpReduce_term (ho : ExactTies o) {thr : ℝ} (ht : 1 / 2 ≤ thr) (dth : ℤ) {n d κ : ℕ}
    {A : Mat Int} {track : Prop} (hκ : 0 < κ) (hκd : κ < d) (hA : FullColumnRank (toMatrix n d A))
    (fuel : ℕ) (s : Lat ℝ) (hS : 0 < s.numS) (hq : s.seysenFlag < 1 ∨ dth < κ ∨ SeqSey s)
    (hI : LInv n d A track s) (hM : Mid n d κ s) :
    ∃ r, hlllpReduce o thr dth (fuel + 2) κ s = some r := by
  have hpost := hM.hhR ho.toExact hκ hκd (hI.geo hA)
  have hI' : LInv n d A track (s.hhR o κ) := hI.congr rfl rfl rfl rfl rfl rfl rfl rfl
  by_cases hf : s.seysenFlag < 1
  · rw [hlllpReduce_of_hlll thr dth _ κ s (.inl hf)]
    exact hlllReduce_term ho hκ hκd hA fuel s hS hI hM hf
  · unfold hlllpReduce
    rw [if_neg hf]
    split
    · unfold newseysenreduce
      exact nsLoop_term ho.toExact ht hκ hκd hA fuel _ _ _ hI' hpost
    · rename_i hd
      unfold seysenreduce
      exact seysenLoop_term ho hκ hκd hA fuel _ _ _ _ (s.hhR o κ)
        ((hq.resolve_left hf).resolve_left hd) hI' hpost

/-! ### The loop of `hlllp` -/

structure ExExitG (n d : ℕ) (A : Mat Int) (track : Prop) (Q : ℕ → Mat ℝ → Prop) (s0 : Lat ℝ) (δ : ℝ)
    (h : HState ℝ) (st : ℤ) (s' : Lat ℝ) : Prop where
  two : st = 0 ∨ st = -1
  fail : st = -1 → ¬ δ ≤ 1
  done : st = 0 → s'.nblov < s'.nblovMax →
    ∃ h', ExInvG n d A track Q s0 δ h' ∧ h'.s = s' ∧ d ≤ h'.kappa
  swaps : st = 0 → ∃ w, s'.nbswaps = h.s.nbswaps + w ∧
    (pot n d s'.B : ℝ) ≤ δ ^ w * pot n d h.s.B ∧ 0 < pot n d s'.B
  tests : δ ≤ 1 → s'.nblov + 1 ≤ h.s.nblov + (2 * pot n d h.s.B + (d - h.kappa))

theorem ExInvG.stepP (ho : Exact o) {thr : ℝ} (ht : 1 / 2 ≤ thr) (dth : ℤ) {n d : ℕ} {A : Mat Int}
    {track : Prop} {s0 : Lat ℝ} (hS : 0 < s0.numS) {δ : ℝ} {h : HState ℝ}
    (hA : FullColumnRank (toMatrix n d A)) (hE : ExInvG n d A track (QP thr dth s0) s0 δ h)
    (hκd : h.kappa < d) (fuel : ℕ) :
    StepG n d A track (QP thr dth s0) s0 δ h (hlllpStep o thr dth fuel δ h) := by
  rw [hlllpStep_g]
  obtain ⟨a, b, c⟩ := hE.mid ho hA hκd
  exact hE.step ho (QP.loc thr dth s0) hA hκd _
    (hlllpReduce_res ho ht dth hE.pos hκd hA fuel s0 _ hS c b a)

theorem ExInvG.loop (ho : Exact o) {thr : ℝ} (ht : 1 / 2 ≤ thr) (dth : ℤ) {n d : ℕ} {A : Mat Int}
    {track : Prop} {s0 : Lat ℝ} (hS : 0 < s0.numS) {δ : ℝ}
    (hA : FullColumnRank (toMatrix n d A)) : ∀ (fuel : ℕ) (h : HState ℝ),
    ExInvG n d A track (QP thr dth s0) s0 δ h →
    ∀ st s', hlllpLoop o thr dth δ fuel h = some (st, s') →
    ExExitG n d A track (QP thr dth s0) s0 δ h st s' := by
  intro fuel
  induction fuel with
  | zero => intro h _ st s' h2; simp [hlllpLoop] at h2
  | succ fuel ih =>
    intro h hE st s' hl
    have hg := hE.inv.geo hA
    have hp := pot_pos hg
    have hk := hE.kd
    simp only [hlllpLoop] at hl
    split at hl
    · rename_i hc
      have hκd : h.kappa < d := by rw [← hE.inv.hd]; exact hc.1
      have hst := hE.stepP ho ht dth hS hA hκd (fuel + 1)
      cases hs : hlllpStep o thr dth (fuel + 1) δ h with
      | diverge => rw [hs] at hl; simp at hl
      | fail s =>
        rw [hs] at hl hst
        simp only [Option.some.injEq, Prod.mk.injEq] at hl
        obtain ⟨rfl, rfl⟩ := hl
        exact ⟨.inr rfl, fun _ => hst, fun h => by simp at h, fun h => by simp at h,
          fun hδ => absurd hδ hst⟩
      | next h1 =>
        rw [hs] at hl hst
        obtain ⟨e1, e2, e3⟩ := hst
        obtain ⟨f0, f1, f2, f3, f4⟩ := ih h1 e1 st s' hl
        refine ⟨f0, f1, f2, fun h0 => ?_, fun hδ => ?_⟩
        · obtain ⟨w, w1, w2, w3⟩ := f3 h0
          have hg1 := e1.inv.geo hA
          rcases e2 with ⟨_, g2, g3⟩ | ⟨_, g2, g3, g4⟩
          · exact ⟨w, by omega, by rw [← pot_up g3]; exact w2, w3⟩
          · refine ⟨w + 1, by omega, ?_, w3⟩
            have hd := pot_down hκd hg.rank g3 g4
            have hp : (0 : ℝ) < pot n d h.s.B := by exact_mod_cast pot_pos hg
            have hp1 : (0 : ℝ) < pot n d h1.s.B := by exact_mod_cast pot_pos hg1
            have hδ : 0 < δ := by
              by_contra hn
              rw [not_lt] at hn
              have := mul_nonpos_of_nonpos_of_nonneg hn hp.le
              linarith
            refine w2.trans ?_
            rw [pow_succ, mul_assoc]
            exact mul_le_mul_of_nonneg_left hd.le (pow_pos hδ w).le
        · have hih := f4 hδ
          rcases e2 with ⟨g1, _, g3⟩ | ⟨g1, _, g3, g4⟩
          · rw [pot_up g3, g1] at hih; push_cast at *; omega
          · have hd := pot_down hκd hg.rank g3 g4
            have hp : (0 : ℝ) < pot n d h.s.B := by exact_mod_cast hp
            have hlt : (pot n d h1.s.B : ℝ) < pot n d h.s.B := by nlinarith
            have hlt' : pot n d h1.s.B < pot n d h.s.B := by exact_mod_cast hlt
            have := hE.pos
            rw [g1] at hih; push_cast at *; omega
    · simp only [Option.some.injEq, Prod.mk.injEq] at hl
      obtain ⟨rfl, rfl⟩ := hl
      rename_i hc
      refine ⟨.inl rfl, fun h => by simp at h, fun _ hb => ⟨h, hE, rfl, ?_⟩,
        fun _ => ⟨0, rfl, by simp, pot_pos (hE.inv.geo hA)⟩, fun _ => by omega⟩
      rw [hE.inv.hd] at hc
      by_contra hlt
      exact hc ⟨by omega, hb⟩

theorem ExInvG.loop_term (ho : ExactTies o) {thr : ℝ} (ht : 1 / 2 ≤ thr) (dth : ℤ) {n d : ℕ}
    {A : Mat Int} {track : Prop} {s0 : Lat ℝ} (hS : 0 < s0.numS) {δ : ℝ} (hδ : δ ≤ 1)
    (hq : s0.seysenFlag < 1 ∨ dth < 1 ∨ SeqSey s0)
    (hA : FullColumnRank (toMatrix n d A)) : ∀ (fuel : ℕ) (h : HState ℝ),
    ExInvG n d A track (QP thr dth s0) s0 δ h →
    2 * pot n d h.s.B + (d - h.kappa) + 2 ≤ fuel →
    ∃ r, hlllpLoop o thr dth δ fuel h = some r := by
  intro fuel
  induction fuel with
  | zero =>
    intro h hE hb
    have := pot_pos (hE.inv.geo hA)
    have hk := hE.kd
    exfalso
    rcases Nat.lt_or_ge h.kappa (d + 2) with h1 | h1 <;> omega
  | succ fuel ih =>
    intro h hE hb
    simp only [hlllpLoop]
    split
    · rename_i hc
      have hκd : h.kappa < d := by rw [← hE.inv.hd]; exact hc.1
      have hg := hE.inv.geo hA
      have hp := pot_pos hg
      have hpos := hE.pos
      have hst := hE.stepP ho.toExact ht dth hS hA hκd (fuel + 1)
      have hne : hlllpStep o thr dth (fuel + 1) δ h ≠ .diverge := by
        obtain ⟨a, b, c⟩ := hE.mid ho.toExact hA hκd
        obtain ⟨r, hr⟩ := hlllpReduce_term ho ht dth hE.pos hκd hA (fuel - 1)
          (hlllPrep o h.kappa h.s) (by rw [c.numS]; exact hS) (by
            rcases hq with hq | hq | hq
            · left; rw [c.seysenFlag]; exact hq
            · right; left; omega
            · right; right; exact hq.cfg c) b a
        rw [show fuel - 1 + 2 = fuel + 1 by omega] at hr
        rw [hlllpStep_g, hr]
        exact gStep_term r δ h
      cases hs : hlllpStep o thr dth (fuel + 1) δ h with
      | diverge => exact absurd hs hne
      | fail s => exact ⟨_, rfl⟩
      | next h1 =>
        rw [hs] at hst
        obtain ⟨e1, e2, e3⟩ := hst
        refine ih h1 e1 ?_
        rcases e2 with ⟨g1, _, g3⟩ | ⟨g1, _, g3, g4⟩
        · rw [pot_up g3, g1]; push_cast at *; omega
        · have hd := pot_down hκd hg.rank g3 g4
          have hp : (0 : ℝ) < pot n d h.s.B := by exact_mod_cast hp
          have hlt : (pot n d h1.s.B : ℝ) < pot n d h.s.B := by nlinarith
          have hlt' : pot n d h1.s.B < pot n d h.s.B := by exact_mod_cast hlt
          have := hE.pos
          rw [g1]; push_cast at *; omega
    · exact ⟨_, rfl⟩

/-- `hlll` is `hlllp` when the alternative reduction is never used. -/
theorem hlllLoop_eq_p {F : Type} (o : FPOps F) (thr : F) (dth : ℤ) (δ : F) (fuel : ℕ) :
    ∀ h : HState F, h.s.kappaMax = h.s.d → (h.s.seysenFlag < 1 ∨ (h.s.d : ℤ) - 1 ≤ dth) → 0 < h.kappa →
    hlllpLoop o thr dth δ fuel h = hlllLoop o δ fuel h := by
  induction fuel with
  | zero => intro h _ _ _; rfl
  | succ fuel ih =>
    intro h hk hf hpos
    simp only [hlllLoop, hlllpLoop]
    rw [hk]
    split
    · rename_i hc
      have e : hlllpStep o thr dth (fuel + 1) δ h = hlllStep o (fuel + 1) δ h := by
        have hp := (hlllPrep_zs o h.kappa h.s).frame
        have : hlllpReduce o thr dth (fuel + 1) h.kappa (hlllPrep o h.kappa h.s) =
            hlllReduce o (fuel + 1) h.kappa (hlllPrep o h.kappa h.s) := by
          unfold hlllpReduce hlllReduce
          split
          · rfl
          · rename_i hn
            rw [hp.seysenFlag] at hn
            rw [if_neg (by have := hf.resolve_left hn; omega)]
        unfold hlllpStep hlllStep
        simp only []
        rw [this]
        cases hlllReduce o (fuel + 1) h.kappa (hlllPrep o h.kappa h.s) <;> rfl
      rw [e]
      cases hs : hlllStep o (fuel + 1) δ h with
      | diverge => rfl
      | fail s => rfl
      | next h1 =>
        simp only []
        have hz := hlllPrep_zs o h.kappa h.s
        unfold hlllStep at hs
        simp only [] at hs
        cases hr : hlllReduce o (fuel + 1) h.kappa (hlllPrep o h.kappa h.s) with
        | none => rw [hr] at hs; simp at hs
        | some r =>
          obtain ⟨st, s⟩ := r
          have f := ZSteps.frame (hz.trans (hlllReduce_zs o hpos (fuel + 1) _ _ _ hr))
          rw [hr] at hs
          simp only [] at hs
          split at hs
          · simp at hs
          · split at hs
            · split at hs
              · simp at hs
              · simp only [HStep.next.injEq] at hs
                subst hs
                refine ih _ ?_ ?_ (by simp)
                · exact f.kappaMax.trans (hk.trans f.d.symm)
                · show s.seysenFlag < 1 ∨ (s.d : ℤ) - 1 ≤ dth
                  rw [f.seysenFlag, f.d]; exact hf
            · simp only [HStep.next.injEq] at hs
              subst hs
              refine ih _ ?_ ?_ (by simp)
              · exact f.kappaMax.trans (hk.trans f.d.symm)
              · show s.seysenFlag < 1 ∨ (s.d : ℤ) - 1 ≤ dth
                rw [f.seysenFlag, f.d]; exact hf
    · rfl

end HPLLL
