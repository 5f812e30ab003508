import Verif.Proof.ExactLoop
import Mathlib.Tactic.Positivity
/-! Invariant of the main loop in exact arithmetic. -/

namespace HPLLL
open Spec Finset

variable {o : FPOps ℝ}

/-- Size reduction and Lovász conditions of the first `κ` columns, on the triangular factor. -/
def RedUpTo (δ : ℝ) (size : Prop) (κ : ℕ) (R : Mat ℝ) : Prop :=
  ∀ k, 1 ≤ k → k < κ → (size → SizeRed k R) ∧
    δ * (R (k - 1) (k - 1) * R (k - 1) (k - 1)) ≤ R k (k - 1) * R k (k - 1) + R k k * R k k

/-- The remembered diagonal entries. -/
structure PrevI (n : ℕ) (B : Mat Int) (κ : ℕ) (prevkappa : ℤ) (prevR : ℕ → ℝ) : Prop where
  lo : ∀ j, 1 ≤ j → j < κ → 0 ≤ prevR j ∧ prevR j * prevR j * gd n B j = gd n B (j + 1)
  up : prevkappa = κ + 1 → 0 ≤ prevR κ ∧ (gd n B (κ + 1) : ℝ) ≤ prevR κ * prevR κ * gd n B κ

structure ExInv (n d : ℕ) (A : Mat Int) (track : Prop) (δ : ℝ) (h : HState ℝ) : Prop where
  inv : LInv n d A track h.s
  numS : 0 < h.s.numS
  pos : 0 < h.kappa
  kd : h.kappa ≤ max d 1
  head : Head n d h.s.str h.s.B h.s.fp h.kappa
  red : h.kappa ≠ 1 → RedUpTo δ (h.s.seysenFlag < 1) h.kappa h.s.fp.R
  prev : δ ≤ 1 → PrevI n h.s.B h.kappa h.prevkappa h.prevR

/-- Effect of one iteration on the Gram determinants. -/
def GdStep (n : ℕ) (δ : ℝ) (h h' : HState ℝ) : Prop :=
  (h'.kappa = h.kappa + 1 ∧ h'.s.nbswaps = h.s.nbswaps ∧ ∀ k, gd n h'.s.B k = gd n h.s.B k) ∨
  (h'.kappa = max (h.kappa - 1) 1 ∧ h'.s.nbswaps = h.s.nbswaps + 1 ∧
    (∀ k, k ≠ h.kappa → gd n h'.s.B k = gd n h.s.B k) ∧
    (gd n h'.s.B h.kappa : ℝ) < δ * gd n h.s.B h.kappa)

/-- What one iteration guarantees. -/
def StepOK (n d : ℕ) (A : Mat Int) (track : Prop) (δ : ℝ) (h : HState ℝ) : HStep ℝ → Prop
  | .diverge => True
  | .fail _ => ¬ δ ≤ 1
  | .next h' => ExInv n d A track δ h' ∧ GdStep n δ h h' ∧ h'.s.nblov = h.s.nblov + 1 ∧
      SameCfg h.s h'.s

theorem ExInv.mid (ho : Exact o) {n d : ℕ} {A : Mat Int} {track : Prop} {δ : ℝ} {h : HState ℝ}
    (hA : FullColumnRank (toMatrix n d A)) (hE : ExInv n d A track δ h) (hκd : h.kappa < d) :
    Mid n d h.kappa (hlllPrep o h.kappa h.s) ∧ LInv n d A track (hlllPrep o h.kappa h.s) := by
  refine ⟨hE.head.prep ho hE.pos hκd hE.inv.hn hE.inv.hd (hE.inv.geo hA), ?_⟩
  exact hE.inv.zsteps hκd (hlllPrep_zs o _ _)

/-- The triangular factor and the reducedness facts are not disturbed before column `κ`. -/
theorem prep_R {h : HState ℝ}
    (hκ1 : h.kappa ≠ 1) (c : ℕ) :
    (hlllPrep o h.kappa h.s).fp.R c = h.s.fp.R c := by
  unfold hlllPrep
  rw [if_neg hκ1]

theorem post_R_of_red (ho : Exact o) {n d κ : ℕ} {A : Mat Int} {track : Prop}
    (hκ : 0 < κ) (hκd : κ < d) (fuel : ℕ) (s s' : Lat ℝ)
    (st : ℤ) (hA : FullColumnRank (toMatrix n d A)) (hS : 0 < s.numS)
    (hI : LInv n d A track s) (hM : Mid n d κ s)
    (h : hlllReduce o fuel κ s = some (st, s')) : ∀ c, c < κ → ∀ i, s'.fp.R c i = s.fp.R c i := by
  -- a direct argument: every elementary operation changes only column κ of R
  have hhr : ∀ t : Lat ℝ, ∀ c, c ≠ κ → (t.hhR o κ).fp.R c = t.fp.R c := by
    intro t c hc
    have upd : ∀ (l : List ℕ) (p : FPart ℝ),
        (l.foldl (fun p k => hhCompute o κ k p) p).R = p.R := by
      intro l
      induction l with
      | nil => intro p; rfl
      | cons a l ih => intro p; rw [List.foldl_cons, ih]; rfl
    have upd2 : ∀ (l : List ℕ) (p : FPart ℝ),
        (l.foldl (fun p k => hhApply o κ k p) p).R = p.R := by
      intro l
      induction l with
      | nil => intro p; rfl
      | cons a l ih => intro p; rw [List.foldl_cons, ih]; rfl
    show (householderR o t.str t.B κ t.fp).R c = _
    unfold householderR
    rw [if_neg (by omega)]
    simp only [hhCopyR, fsetcol]
    rw [setCol_ne _ _ hc]
    split
    · unfold hhKept
      split
      · split
        · unfold hhComputeRange; rw [upd]; rfl
        · simp only []; unfold hhComputeRange hhApplyRange; rw [upd, upd2]; rfl
      · rfl
    · unfold hhFull; simp only []; unfold hhComputeRange; rw [upd]; rfl
  have loop : ∀ fuel b (s s' : Lat ℝ) st, hsizeLoop o κ κ fuel b s = some (st, s') →
      0 < s.numS → LInv n d A track s → Post n d κ s →
      ∀ c, c < κ → s'.fp.R c = s.fp.R c := by
    intro fuel
    induction fuel with
    | zero => intro b s s' st h; simp [hsizeLoop] at h
    | succ fuel ih =>
      intro b s s' st h hS hI hP c hc
      have hg := hI.geo hA
      obtain ⟨a1, a2, _, _⟩ := hsizePass_spec ho s hS hP.1.qr
        (fun i hi => hg.supp i (by omega))
        (fun r hr => hP.2.r r (by have := hg.diag κ hκd; omega))
      obtain ⟨c1, ⟨c2, c3, c4, c5⟩, c6⟩ := pass_spec ho hκ hκd hA hS hI hP
      have hRc := a1.Rc c (by omega)
      simp only [hsizeLoop] at h
      split at h
      · split at h
        · split at h <;>
          · simp only [Option.some.injEq, Prod.mk.injEq] at h
            obtain ⟨rfl, rfl⟩ := h
            rw [hhr _ c (by omega)]; exact hRc
        · rw [ih _ _ _ _ h (by
            have := (hsizePass_zs o (κ := κ) (le_refl κ) s).frame.numS
            show 0 < (hsizePass o κ κ s).1.numS
            rw [this]; exact hS) (c3.congr rfl rfl rfl rfl rfl rfl rfl rfl) c4 c hc,
            hhr _ c (by omega)]
          exact hRc
      · simp only [Option.some.injEq, Prod.mk.injEq] at h
        obtain ⟨rfl, rfl⟩ := h
        exact hRc
  have sloop : ∀ fuel n0 n1 tmp vx (s s' : Lat ℝ) st,
      seysenLoop o κ fuel n0 n1 tmp vx s = some (st, s') →
      ∀ c, c < κ → s'.fp.R c = s.fp.R c := by
    intro fuel
    induction fuel with
    | zero => intro n0 n1 tmp vx s s' st h; simp [seysenLoop] at h
    | succ fuel ih =>
      intro n0 n1 tmp vx s s' st h c hc
      simp only [seysenLoop] at h
      obtain ⟨⟨R, e, f⟩, g⟩ := seysenBlocks_frame (o := o) κ (κ + 1) 1 0
        { s := s, tmpcol := tmp, vectx := vx, somedone := false }
      have hRc : (seysenBlocks o κ (κ + 1) 1 0
        { s := s, tmpcol := tmp, vectx := vx, somedone := false }).s.fp.R c = s.fp.R c := by
        rw [e]; exact f c (by omega)
      split at h
      · split at h
        · rw [ih _ _ _ _ _ _ _ h c hc, hhr _ c (by omega)]; exact hRc
        · simp only [Option.some.injEq, Prod.mk.injEq] at h
          obtain ⟨rfl, rfl⟩ := h
          rw [hhr _ c (by omega)]; exact hRc
      · simp only [Option.some.injEq, Prod.mk.injEq] at h
        obtain ⟨rfl, rfl⟩ := h
        exact hRc
  intro c hc i
  unfold hlllReduce at h
  split at h
  · unfold hsizereduce at h
    simp only [Nat.lt_irrefl, if_false] at h
    rw [show κ - 1 + 1 = κ by omega] at h
    rw [loop _ _ (s.hhR o κ) _ _ h hS (hI.congr rfl rfl rfl rfl rfl rfl rfl rfl)
      (hM.hhR ho hκ hκd (hI.geo hA)) c hc, hhr _ c (by omega)]
  · unfold seysenreduce at h
    rw [sloop _ _ _ _ _ (s.hhR o κ) _ _ h c hc, hhr _ c (by omega)]

theorem ExInv.step (ho : Exact o) {n d : ℕ} {A : Mat Int} {track : Prop} {δ : ℝ} {h : HState ℝ}
    (hA : FullColumnRank (toMatrix n d A)) (hE : ExInv n d A track δ h) (hκd : h.kappa < d)
    (fuel : ℕ) : StepOK n d A track δ h (hlllStep o fuel δ h) := by
  obtain ⟨hM, hI1⟩ := hE.mid ho hA hκd
  have hκ := hE.pos
  have hzp := hlllPrep_zs o h.kappa h.s
  have hpf := hzp.frame
  have hS1 : 0 < (hlllPrep o h.kappa h.s).numS := by rw [hpf.numS]; exact hE.numS
  unfold hlllStep
  simp only []
  cases hr : hlllReduce o fuel h.kappa (hlllPrep o h.kappa h.s) with
  | none => simp only [StepOK]
  | some r =>
    obtain ⟨flag, s⟩ := r
    obtain ⟨rfl, hP, hsr⟩ := hlllReduce_spec ho hκ hκd hA fuel _ _ _ hS1 hI1 hM hr
    have hRlow := post_R_of_red ho hκ hκd fuel _ _ _ hA hS1 hI1 hM hr
    have hzs : ZSteps h.kappa h.s s := hzp.trans (hlllReduce_zs o hκ fuel _ _ _ hr)
    have hfr := hzs.frame
    have hI : LInv n d A track s := hE.inv.zsteps hκd hzs
    have hg := hI.geo hA
    have hgd : ∀ k, gd n s.B k = gd n h.s.B k := fun k => ZSteps.gd hκd hE.inv hzs k
    have hsr' : s.seysenFlag < 1 → SizeRed h.kappa s.fp.R := by
      intro hf; exact hsr (by rw [hpf.seysenFlag, ← hfr.seysenFlag]; exact hf)
    have hnt := newt_eq ho hκ hκd hg hP
    -- reducedness of the earlier columns carries over
    have hred : RedUpTo δ (s.seysenFlag < 1) h.kappa s.fp.R := by
      intro k hk1 hk2
      have hne : h.kappa ≠ 1 := by omega
      have e : ∀ c, c < h.kappa → ∀ i, s.fp.R c i = h.s.fp.R c i := by
        intro c hc i; rw [hRlow c hc i, prep_R hne]
      obtain ⟨a, b⟩ := hE.red hne k hk1 hk2
      refine ⟨fun hf i hi => ?_, ?_⟩
      · rw [e k hk2, e i (by omega)]
        exact a (by rw [← hfr.seysenFlag]; exact hf) i hi
      · rw [e k hk2, e k hk2, e (k - 1) (by omega)]
        exact b
    -- value of the last diagonal entry
    have hdiag : (gd n s.B h.kappa : ℝ) = gd n s.B (h.kappa - 1) *
        (s.fp.R (h.kappa - 1) (h.kappa - 1) * s.fp.R (h.kappa - 1) (h.kappa - 1)) := by
      have hn : h.kappa ≤ n := by have := hg.diag _ hκd; have := hg.le _ hκd; omega
      rw [hP.1.qr.gd_prod hn, (hP.1.qr.mono (by omega : h.kappa - 1 ≤ h.kappa)).gd_prod (by omega)]
      conv_lhs => rw [show h.kappa = h.kappa - 1 + 1 by omega]
      rw [prod_range_succ]
    simp only []
    rw [if_neg (by decide)]
    have hlv : lovtest o δ h.kappa s.fp = δ *
        (s.fp.R (h.kappa - 1) (h.kappa - 1) * s.fp.R (h.kappa - 1) (h.kappa - 1)) := by
      unfold lovtest; rw [ho.mul, ho.mul]
    set s1 : Lat ℝ :=
      { s with
        nblov := s.nblov + 1
        ub := s.ub || !(decide (h.kappa < s.d ∧ h.kappa < s.n ∧ nmaxOf s.str h.kappa ≤ s.n)) }
      with hs1
    have hI1' : LInv n d A track s1 := hI.congr rfl rfl rfl rfl rfl rfl rfl rfl
    have hP1 : Post n d h.kappa s1 := hP
    split
    · -- UP
      rename_i hle
      rw [ho.le, hlv, hnt] at hle
      obtain ⟨hh, vf, hRR, hgt⟩ := Post.up (s := s1) ho hκ hκd hI.hn hg hP1
      have hRR' : (s1.hhV o h.kappa).fp.R h.kappa h.kappa *
          (s1.hhV o h.kappa).fp.R h.kappa h.kappa =
          Ex.tail n h.kappa (Ex.app n s.fp.V h.kappa (bv n s.B h.kappa)) := hRR
      split
      · rename_i hf
        obtain ⟨hf1, hf2⟩ := hf
        show ¬ δ ≤ 1
        intro hδ
        rw [ho.lt, ho.abs] at hf2
        obtain ⟨p0, p1⟩ := (hE.prev hδ).up hf1
        rw [← hgd, ← hgd] at p1
        have hpos : (0 : ℝ) < gd n s.B h.kappa := by exact_mod_cast hg.rank _ hκd.le
        rw [hgt] at p1
        have p2 : (s1.hhV o h.kappa).fp.R h.kappa h.kappa *
            (s1.hhV o h.kappa).fp.R h.kappa h.kappa ≤ h.prevR h.kappa * h.prevR h.kappa := by
          nlinarith
        have := abs_le_of_sq_le_sq' (a := (s1.hhV o h.kappa).fp.R h.kappa h.kappa)
          (b := h.prevR h.kappa) (by rw [sq, sq]; exact p2) p0
        have h3 := abs_le.mpr this
        linarith
      · refine ⟨?_, ?_, ?_, ?_⟩
        · constructor
          · exact hI1'.congr rfl rfl rfl rfl rfl rfl rfl rfl
          · show 0 < s.numS; rw [hfr.numS]; exact hE.numS
          · show 0 < h.kappa + 1; omega
          · show h.kappa + 1 ≤ max d 1; omega
          · exact hh
          · intro _ k hk1 hk2
            have hk2 : k < h.kappa + 1 := hk2
            show (s.seysenFlag < 1 → SizeRed k (s1.hhV o h.kappa).fp.R) ∧ _
            have e : ∀ c, c < h.kappa → (s1.hhV o h.kappa).fp.R c = s.fp.R c := fun c hc =>
              vf.R c (by omega)
            by_cases hkκ : k = h.kappa
            · subst hkκ
              have hκκ : h.kappa - 1 ≠ h.kappa := by omega
              refine ⟨fun hf i hi => ?_, ?_⟩
              · rw [vf.Rκ i (by omega), e i hi]; exact hsr' hf i hi
              · show _ ≤ (s1.hhV o h.kappa).fp.R h.kappa (h.kappa - 1) *
                  (s1.hhV o h.kappa).fp.R h.kappa (h.kappa - 1) + _
                rw [show (hlllUp h.kappa (s1.hhV o h.kappa)).fp.R = (s1.hhV o h.kappa).fp.R from rfl]
                rw [e (h.kappa - 1) (by omega), vf.Rκ _ hκκ, hRR']
                rw [Ex.tail_succ n (h.kappa - 1) _
                  (by have := hg.diag _ hκd; have := hg.le _ hκd; omega),
                  show h.kappa - 1 + 1 = h.kappa by omega,
                  ← hP.2.r (h.kappa - 1) (by have := hg.diag _ hκd; omega)] at hle
                exact hle
            · obtain ⟨a, b⟩ := hred k hk1 (by omega)
              refine ⟨fun hf i hi => ?_, ?_⟩
              · rw [e k (by omega), e i (by omega)]; exact a hf i hi
              · rw [show (hlllUp h.kappa (s1.hhV o h.kappa)).fp.R = (s1.hhV o h.kappa).fp.R from rfl]
                rw [e k (by omega), e (k - 1) (by omega)]; exact b
          · intro hδ
            obtain ⟨l1, l2⟩ := hE.prev hδ
            constructor
            · intro j hj1 hj2
              have hj2 : j < h.kappa + 1 := hj2
              show 0 ≤ setAt h.prevR h.kappa (o.abs _) j ∧
                setAt h.prevR h.kappa (o.abs _) j * setAt h.prevR h.kappa (o.abs _) j *
                  (gd n s.B j : ℝ) = (gd n s.B (j + 1) : ℝ)
              by_cases hjκ : j = h.kappa
              · subst hjκ
                rw [setAt_same, ho.abs]
                refine ⟨abs_nonneg _, ?_⟩
                rw [abs_mul_abs_self]
                rw [show (gd n s.B (h.kappa + 1) : ℝ) = _ from hgt]
                exact mul_comm _ _
              · rw [setAt_ne _ _ hjκ, hgd, hgd]
                exact l1 j hj1 (by omega)
            · intro hk
              exfalso
              have hk : (h.kappa : ℤ) = ((h.kappa + 1 : ℕ) : ℤ) + 1 := hk
              push_cast at hk; omega
        · left
          exact ⟨rfl, hfr.nbswaps, hgd⟩
        · show s.nblov + 1 = h.s.nblov + 1
          rw [hfr.nblov]
        · exact ⟨hfr.n, hfr.d, hfr.transf, hfr.kappaMax, hfr.nblovMax, hfr.numS, hfr.parThr,
            hfr.seysenFlag, hfr.fastLong, hfr.verboseDepth⟩
    · -- DOWN
      rename_i hle
      rw [ho.le, hlv, hnt, not_le] at hle
      have hdn := hP1.down hκ hκd hg
      have hdI := hI1'.down hκd hκ
      have hgd' : ∀ k, k ≠ h.kappa → gd n (hlllDown h.kappa s1).B k = gd n s.B k :=
        fun k hk => gd_colswap n s.B h.kappa k hκ hk
      have hgκ : (gd n (hlllDown h.kappa s1).B h.kappa : ℝ) = gd n s.B (h.kappa - 1) *
          Ex.tail n (h.kappa - 1) (Ex.app n s.fp.V h.kappa (bv n s.B h.kappa)) := by
        have hq : QRv n s.str (hlllDown h.kappa s1).B s.fp.V s.fp.R (h.kappa - 1) := by
          refine (hP.1.qr.mono (by omega : h.kappa - 1 ≤ h.kappa)).congr (fun _ _ => rfl) ?_
            (fun _ _ => rfl) (fun _ _ => rfl)
          intro k hk; simp only [hlllDown, colswap]
          rw [if_neg (by omega), if_neg (by omega)]
        have hn : h.kappa < n := by have := hg.diag _ hκd; have := hg.le _ hκd; omega
        have e := hq.gd_tail (by omega)
        rw [show h.kappa - 1 + 1 = h.kappa by omega] at e
        rw [e, hgd' (h.kappa - 1) (by omega)]
        have hb : bv n (hlllDown h.kappa s1).B (h.kappa - 1) = bv n s.B h.kappa := by
          simp only [hlllDown, bv_colswap]; rw [if_pos trivial]
        rw [hb]
        have ht := Ex.tail_app n s.fp.V (h.kappa - 1) (by omega)
          (hP.1.qr.vnorm (h.kappa - 1) (by omega)) (bv n s.B h.kappa)
        rw [show h.kappa - 1 + 1 = h.kappa by omega] at ht
        rw [ht]
      have hlt : (gd n (hlllDown h.kappa s1).B h.kappa : ℝ) < δ * gd n s.B h.kappa := by
        rw [hgκ, hdiag]
        have hpos : (0 : ℝ) < gd n s.B (h.kappa - 1) := by
          exact_mod_cast hg.rank _ (by omega)
        nlinarith
      refine ⟨?_, ?_, ?_, ?_⟩
      · constructor
        · exact hdI
        · show 0 < s.numS; rw [hfr.numS]; exact hE.numS
        · show 0 < max (h.kappa - 1) 1; omega
        · show max (h.kappa - 1) 1 ≤ max d 1; omega
        · exact hdn
        · intro hne k hk1 hk2
          have hk2 : k < max (h.kappa - 1) 1 := hk2
          exact hred k hk1 (by omega)
        · intro hδ
          obtain ⟨l1, l2⟩ := hE.prev hδ
          constructor
          · intro j hj1 hj2
            have hj2 : j < max (h.kappa - 1) 1 := hj2
            show 0 ≤ h.prevR j ∧ h.prevR j * h.prevR j * (gd n (hlllDown h.kappa s1).B j : ℝ) =
              (gd n (hlllDown h.kappa s1).B (j + 1) : ℝ)
            rw [hgd' j (by omega), hgd' (j + 1) (by omega), hgd, hgd]
            exact l1 j hj1 (by omega)
          · intro hk
            have hk : (h.kappa : ℤ) = ((max (h.kappa - 1) 1 : ℕ) : ℤ) + 1 := hk
            have hκ2 : 2 ≤ h.kappa := by omega
            show 0 ≤ h.prevR (max (h.kappa - 1) 1) ∧
              (gd n (hlllDown h.kappa s1).B (max (h.kappa - 1) 1 + 1) : ℝ) ≤
              h.prevR (max (h.kappa - 1) 1) * h.prevR (max (h.kappa - 1) 1) *
                (gd n (hlllDown h.kappa s1).B (max (h.kappa - 1) 1) : ℝ)
            rw [show max (h.kappa - 1) 1 = h.kappa - 1 by omega,
              show h.kappa - 1 + 1 = h.kappa by omega, hgd' (h.kappa - 1) (by omega)]
            obtain ⟨m1, m2⟩ := l1 (h.kappa - 1) (by omega) (by omega)
            refine ⟨m1, ?_⟩
            rw [show h.kappa - 1 + 1 = h.kappa by omega, ← hgd, ← hgd] at m2
            rw [m2]
            have hpos : (0 : ℝ) < gd n s.B h.kappa := by exact_mod_cast hg.rank _ hκd.le
            nlinarith
      · right
        refine ⟨rfl, ?_, ?_, ?_⟩
        · show s.nbswaps + 1 = h.s.nbswaps + 1
          rw [hfr.nbswaps]
        · intro k hk; rw [← hgd]; exact hgd' k hk
        · rw [← hgd]; exact hlt
      · show s.nblov + 1 = h.s.nblov + 1
        rw [hfr.nblov]
      · exact ⟨hfr.n, hfr.d, hfr.transf, hfr.kappaMax, hfr.nblovMax, hfr.numS, hfr.parThr,
            hfr.seysenFlag, hfr.fastLong, hfr.verboseDepth⟩

/-- Termination of one iteration. -/
theorem ExInv.step_term (ho : ExactTies o) {n d : ℕ} {A : Mat Int} {track : Prop} {δ : ℝ}
    {h : HState ℝ} (hA : FullColumnRank (toMatrix n d A)) (hE : ExInv n d A track δ h)
    (hκd : h.kappa < d) (hf : h.s.seysenFlag < 1) (fuel : ℕ) :
    hlllStep o (fuel + 2) δ h ≠ .diverge := by
  obtain ⟨hM, hI1⟩ := hE.mid ho.toExact hA hκd
  have hpf := (hlllPrep_zs o h.kappa h.s).frame
  obtain ⟨r, hr⟩ := hlllReduce_term ho hE.pos hκd hA fuel _
    (by rw [hpf.numS]; exact hE.numS) hI1 hM (by rw [hpf.seysenFlag]; exact hf)
  unfold hlllStep
  simp only [hr]
  split
  · simp
  · split
    · split <;> simp
    · simp

/-- The invariant holds initially. -/
theorem ExInv.init {n d : ℕ} {A : Mat Int} {track : Prop} {δ : ℝ} {s : Lat ℝ}
    (hI : LInv n d A track s) (hS : 0 < s.numS)
    (hz : ∀ c < d, ∀ r, nmaxOf s.str c ≤ r → r < n → s.fp.Bfp c r = 0) :
    ExInv n d A track δ (hlllInit o s) := by
  have hd := hI.hd
  constructor
  · exact hI.congr rfl rfl rfl rfl rfl rfl rfl rfl
  · exact hS
  · show 0 < 1; omega
  · show 1 ≤ max d 1; omega
  · constructor
    · exact hz
    · intro c hc hk
      have hk : (if c < s.d then false else s.fp.colKept c) = true := hk
      rw [if_pos (by omega)] at hk; simp at hk
    · intro c hc hcd
      show (if c < s.d then 0 else s.fp.descendu c) = 0
      rw [if_pos (by omega)]
    · intro h; exact absurd rfl h
  · intro h; exact absurd rfl h
  · intro _
    constructor
    · intro j h1 h2
      have h2 : j < 1 := h2
      omega
    · intro h
      have h : (-1 : ℤ) = ((1 : ℕ) : ℤ) + 1 := h
      omega

end HPLLL
