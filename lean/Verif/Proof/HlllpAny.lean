import Verif.Proof.SeyBlocks
import Verif.Proof.HlllExit
import Verif.Proof.Fuel
/-! `hlllp` for any arithmetic: shape of an iteration, invariants, ranges, fuel. -/

namespace HPLLL
open Spec Matrix

variable {F : Type} (o : FPOps F)

/-- Shape of one iteration of the main loop. -/
theorem hlllpStep_cases (thr : F) (dth : Int) (fuel : Nat) (δ : F) (h : HState F) (hκ : 0 < h.kappa) :
    (hlllpStep o thr dth fuel δ h = .diverge) ∨
    (∃ s, ZSteps h.kappa h.s s ∧ hlllpStep o thr dth fuel δ h = .fail s) ∨
    (∃ s, ZSteps h.kappa { h.s with nblov := h.s.nblov + 1 } s ∧
        hlllpStep o thr dth fuel δ h = .fail s) ∨
    (∃ s pr, ZSteps h.kappa { h.s with nblov := h.s.nblov + 1 } s ∧
        hlllpStep o thr dth fuel δ h = .next ⟨s, h.kappa + 1, h.kappa, pr⟩) ∨
    (∃ s, ZSteps h.kappa { h.s with nblov := h.s.nblov + 1 } s ∧
        hlllpStep o thr dth fuel δ h = .next ⟨hlllDown h.kappa s, max (h.kappa - 1) 1, h.kappa, h.prevR⟩) := by
  -- adding a test to the counter commutes with the elementary steps
  have lift : ∀ {κ} {s t : Lat F}, ZSteps κ s t →
      ZSteps κ { s with nblov := s.nblov + 1 } { t with nblov := t.nblov + 1 } := by
    intro κ s t hst
    induction hst with
    | refl => exact .refl
    | tail _ hs ih =>
      refine ih.tail ?_
      cases hs with
      | fp p b => exact ZStep.fp _ p b
      | col p b i c hi => exact ZStep.col _ p b i c hi
      | pcol i c l hi hl hp => exact ZStep.pcol _ i c l hi hl hp
  unfold hlllpStep
  simp only []
  cases hr : hlllpReduce o thr dth fuel h.kappa (hlllPrep o h.kappa h.s) with
  | none => left; rfl
  | some r =>
    obtain ⟨flag, s⟩ := r
    have hz : ZSteps h.kappa h.s s :=
      (hlllPrep_zs o _ _).trans (hlllpReduce_zs o hκ thr dth fuel _ _ _ hr)
    have hz' := lift hz
    simp only []
    split
    · right; left; exact ⟨s, hz, rfl⟩
    · split
      · split
        · right; right; left
          refine ⟨_, ?_, rfl⟩
          exact hz'.trans ((zs_fp _ _ _ _).trans (hhV_zs o _ _ _))
        · right; right; right; left
          refine ⟨_, _, ?_, rfl⟩
          exact hz'.trans ((zs_fp _ _ _ _).trans ((hhV_zs o _ _ _).trans (zs_fp _ _ _ _)))
      · right; right; right; right
        refine ⟨_, ?_, rfl⟩
        exact hz'.trans (zs_fp _ _ _ _)

theorem MainInv.ploop (thr : F) (dth : Int) {n d : Nat} {A : Mat Int} {track : Prop} {s0 : Lat F} (δ : F) (fuel : Nat)
    (h : HState F) (hkm : s0.kappaMax = s0.d) (hM : MainInv n d A track s0 h) (st : Int) (s : Lat F)
    (hr : hlllpLoop o thr dth δ fuel h = some (st, s)) : ExitInv n d A track s0 st s := by
  induction fuel generalizing h with
  | zero => simp [hlllpLoop] at hr
  | succ fuel ih =>
    obtain ⟨hI, hcfg, hpos, ⟨w, w1, hw, hw1, hcnt⟩, hlov, hkle⟩ := hM
    simp only [hlllpLoop] at hr
    split at hr
    · rename_i hcond
      have hκd : h.kappa < d := by
        have := hcond.1; rw [hI.hd] at this; omega
      have hκm : h.kappa < s0.kappaMax := by rw [hkm, ← hcfg.d]; exact hcond.1
      have hbud : h.s.nblov < s0.nblovMax := by
        have := hcond.2; rw [hcfg.nblovMax] at this; exact this
      have hI1 : LInv n d A track { h.s with nblov := h.s.nblov + 1 } :=
        hI.congr rfl rfl rfl rfl rfl rfl rfl rfl
      rcases hlllpStep_cases o thr dth (fuel + 1) δ h hpos with h1 | ⟨t, hz, h1⟩ | ⟨t, hz, h1⟩ |
        ⟨t, pr, hz, h1⟩ | ⟨t, hz, h1⟩
      · rw [h1] at hr; simp at hr
      · rw [h1] at hr
        obtain ⟨rfl, rfl⟩ := by simpa using hr
        have hf := hz.frame
        refine ⟨hI.zsteps hκd hz, hcfg.trans' hf.cfg, ?_, ?_, Or.inr rfl, by simp⟩
        · rw [hf.nbswaps, hf.nblov]; omega
        · rw [hf.nblov]; omega
      · rw [h1] at hr
        obtain ⟨rfl, rfl⟩ := by simpa using hr
        have hf := hz.frame
        refine ⟨hI1.zsteps hκd hz, (hcfg.trans' (cfg_nblov _ _)).trans' hf.cfg, ?_, ?_,
          Or.inr rfl, by simp⟩
        · rw [hf.nbswaps, hf.nblov]; simp only; omega
        · rw [hf.nblov]; simp only; omega
      · rw [h1] at hr
        have hf := hz.frame
        refine ih _ ?_ hr
        refine ⟨hI1.zsteps hκd hz, (hcfg.trans' (cfg_nblov _ _)).trans' hf.cfg, by simp, ?_, ?_, ?_⟩
        · refine ⟨w, w1, ?_, hw1, ?_⟩
          · simp only [hf.nbswaps]; exact hw
          · simp only [hf.nblov]; omega
        · simp only [hf.nblov]; omega
        · simp only []; omega
      · rw [h1] at hr
        have hf := hz.frame
        refine ih _ ?_ hr
        refine ⟨(hI1.zsteps hκd hz).down hκd hpos,
          ((hcfg.trans' (cfg_nblov _ _)).trans' hf.cfg).trans' (down_cfg _ _), by simp, ?_, ?_, ?_⟩
        · by_cases hk1 : h.kappa = 1
          · refine ⟨w + 1, w1 + 1, ?_, by omega, ?_⟩
            · simp only [hlllDown, hf.nbswaps]; omega
            · simp only [hlllDown, hf.nblov]; omega
          · refine ⟨w + 1, w1, ?_, by omega, ?_⟩
            · simp only [hlllDown, hf.nbswaps]; omega
            · simp only [hlllDown, hf.nblov]; omega
        · simp only [hlllDown, hf.nblov]; omega
        · simp only []; omega
    · rename_i hcond
      obtain ⟨rfl, rfl⟩ := by simpa using hr
      refine ⟨hI, hcfg, ?_, hlov, Or.inl rfl, ?_⟩
      · omega
      · intro _ hb
        have hκ : ¬ (h.kappa < h.s.d) := by
          intro hk; exact hcond ⟨hk, hb⟩
        rw [hcfg.d] at hκ
        exact ⟨w, w1, hw, hw1, by omega⟩

theorem hlllp_exit (thr : F) (dth : Int) {n d : Nat} {A : Mat Int} {track : Prop} (fuel : Nat) (δ : F)
    (s s' : Lat F) (st : Int) (hI : LInv n d A track s) (hkm : s.kappaMax = s.d)
    (h : hlllp o thr dth fuel δ s = some (st, s')) : ExitInv n d A track s st s' := by
  unfold hlllp at h
  refine MainInv.ploop o thr dth δ fuel (hlllInit o s) hkm ?_ st s' h
  refine ⟨hI.congr rfl rfl rfl rfl rfl rfl rfl rfl, by constructor <;> rfl, by simp [hlllInit],
    ⟨0, 0, rfl, le_refl _, by simp [hlllInit]⟩, by simp [hlllInit], by simp [hlllInit]⟩

/-! ### Ranges -/

theorem SN.nsUpdateR {n d κ lo : Nat} (hdn : d ≤ n) (hκ : κ < d) (bd : Nat → Bool) (vx : Nat → F)
    (m : Nat) (hm : lo + m ≤ κ) : ∀ s : Lat F, Rng n d s → SN n s →
    SN n (HPLLL.nsUpdateR o κ lo bd vx m s) ∧ Rng n d (HPLLL.nsUpdateR o κ lo bd vx m s) := by
  induction m with
  | zero => intro s hr h; exact ⟨h, hr⟩
  | succ m ih =>
    intro s hr h
    simp only [HPLLL.nsUpdateR]
    split
    · exact ih (by omega) s hr h
    · refine ih (by omega) _ ⟨hr.hn, hr.hd, hr.lt⟩ ⟨⟨?_, h.1.km⟩, h.2⟩
      simp only [h.1.ub, Bool.false_or, Bool.not_eq_false', decide_eq_true_eq]
      rw [hr.hn, hr.hd]; exact ⟨hκ, by omega, by omega⟩

theorem SN.nsUpdateB {n d κ lo : Nat} (hκ : κ < d) (bd : Nat → Bool) (vx : Nat → F)
    (m : Nat) (hm : lo + m ≤ κ) : ∀ s : Lat F, Rng n d s → SN n s →
    SN n (HPLLL.nsUpdateB o κ lo bd vx m s) := by
  induction m with
  | zero => intro s hr h; exact h
  | succ m ih =>
    intro s hr h
    simp only [HPLLL.nsUpdateB]
    split
    · exact ih (by omega) s hr h
    · refine ih (by omega) _ ⟨hr.hn, hr.hd, hr.lt⟩ ⟨⟨?_, h.1.km⟩, h.2⟩
      have := hr.nmax (lo + m) (by omega)
      simp only [h.1.ub, Bool.false_or, Bool.not_eq_false', decide_eq_true_eq]
      rw [hr.hn, hr.hd]; exact ⟨hκ, by omega, this⟩

theorem SN.nsBlocks {n d κ : Nat} (thr : F) (hdn : d ≤ n) (hκ : κ < d) (fuel : Nat) :
    ∀ (ld idx : Nat) (q : SeyState F), Rng n d q.s → SN n q.s →
      SN n (HPLLL.nsBlocks o thr κ fuel ld idx q).s := by
  induction fuel with
  | zero => intro ld idx q _ h; exact h
  | succ fuel ih =>
    intro ld idx q hr h
    simp only [HPLLL.nsBlocks]
    split
    · refine ih _ _ _ (hr.zs (nsBlock_zs o thr q)) ?_
      unfold nsBlock
      simp only []
      generalize (if κ / ld % 2 = 0 then 0 else ld) = bd
      obtain ⟨a, b⟩ := SN.nsUpdateR o (lo := κ - idx - bd) hdn hκ (fun i => !(o.lt thr (o.abs ((seysenSolve o q.s.fp.R
        (κ - idx - bd) (κ - idx - (κ - idx - bd)) (fun i => if κ - idx - bd ≤ i ∧ i < κ - idx then
          q.s.fp.R κ i else q.tmpcol i, q.vectx)).2 i)))) (seysenSolve o q.s.fp.R
        (κ - idx - bd) (κ - idx - (κ - idx - bd)) (fun i => if κ - idx - bd ≤ i ∧ i < κ - idx then
          q.s.fp.R κ i else q.tmpcol i, q.vectx)).2 (κ - idx - (κ - idx - bd)) (by omega) q.s hr h
      refine SN.nsUpdateB o hκ _ _ _ ?_ _ b a
      omega
    · exact h

theorem SN.nsLoop {n d κ : Nat} (thr : F) (hdn : d ≤ n) (hκ : κ < d) (fuel : Nat) :
    ∀ (t v : Nat → F) (s s' : Lat F) (st : Int), Rng n d s → SN n s →
    HPLLL.nsLoop o thr κ fuel t v s = some (st, s') → SN n s' := by
  induction fuel with
  | zero => intro t v s s' st _ _ h; simp [HPLLL.nsLoop] at h
  | succ fuel ih =>
    intro t v s s' st hr hs h
    simp only [HPLLL.nsLoop] at h
    have h1 := SN.nsBlocks o thr hdn hκ (κ + 1) 1 0
      { s := s, tmpcol := t, vectx := v, somedone := false } hr hs
    have r1 := hr.zs (nsBlocks_zs o (κ := κ) thr (κ + 1) 1 0
      { s := s, tmpcol := t, vectx := v, somedone := false })
    set q := HPLLL.nsBlocks o thr κ (κ + 1) 1 0
      { s := s, tmpcol := t, vectx := v, somedone := false } with hq
    have h2 := h1.drop (κ := κ)
    have r2 : Rng n d { q.s with fp := { q.s.fp with colKept := setAt q.s.fp.colKept κ false } } :=
      ⟨r1.hn, r1.hd, r1.lt⟩
    have h3 : SN n _ := Safe.hhR o hdn hκ r2 h2.1
    split at h
    · refine ih _ _ _ _ _ ?_ h3 h
      exact ⟨r2.hn, r2.hd, r2.lt⟩
    · simp only [Option.some.injEq, Prod.mk.injEq] at h
      obtain ⟨rfl, rfl⟩ := h
      exact h1

theorem SN.hlllpReduce (thr : F) (dth : Int) {n d κ : Nat} (hdn : d ≤ n) (h0 : 0 < κ) (hκ : κ < d)
    (fuel : Nat) (s s' : Lat F) (st : Int) (hr : Rng n d s) (hs : Safe s)
    (h : HPLLL.hlllpReduce o thr dth fuel κ s = some (st, s')) : SN n s' := by
  have h1 := Safe.hhR o hdn hκ hr hs
  have r1 : Rng n d (s.hhR o κ) := ⟨hr.hn, hr.hd, hr.lt⟩
  unfold HPLLL.hlllpReduce at h
  split at h
  · unfold hsizereduce at h
    simp only [Nat.lt_irrefl, if_false] at h
    exact SN.hsizeLoop o hdn hκ (by omega) fuel _ _ _ _ r1 h1 h
  · split at h
    · exact SN.nsLoop o thr hdn hκ fuel _ _ _ _ _ r1 h1 h
    · exact SN.seysenLoop o hdn hκ fuel _ _ _ _ _ _ _ r1 h1 h

/-- One iteration keeps the flag clear. -/
theorem Safe.pstep (thr : F) (dth : Int) {n d : Nat} {A : Mat Int} {track : Prop} (hdn : d ≤ n) (fuel : Nat) (δ : F)
    (h : HState F) (h0 : 0 < h.kappa) (hκ : h.kappa < d) (hI : LInv n d A track h.s)
    (hs : Safe h.s) :
    match hlllpStep o thr dth fuel δ h with
    | .diverge => True
    | .fail s => Safe s
    | .next h' => Safe h'.s := by
  have hp := Safe.hlllPrep o hdn h0 hκ hI.rng hs
  have rp := hI.rng.zs (hlllPrep_zs o h.kappa h.s)
  unfold hlllpStep
  simp only []
  cases hq : HPLLL.hlllpReduce o thr dth fuel h.kappa (HPLLL.hlllPrep o h.kappa h.s) with
  | none => trivial
  | some r =>
    obtain ⟨flag, s⟩ := r
    simp only []
    have h1 := SN.hlllpReduce o thr dth hdn h0 hκ fuel _ _ _ rp hp hq
    have r1 := rp.zs (hlllpReduce_zs o h0 thr dth fuel _ _ _ hq)
    have h2 : SN n { s with
        nblov := s.nblov + 1
        ub := s.ub || !(decide (h.kappa < s.d ∧ h.kappa < s.n ∧ nmaxOf s.str h.kappa ≤ s.n)) } := by
      refine ⟨⟨?_, h1.1.km⟩, h1.2⟩
      have := r1.nmax h.kappa hκ
      simp only [h1.1.ub, Bool.false_or, Bool.not_eq_false', decide_eq_true_eq]
      rw [r1.hn, r1.hd]; exact ⟨hκ, by omega, this⟩
    have r2 : Rng n d { s with
        nblov := s.nblov + 1
        ub := s.ub || !(decide (h.kappa < s.d ∧ h.kappa < s.n ∧ nmaxOf s.str h.kappa ≤ s.n)) } :=
      ⟨r1.hn, r1.hd, r1.lt⟩
    split
    · rename_i heq; split at heq
      · exact trivial
      · split at heq
        · split at heq <;> simp at heq
        · simp at heq
    · rename_i t heq
      split at heq
      · simp only [HStep.fail.injEq] at heq; subst heq; exact h1.1
      · split at heq
        · split at heq
          · simp only [HStep.fail.injEq] at heq; subst heq
            exact Safe.hhV o hdn hκ r2 h2.1 h2.2
          · simp at heq
        · simp at heq
    · rename_i t heq
      split at heq
      · simp at heq
      · split at heq
        · split at heq
          · simp at heq
          · simp only [HStep.next.injEq] at heq; subst heq
            have := Safe.hhV o hdn hκ r2 h2.1 h2.2
            exact ⟨this.ub, this.km⟩
        · simp only [HStep.next.injEq] at heq; subst heq
          refine ⟨?_, h2.1.km⟩
          have hu := h2.1.ub
          simp only [] at hu
          simp only [hlllDown, hu, Bool.false_or, Bool.not_eq_false', decide_eq_true_eq]
          rw [r1.hd]; exact hκ

theorem Safe.ploop (thr : F) (dth : Int) {n d : Nat} {A : Mat Int} {track : Prop} (hdn : d ≤ n) (δ : F) (fuel : Nat) :
    ∀ (h : HState F), 0 < h.kappa → LInv n d A track h.s → Safe h.s →
    ∀ st s', hlllpLoop o thr dth δ fuel h = some (st, s') → Safe s' := by
  induction fuel with
  | zero => intro h _ _ _ st s' hl; simp [hlllpLoop] at hl
  | succ fuel ih =>
    intro h h0 hI hs st s' hl
    simp only [hlllpLoop] at hl
    split at hl
    · rename_i hc
      have hκ : h.kappa < d := by rw [← hI.hd]; exact hc.1
      have hst := Safe.pstep o thr dth hdn (fuel + 1) δ h h0 hκ hI hs
      rcases hlllpStep_cases o thr dth (fuel + 1) δ h h0 with e | ⟨s, _, e⟩ | ⟨s, _, e⟩ | ⟨s, pr, hz, e⟩ |
        ⟨s, hz, e⟩
      · rw [e] at hl; simp at hl
      · rw [e] at hl hst
        simp only [Option.some.injEq, Prod.mk.injEq] at hl
        obtain ⟨rfl, rfl⟩ := hl
        exact hst
      · rw [e] at hl hst
        simp only [Option.some.injEq, Prod.mk.injEq] at hl
        obtain ⟨rfl, rfl⟩ := hl
        exact hst
      · rw [e] at hl hst
        have hI0 : LInv n d A track { h.s with nblov := h.s.nblov + 1 } :=
          hI.congr rfl rfl rfl rfl rfl rfl rfl rfl
        refine ih ⟨s, h.kappa + 1, h.kappa, pr⟩ (Nat.succ_pos _) (hI0.zsteps hκ hz) hst st s' hl
      · rw [e] at hl hst
        have hI0 : LInv n d A track { h.s with nblov := h.s.nblov + 1 } :=
          hI.congr rfl rfl rfl rfl rfl rfl rfl rfl
        refine ih ⟨hlllDown h.kappa s, max (h.kappa - 1) 1, h.kappa, h.prevR⟩ ?_
          ((hI0.zsteps hκ hz).down hκ h0) hst st s' hl
        show 0 < max (h.kappa - 1) 1; omega
    · simp only [Option.some.injEq, Prod.mk.injEq] at hl
      obtain ⟨rfl, rfl⟩ := hl
      exact hs


/-! ### Fuel -/

theorem nsLoop_mono (thr : F) (κ : Nat) : ∀ (f k : Nat) (t v : Nat → F) (s : Lat F) r,
    nsLoop o thr κ f t v s = some r → nsLoop o thr κ (f + k) t v s = some r := by
  intro f
  induction f with
  | zero => intro k t v s r h; simp [nsLoop] at h
  | succ f ih =>
    intro k t v s r h
    rw [show f + 1 + k = (f + k) + 1 by omega]
    simp only [nsLoop] at h ⊢
    split
    · rename_i hc
      rw [if_pos hc] at h
      exact ih k _ _ _ _ h
    · rename_i hc; rw [if_neg hc] at h; exact h

theorem hlllpReduce_mono (thr : F) (dth : Int) (κ f k : Nat) (s : Lat F) (r)
    (h : hlllpReduce o thr dth f κ s = some r) : hlllpReduce o thr dth (f + k) κ s = some r := by
  unfold hlllpReduce at *
  split
  · rename_i hc; rw [if_pos hc] at h; exact hsizeLoop_mono o _ _ f k _ _ _ h
  · rename_i hc
    rw [if_neg hc] at h
    split
    · rename_i hc2; rw [if_pos hc2] at h; exact nsLoop_mono o thr _ f k _ _ _ _ h
    · rename_i hc2; rw [if_neg hc2] at h; exact seysenLoop_mono o _ f k _ _ _ _ _ _ h

theorem hlllpStep_mono (thr : F) (dth : Int) (δ : F) (f k : Nat) (h : HState F) (r) (hr : hlllpStep o thr dth f δ h = r)
    (hne : r ≠ .diverge) : hlllpStep o thr dth (f + k) δ h = r := by
  unfold hlllpStep at *
  simp only [] at *
  cases hq : hlllpReduce o thr dth f h.kappa (hlllPrep o h.kappa h.s) with
  | none => rw [hq] at hr; simp only [] at hr; exact absurd hr.symm hne
  | some q => rw [hq] at hr; rw [hlllpReduce_mono o thr dth _ f k _ _ hq]; exact hr

theorem hlllpLoop_mono (thr : F) (dth : Int) (δ : F) : ∀ (f k : Nat) (h : HState F) r,
    hlllpLoop o thr dth δ f h = some r → hlllpLoop o thr dth δ (f + k) h = some r := by
  intro f
  induction f with
  | zero => intro k h r hr; simp [hlllpLoop] at hr
  | succ f ih =>
    intro k h r hr
    rw [show f + 1 + k = (f + k) + 1 by omega]
    simp only [hlllpLoop] at hr ⊢
    split
    · rename_i hc
      rw [if_pos hc] at hr
      cases hs : hlllpStep o thr dth (f + 1) δ h with
      | diverge => rw [hs] at hr; simp at hr
      | fail s =>
        rw [hs] at hr
        rw [show f + k + 1 = f + 1 + k by omega, hlllpStep_mono o thr dth δ (f + 1) k h _ hs (by simp)]
        exact hr
      | next h1 =>
        rw [hs] at hr
        rw [show f + k + 1 = f + 1 + k by omega, hlllpStep_mono o thr dth δ (f + 1) k h _ hs (by simp)]
        exact ih k _ _ hr
    · rename_i hc; rw [if_neg hc] at hr; exact hr


end HPLLL
