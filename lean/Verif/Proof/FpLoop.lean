import Verif.Proof.FpInv
/-! The main loop in an arbitrary arithmetic. -/

namespace HPLLL
open Spec

namespace Fl

variable {F : Type} {o : FPOps F}

theorem FQR.extend (hz : ZeroLaws o) {n d κ : Nat} {str : Nat → Int} {B : Mat Int} {p : FPart F}
    (hg : Geom n d str) (hκd : κ < d) (hs : Sup n d str B) (hq : FQR o n str B p.V p.R κ)
    (hnm : p.nmaxkappa = nmaxOf str κ)
    (hr : ∀ i < nmaxOf str κ, p.R κ i = fapp o n p.V κ (fvec o n B κ) i) :
    FQR o n str B (householderV o n κ p).V (householderV o n κ p).R (κ + 1) ∧
      HvFrame κ p (householderV o n κ p) := by
  obtain ⟨vf, hv⟩ := householderV_spec hz (n := n) p (fapp o n p.V κ (fvec o n B κ))
    (by rw [hnm]; exact hg.diag κ hκd) (by rw [hnm]; exact hg.le κ hκd)
    (by rw [hnm]; exact hr)
    (by
      rw [hnm]
      refine fapp_zero hz.submul p.V _ κ (hq.vz hg hκd) ?_
      intro r hr hrn
      simp only [fvec, if_pos hrn, hs κ hκd r hr hrn, hz.ofZ])
  refine ⟨?_, vf⟩
  intro k hk
  rw [fapp_congrV n p.V _ k (fun j hj => vf.V j (by omega))]
  by_cases hkκ : k = κ
  · subst hkκ
    rw [hnm] at hv
    exact hv
  · rw [vf.V k hkκ, vf.R k hkκ]
    exact hq k (by omega)

theorem Head.prep (hz : ZeroLaws o) {n d κ : Nat} {s : Lat F} (hκ : 0 < κ) (hκd : κ < d)
    (hn : s.n = n) (hd : s.d = d) (hg : Geom n d s.str) (hs : Sup n d s.str s.B)
    (h : Head o n d s.str s.B s.fp κ) : Mid o n d κ (hlllPrep o κ s) := by
  unfold hlllPrep
  by_cases h1 : κ = 1
  · subst h1
    simp only [if_true]
    set t : Lat F := { s with fp := { s.fp with
        kappamin := fun i => if i < s.d then min (s.fp.kappamin i) 0 else s.fp.kappamin i } } with ht
    obtain ⟨a, f⟩ := householderR_zero_spec hz t.str t.B t.fp (hg.diag 0 (by omega))
      (hg.le 0 (by omega)) (h.bz 0 (by omega)) (hs 0 (by omega))
      (fun hk => ⟨(h.kb 0 (by omega) hk).1, (h.kb 0 (by omega) hk).2.1⟩)
    set p1 := householderR o t.str t.B 0 t.fp with hp1
    have hq0 : FQR o n s.str s.B p1.V p1.R 0 :=
      fun k hk => by omega
    obtain ⟨q1, vf⟩ := hq0.extend hz hg (by omega) hs a.nmk a.r
    have hfp : ((t.hhR o 0).hhV o 0).fp = householderV o n 0 p1 := by
      show householderV o s.n 0 p1 = _
      rw [hn]
    obtain ⟨V2, R2, e2⟩ := vf.rest
    rw [zero_add] at q1
    have hmin : ∀ c, c < d → c ≠ 0 → s.fp.colKept c = true → p1.kappamin c = 0 := by
      intro c hc hc0 hk
      rw [f.kappamin c hc0]
      simp only [ht, hd, if_pos hc]
      have := (h.kb c hc hk).2.2
      omega
    constructor
    · show Oth o n d s.str s.B ((t.hhR o 0).hhV o 0).fp 1
      rw [hfp]
      constructor
      · exact q1
      · intro c hc r hr hrn
        rw [e2]
        by_cases hc0 : c = 0
        · subst hc0
          show p1.Bfp 0 r = o.zero
          rw [a.bfp r hrn]; simp only [fvec, if_pos hrn]
          rw [hs 0 hc r hr hrn, hz.ofZ]
        · show p1.Bfp c r = o.zero
          rw [f.Bfp c hc0]; exact h.bz c hc r hr hrn
      · intro c hc hc1 hk
        rw [e2] at hk ⊢
        by_cases hc0 : c = 0
        · subst hc0; exact ⟨a.bfp, a.nrm, by show 0 ≤ p1.kappamin 0; rw [a.kmin]; simp⟩
        · have hk' : s.fp.colKept c = true := by rw [← f.colKept c hc0]; exact hk
          refine ⟨?_, ?_, ?_⟩
          · show ∀ r < n, p1.Bfp c r = _
            rw [f.Bfp c hc0]; exact (h.kb c hc hk').1
          · show p1.normB2 c = _
            rw [f.normB2 c hc0]; exact (h.kb c hc hk').2.1
          · show 0 ≤ p1.kappamin c
            rw [hmin c hc hc0 hk']
      · intro c hc
        have : c = 0 := by omega
        subst this
        rw [e2]
        exact ⟨a.kept, a.kmin, fun k hk => by omega⟩
      · intro c hc hcd hk
        rw [e2] at hk ⊢
        have hk' : s.fp.colKept c = true := by rw [← f.colKept c (by omega)]; exact hk
        have := hmin c hcd (by omega) hk'
        refine ⟨by show p1.kappamin c ≤ _; rw [this]; simp, fun k hk2 => ?_⟩
        have hk2 : (k : Int) < p1.kappamin c := hk2
        rw [this] at hk2; omega
      · intro c hc hcd
        rw [e2]
        show p1.descendu c = 0
        rw [f.descendu]; exact h.de c hc hcd
    · show ((t.hhR o 0).hhV o 0).fp.colKept 1 = true →
        ColPre o n (nmaxOf s.str 1) 1 ((t.hhR o 0).hhV o 0).fp (fvec o n s.B 1)
      rw [hfp, e2]
      intro hk
      have hk' : s.fp.colKept 1 = true := by rw [← f.colKept 1 (by omega)]; exact hk
      have hm := hmin 1 hκd (by omega) hk'
      refine ⟨?_, ?_, ?_, ?_, ?_, ?_⟩
      · show ∀ r < n, p1.Bfp 1 r = _
        rw [f.Bfp 1 (by omega)]; exact (h.kb 1 hκd hk').1
      · show p1.normB2 1 = _
        rw [f.normB2 1 (by omega)]; exact (h.kb 1 hκd hk').2.1
      · show 0 ≤ p1.kappamin 1; rw [hm]
      · show p1.kappamin 1 ≤ _; rw [hm]; simp
      · intro k hk2
        have hk2 : (k : Int) < p1.kappamin 1 := hk2
        rw [hm] at hk2; omega
      · intro h1 h2; omega
  · rw [if_neg h1]
    have hf := h.full h1
    constructor
    · show Oth o n d s.str s.B _ κ
      constructor
      · exact hf.qr
      · exact h.bz
      · intro c hc hcκ hk
        obtain ⟨a, b, e⟩ := h.kb c hc hk
        refine ⟨a, b, ?_⟩
        simp only []
        split
        · exact le_min e (by omega)
        · exact e
      · intro c hc
        obtain ⟨a, b, e⟩ := hf.lo c hc
        refine ⟨a, ?_, e⟩
        simp only []
        rw [if_neg (by omega)]; exact b
      · intro c hc hcd hk
        simp only [hd]
        rw [if_pos ⟨hc, hcd⟩]
        refine ⟨min_le_right _ _, fun k hk2 => ?_⟩
        exact hf.hi c hc.le hcd hk k (lt_of_lt_of_le hk2 (min_le_left _ _))
          (by have := lt_of_lt_of_le hk2 (min_le_right _ _); omega)
      · exact h.de
    · intro hk
      obtain ⟨a, b, e⟩ := h.kb κ hκd hk
      have hkm : (if κ < κ ∧ κ < s.d then min (s.fp.kappamin κ) (κ : Int) else s.fp.kappamin κ)
          = s.fp.kappamin κ := if_neg (by omega)
      refine ⟨a, b, ?_, ?_, ?_, ?_⟩
      · show 0 ≤ (if κ < κ ∧ κ < s.d then _ else _); rw [hkm]; exact e
      · show (if κ < κ ∧ κ < s.d then _ else _) ≤ _; rw [hkm]; exact hf.kκ hκd hk
      · intro k hk2
        have hk2 : (k : Int) < (if κ < κ ∧ κ < s.d then min (s.fp.kappamin κ) (κ : Int)
          else s.fp.kappamin κ) := hk2
        rw [hkm] at hk2
        exact hf.hi κ (le_refl _) hκd hk k hk2 (by have := hf.kκ hκd hk; omega)
      · intro h3 h4
        exact ⟨(hf.skip hκd hk h3 h4).rk, (hf.skip hκd hk h3 h4).vr⟩

/-- The UP branch. -/
theorem Post.up (hz : ZeroLaws o) {n d κ : Nat} {s : Lat F} (hκ : 0 < κ) (hκd : κ < d)
    (hn : s.n = n) (hg : Geom n d s.str) (hs : Sup n d s.str s.B) (h : Post o n d κ s) :
    Head o n d s.str s.B (hlllUp κ (s.hhV o κ)).fp (κ + 1) ∧
    HvFrame κ s.fp (s.hhV o κ).fp := by
  obtain ⟨h1, h2⟩ := h
  obtain ⟨q, vf⟩ := h1.qr.extend hz hg hκd hs h2.nmk h2.r
  have hfp : (s.hhV o κ).fp = householderV o n κ s.fp := by
    show householderV o s.n κ s.fp = _; rw [hn]
  rw [hfp]
  refine ⟨?_, vf⟩
  obtain ⟨V2, R2, e2⟩ := vf.rest
  have happ : ∀ k ≤ κ, ∀ x, vprod o n (householderV o n κ s.fp).V k x = vprod o n s.fp.V k x ∨ k = κ := by
    intro k hk x
    by_cases hkκ : k = κ
    · right; exact hkκ
    · left
      unfold vprod
      rw [fapp_congrV n s.fp.V _ k (fun j hj => vf.V j (by omega)), vf.V k hkκ]
  have hvp : ∀ k < κ, ∀ x, vprod o n (householderV o n κ s.fp).V k x = vprod o n s.fp.V k x := by
    intro k hk x
    rcases happ k hk.le x with h | h
    · exact h
    · omega
  have hup : (hlllUp κ (s.hhV o κ)).fp =
      { householderV o n κ s.fp with
        descendu :=
          let de := setAt s.fp.descendu κ 0
          if κ = 1 then setAt de 0 0 else de } := by
    unfold hlllUp
    simp only [hfp]
    rw [e2]
  rw [hup]
  rw [e2] at q hvp ⊢
  constructor
  · exact h1.bz
  · intro c hc hk
    by_cases hcκ : c = κ
    · subst hcκ
      exact ⟨h2.bfp, h2.nrm, by show 0 ≤ s.fp.kappamin c; rw [h2.kmin]; omega⟩
    · exact h1.kb c hc hcκ hk
  · intro c hc hcd
    simp only []
    have hde : setAt s.fp.descendu κ 0 c = 0 := by
      rw [setAt_ne _ _ (by omega)]; exact h1.de c (by omega) hcd
    split
    · rw [setAt_ne _ _ (by omega)]; exact hde
    · exact hde
  · intro _
    constructor
    · exact q
    · intro c hc
      by_cases hcκ : c = κ
      · subst hcκ
        refine ⟨h2.kept, h2.kmin, fun k hk => ?_⟩
        have := h2.col.vr k hk
        simp only []
        rw [this, hvp k hk]
      · obtain ⟨a, b, e⟩ := h1.lo c (by omega)
        refine ⟨a, b, fun k hk => ?_⟩
        have := e k hk
        simp only []
        rw [this, hvp k (by omega)]
    · intro c hc hcd hk k hk2 hk3
      obtain ⟨a, b⟩ := h1.hi c (by omega) hcd hk
      have hk2 : (k : Int) < s.fp.kappamin c := hk2
      have := b k hk2
      simp only []
      rw [this, hvp k (by omega)]
    · intro hd hk
      have := (h1.hi (κ + 1) (by omega) hd hk).1
      simp only []
      push_cast; omega
    · intro hd hk h3 h4
      exfalso
      simp only [] at h3
      have hde : setAt s.fp.descendu κ 0 (κ + 1) = 0 := by
        rw [setAt_ne _ _ (by omega)]; exact h1.de (κ + 1) (by omega) hd
      split at h3
      · rw [setAt_ne _ _ (by omega), hde] at h3; omega
      · rw [hde] at h3; omega

theorem fvec_colswap (n : Nat) (B : Mat Int) (a b c : Nat) :
    fvec o n (colswap B a b) c = if c = a then fvec o n B b else if c = b then fvec o n B a else fvec o n B c := by
  unfold fvec colswap
  split
  · rfl
  · split <;> rfl

/-- The DOWN branch. -/
theorem Post.down {n d κ : Nat} {s : Lat F} (hκ : 0 < κ) (hκd : κ < d)
    (hg : Geom n d s.str) (hs : Sup n d s.str s.B) (h : Post o n d κ s) :
    Head o n d (hlllDown κ s).str (hlllDown κ s).B (hlllDown κ s).fp (max (κ - 1) 1) := by
  obtain ⟨h1, h2⟩ := h
  have hlo := h1.lo (κ - 1) (by omega)
  have hkb1 := h1.kb (κ - 1) (by omega) (by omega) hlo.1
  have hne : κ ≠ κ - 1 := by omega
  have hstrκ : (hlllDown κ s).str κ = s.str κ := by
    simp only [hlllDown]; rw [setAt_ne _ _ hne]
  have hstr1 : (hlllDown κ s).str (κ - 1) = s.str κ := by simp only [hlllDown]; rw [setAt_same]
  constructor
  · intro c hc r hr hrn
    simp only [hlllDown] at hr ⊢
    unfold colswap
    by_cases c1 : c = κ - 1
    · subst c1
      rw [if_pos rfl]
      have : nmaxOf (setAt s.str (κ - 1) (s.str κ)) (κ - 1) = nmaxOf s.str κ := by
        unfold nmaxOf; rw [setAt_same]
      rw [this] at hr
      exact h1.bz κ hκd r hr hrn
    · rw [if_neg c1]
      have : nmaxOf (setAt s.str (κ - 1) (s.str κ)) c = nmaxOf s.str c := by
        unfold nmaxOf; rw [setAt_ne _ _ c1]
      rw [this] at hr
      by_cases c2 : c = κ
      · subst c2
        rw [if_pos rfl]
        exact h1.bz (c - 1) (by omega) r (le_trans (hg.mono (c - 1) c (by omega) hκd) hr) hrn
      · rw [if_neg c2]; exact h1.bz c hc r hr hrn
  · intro c hc hk
    simp only [hlllDown, fvec_colswap] at hk ⊢
    by_cases c1 : c = κ - 1
    · subst c1
      simp only [if_true, colswap]
      rw [setAt_same]
      exact ⟨h2.bfp, h2.nrm, by rw [hlo.2.1]; omega⟩
    · simp only [if_neg c1, colswap]
      rw [setAt_ne _ _ c1]
      by_cases c2 : c = κ
      · subst c2
        simp only [if_true]
        rw [setAt_same]
        exact ⟨hkb1.1, hkb1.2.1, by rw [h2.kmin]; omega⟩
      · simp only [if_neg c2]
        rw [setAt_ne _ _ c2]
        exact h1.kb c hc c2 hk
  · intro c hc hcd
    simp only [hlllDown]
    by_cases c2 : c = κ
    · subst c2; rw [setAt_same]
    · rw [setAt_ne _ _ c2]
      split
      · rw [setAt_ne _ _ (by omega)]; exact h1.de c (by omega) hcd
      · rw [setAt_ne _ _ (by omega)]; exact h1.de c (by omega) hcd
  · intro hκ1
    have hκ2 : max (κ - 1) 1 = κ - 1 := by omega
    rw [hκ2]
    rw [hκ2] at hκ1
    constructor
    · refine (h1.qr.mono (by omega : κ - 1 ≤ κ)).congr ?_ ?_ (fun _ _ => rfl) (fun _ _ => rfl)
      · intro k hk; simp only [hlllDown]; rw [setAt_ne _ _ (by omega)]
      · intro k hk; simp only [hlllDown, colswap]; rw [if_neg (by omega), if_neg (by omega)]
    · intro c hc
      obtain ⟨a, b, e⟩ := h1.lo c (by omega)
      refine ⟨a, b, fun k hk => ?_⟩
      simp only [hlllDown, fvec_colswap]
      rw [if_neg (by omega), if_neg (by omega)]
      simp only [colswap]
      rw [if_neg (by omega), if_neg (by omega)]
      exact e k hk
    · intro c hc hcd hk k hk2 hk3
      simp only [hlllDown, fvec_colswap] at hk hk2 ⊢
      simp only [colswap]
      by_cases c1 : c = κ - 1
      · subst c1
        rw [if_pos rfl, if_pos rfl]
        exact h2.col.vr k (by omega)
      · rw [if_neg c1, if_neg c1]
        by_cases c2 : c = κ
        · subst c2
          rw [if_pos rfl, if_pos rfl]
          exact hlo.2.2 k hk3
        · rw [if_neg c2, if_neg c2]
          exact (h1.hi c (by omega) hcd hk).2 k hk2
    · intro _ _
      simp only [hlllDown]
      rw [hlo.2.1]
    · intro _ _ _ _
      have hnm : nmaxOf (hlllDown κ s).str (κ - 1) = nmaxOf s.str κ := by
        unfold nmaxOf; rw [hstr1]
      rw [hnm]
      have hb : fvec o n (hlllDown κ s).B (κ - 1) = fvec o n s.B κ := by
        simp only [hlllDown, fvec_colswap]; rw [if_pos trivial]
      rw [hb]
      constructor
      · intro k hk i hki hi
        exact h2.col.rk k (by omega) i hki hi
      · intro k hk
        have : (hlllDown κ s).fp.VR (κ - 1) = s.fp.VR κ := by
          simp only [hlllDown, colswap]; rw [if_pos trivial]
        rw [this]
        exact h2.col.vr k (by omega)

end Fl
end HPLLL
