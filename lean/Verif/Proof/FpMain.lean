import Verif.Proof.FpLoop
import Verif.Proof.HlllExit
/-! Invariant of the main loop in an arbitrary arithmetic, and what is known on return. -/

namespace HPLLL
open Spec

namespace Fl

variable {F : Type} {o : FPOps F}

/-- The tests which the first `κ` columns have passed hold of the current data. -/
def TestsUpTo (o : FPOps F) (n : Nat) (δ : F) (size : Prop) (κ : Nat) (B : Mat Int) (V R : Mat F) :
    Prop :=
  ∀ k, 1 ≤ k → k < κ → (size → FpSized o n k (fvec o n B) R) ∧
    FpLovasz o n k δ (fvec o n B) V R

theorem TestsUpTo.congr {n : Nat} {δ : F} {size size' : Prop} {κ : Nat} {B B' : Mat Int}
    {V V' R R' : Mat F} (h : TestsUpTo o n δ size κ B V R) (hs : size' → size)
    (hB : ∀ k < κ, B' k = B k) (hV : ∀ k, k + 1 < κ → V' k = V k)
    (hR : ∀ k < κ, ∀ i, i ≤ k → i ≠ κ - 1 ∨ k ≠ κ - 1 → R' k i = R k i) :
    TestsUpTo o n δ size' κ B' V' R' := by
  intro k h1 h2
  obtain ⟨a, b⟩ := h k h1 h2
  have hb : fvec o n B' k = fvec o n B k := by unfold fvec; rw [hB k h2]
  refine ⟨fun hsz => ?_, ?_⟩
  · unfold FpSized at a ⊢
    rw [hb]
    rcases a (hs hsz) with a | a
    · left; intro i hi
      rw [hR k h2 i (by omega) (by omega), hR i (by omega) i (by omega) (by omega)]; exact a i hi
    · right; intro i hi
      rw [hR k h2 i (by omega) (by omega), hR i (by omega) i (by omega) (by omega)]; exact a i hi
  · unfold FpLovasz at b ⊢
    rw [hb, fapp_congrV n V V' k (fun j hj => hV j (by omega)),
      hR k h2 (k - 1) (by omega) (by omega), hR (k - 1) (by omega) (k - 1) (by omega) (by omega)]
    exact b

structure FInv (o : FPOps F) (n d : Nat) (A : Mat Int) (track : Prop) (δ : F) (h : HState F) :
    Prop where
  inv : LInv n d A track h.s
  pos : 0 < h.kappa
  kd : h.kappa ≤ max d 1
  head : Head o n d h.s.str h.s.B h.s.fp h.kappa
  tests : h.kappa ≠ 1 → TestsUpTo o n δ (h.s.seysenFlag < 1) h.kappa h.s.B h.s.fp.V h.s.fp.R

/-- What one iteration guarantees. -/
def StepOK (o : FPOps F) (n d : Nat) (A : Mat Int) (track : Prop) (δ : F) (h : HState F) :
    HStep F → Prop
  | .diverge => True
  | .fail _ => True
  | .next h' => FInv o n d A track δ h' ∧ SameCfg h.s h'.s

theorem newt_eq (hz : ZeroLaws o) {n d κ : Nat} {s : Lat F} (hκ : 0 < κ) (hκd : κ < d)
    (hg : Geom n d s.str) (hs : Sup n d s.str s.B) (h : Post o n d κ s) :
    newt o s.str κ s.fp =
      o.add (o.mul (fnorm o n κ (fapp o n s.fp.V κ (fvec o n s.B κ)))
          (fnorm o n κ (fapp o n s.fp.V κ (fvec o n s.B κ))))
        (o.mul (s.fp.R κ (κ - 1)) (s.fp.R κ (κ - 1))) := by
  obtain ⟨h1, h2⟩ := h
  have hd := hg.diag κ hκd
  have hl := hg.le κ hκd
  unfold newt
  simp only []
  have e1 : fpNorm o (getcol s.fp.R κ κ) (nmaxOf s.str κ - κ) =
      fnorm o n κ (fapp o n s.fp.V κ (fvec o n s.B κ)) := by
    unfold fpNorm fnorm
    congr 1
    rw [fdot_trunc hz.addmul hl hd _ _ (fapp_zero hz.submul s.fp.V _ κ (h1.qr.vz hg hκd) (by
      intro r hr hrn
      simp only [fvec, if_pos hrn, hs κ hκd r hr hrn, hz.ofZ])),
      fdot_congr2 (o := o) _ (s.fp.R κ) (fun r _ hr => (h2.r r (by omega)).symm)]
    rfl
  rw [e1]

theorem prep_frame {κ : Nat} {s : Lat F} (hκ1 : κ ≠ 1) :
    (hlllPrep o κ s).fp.R = s.fp.R ∧ (hlllPrep o κ s).fp.V = s.fp.V := by
  unfold hlllPrep
  rw [if_neg hκ1]
  exact ⟨rfl, rfl⟩

theorem FInv.step (hz : ZeroLaws o) {n d : Nat} {A : Mat Int} {track : Prop} {δ : F} {h : HState F}
    (hA : FullColumnRank (toMatrix n d A)) (hE : FInv o n d A track δ h) (hκd : h.kappa < d)
    (fuel : Nat) : StepOK o n d A track δ h (hlllStep o fuel δ h) := by
  have hκ := hE.pos
  have hM := hE.head.prep hz hκ hκd hE.inv.hn hE.inv.hd (hE.inv.geom hA) hE.inv.sup
  have hzp := hlllPrep_zs o h.kappa h.s
  have hI1 := hE.inv.zsteps hκd hzp
  have hpf := hzp.frame
  unfold hlllStep
  simp only []
  cases hr : hlllReduce o fuel h.kappa (hlllPrep o h.kappa h.s) with
  | none => simp only [StepOK]
  | some r =>
    obtain ⟨flag, s⟩ := r
    obtain ⟨hP, hf, hsr⟩ := hlllReduce_spec hz hκ hκd hA fuel _ _ _ hI1 hM hr
    have hzs : ZSteps h.kappa h.s s := hzp.trans (hlllReduce_zs o hκ fuel _ _ _ hr)
    have hfr := hzs.frame
    have hI : LInv n d A track s := hE.inv.zsteps hκd hzs
    have hg := hI.geom hA
    have hred : TestsUpTo o n δ (s.seysenFlag < 1) h.kappa s.B s.fp.V s.fp.R := by
      intro k hk1 hk2
      have hne : h.kappa ≠ 1 := by omega
      obtain ⟨e1, e2⟩ := prep_frame (o := o) (s := h.s) hne
      refine (hE.tests hne).congr (V' := s.fp.V) (R' := s.fp.R) (B' := s.B)
        (size' := s.seysenFlag < 1) (by rw [hfr.seysenFlag]; exact id)
        (fun k hk => hfr.Bcol k (by omega)) (fun k _ => by rw [hf.V, e2]) ?_ k hk1 hk2
      intro k hk i _ _
      rw [hf.R k (by omega), e1]
    simp only []
    split
    · simp only [StepOK]
    · rename_i hfl
      set s1 : Lat F :=
        { s with
          nblov := s.nblov + 1
          ub := s.ub || !(decide (h.kappa < s.d ∧ h.kappa < s.n ∧ nmaxOf s.str h.kappa ≤ s.n)) }
        with hs1
      have hI1' : LInv n d A track s1 := hI.congr rfl rfl rfl rfl rfl rfl rfl rfl
      have hP1 : Post o n d h.kappa s1 := hP
      have hcfg : SameCfg h.s s1 :=
        ⟨hfr.n, hfr.d, hfr.transf, hfr.kappaMax, hfr.nblovMax, hfr.numS, hfr.parThr,
          hfr.seysenFlag, hfr.fastLong, hfr.verboseDepth⟩
      split
      · rename_i hle
        rw [newt_eq hz hκ hκd hg hI.sup hP] at hle
        obtain ⟨hh, vf⟩ := Post.up (s := s1) hz hκ hκd hI.hn hg hI.sup hP1
        split
        · simp only [StepOK]
        · refine ⟨⟨?_, ?_, ?_, hh, ?_⟩, ?_⟩
          · exact hI1'.congr rfl rfl rfl rfl rfl rfl rfl rfl
          · show 0 < h.kappa + 1; omega
          · show h.kappa + 1 ≤ max d 1; omega
          · intro _
            show TestsUpTo o n δ (s.seysenFlag < 1) (h.kappa + 1) s.B (s1.hhV o h.kappa).fp.V
              (s1.hhV o h.kappa).fp.R
            have h2 : TestsUpTo o n δ (s.seysenFlag < 1) (h.kappa + 1) s.B s.fp.V s.fp.R := by
              intro k hk1 hk2
              by_cases hkκ : k = h.kappa
              · subst hkκ
                exact ⟨fun hsf => hsr (by rw [hpf.seysenFlag, ← hfr.seysenFlag]; exact hsf) hfl, hle⟩
              · exact hred k hk1 (by omega)
            refine h2.congr id (fun _ _ => rfl) (fun k hk => vf.V k (by omega)) ?_
            intro k hk i hik hor
            by_cases hkκ : k = h.kappa
            · subst hkκ
              exact vf.Rκ i (by omega)
            · rw [vf.R k hkκ]
          · exact ⟨hfr.n, hfr.d, hfr.transf, hfr.kappaMax, hfr.nblovMax, hfr.numS, hfr.parThr,
              hfr.seysenFlag, hfr.fastLong, hfr.verboseDepth⟩
      · refine ⟨⟨?_, ?_, ?_, ?_, ?_⟩, ?_⟩
        · exact hI1'.down hκd hκ
        · show 0 < max (h.kappa - 1) 1; omega
        · show max (h.kappa - 1) 1 ≤ max d 1; omega
        · exact hP1.down hκ hκd hg hI.sup
        · intro _ k hk1 hk2
          have hk2 : k < max (h.kappa - 1) 1 := hk2
          have hred' : TestsUpTo o n δ (s.seysenFlag < 1) (h.kappa - 1) s.B s.fp.V s.fp.R :=
            fun k h1 h2 => hred k h1 (by omega)
          refine hred'.congr (B' := (hlllDown h.kappa s1).B) (V' := s.fp.V) (R' := s.fp.R) id ?_
            (fun _ _ => rfl) (fun _ _ _ _ _ => rfl) k hk1 (by omega)
          intro j hj
          simp only [hlllDown, colswap]
          rw [if_neg (by omega), if_neg (by omega)]
        · exact hcfg.trans' (down_cfg _ _)

theorem FInv.init {n d : Nat} {A : Mat Int} {track : Prop} {δ : F} {s : Lat F}
    (hI : LInv n d A track s)
    (hz : ∀ c < d, ∀ r, nmaxOf s.str c ≤ r → r < n → s.fp.Bfp c r = o.zero) :
    FInv o n d A track δ (hlllInit o s) := by
  have hd := hI.hd
  constructor
  · exact hI.congr rfl rfl rfl rfl rfl rfl rfl rfl
  · show 0 < 1; omega
  · show 1 ≤ max d 1; omega
  · constructor
    · exact hz
    · intro c hc hk
      have hk : (if c < s.d then false else s.fp.colKept c) = true := hk
      rw [if_pos (by omega)] at hk; simp at hk
    · intro c hc hcd
      show (if c < s.d then 0 else s.fp.descendu c) = 0
      rw [if_pos (by omega)]
    · intro h; exact absurd rfl h
  · intro h; exact absurd rfl h

theorem FInv.loop (hz : ZeroLaws o) {n d : Nat} {A : Mat Int} {track : Prop} {δ : F}
    (hA : FullColumnRank (toMatrix n d A)) : ∀ (fuel : Nat) (h : HState F), FInv o n d A track δ h →
    h.s.kappaMax = d → ∀ s', hlllLoop o δ fuel h = some (0, s') → s'.nblov < s'.nblovMax →
    ∃ h', FInv o n d A track δ h' ∧ h'.s = s' ∧ d ≤ h'.kappa := by
  intro fuel
  induction fuel with
  | zero => intro h _ _ s' h2; simp [hlllLoop] at h2
  | succ fuel ih =>
    intro h hE hkm s' hl hb
    simp only [hlllLoop] at hl
    split at hl
    · have hκd : h.kappa < d := by omega
      have hst := hE.step hz hA hκd (fuel + 1)
      cases hs : hlllStep o (fuel + 1) δ h with
      | diverge => rw [hs] at hl; simp at hl
      | fail s => rw [hs] at hl; simp at hl
      | next h1 =>
        rw [hs] at hl hst
        exact ih h1 hst.1 (by rw [hst.2.kappaMax, hkm]) s' hl hb
    · rename_i hc
      simp only [Option.some.injEq, Prod.mk.injEq, true_and] at hl
      subst hl
      refine ⟨h, hE, rfl, ?_⟩
      rw [hkm] at hc
      by_contra hlt
      exact hc ⟨by omega, hb⟩

/-- From the internal form to the specification. -/
theorem FQR.spec (hz : ZeroLaws o) {n d : Nat} {str : Nat → Int} {B : Mat Int} {V R : Mat F}
    (hg : Geom n d str) (hs : Sup n d str B) (h : FQR o n str B V R d) :
    IsFpQR o n d (fvec o n B) V R := by
  constructor
  · intro k hk i hi; exact (h k hk).up i hi
  · intro k hk; exact (h k hk).diag
  · intro k hk; exact (h k hk).vdiag
  · intro k hk r hr hrn hnz
    by_cases hrm : r < nmaxOf str k
    · exact (h k hk).vlow r hr hrm
    · rw [(h k hk).vzero r (by omega) hrn]
      have : fapp o n V k (fvec o n B k) r = o.zero := by
        refine fapp_zero hz.submul V _ k ((h.mono hk.le).vz hg hk) ?_ r (by omega) hrn
        intro r hr hrn
        simp only [fvec, if_pos hrn, hs k hk r hr hrn, hz.ofZ]
      rw [this, hz.div _ hnz]

end Fl
end HPLLL
