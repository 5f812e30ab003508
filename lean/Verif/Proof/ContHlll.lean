import Verif.Proof.ContLoop
import Verif.Proof.HlllExit
/-! The run over a lawful matrix class follows the run of the plain model: main loop. -/

namespace HPLLL
open Spec

variable {F M W G : Type}

namespace Sim

variable {o : FPOps F} {c : Cont F M W G} {n : Nat} {E : Bool → F → F → Prop}

structure HeadFull (c : Cont F M W G) (n d : Nat) (str : Nat → Int) (P : FPartG F M) (p : FPart F)
    (κ : Nat) : Prop where
  v : ∀ k < κ, ∀ r, k ≤ r → r < n → c.get P.V k r = p.V k r
  r : ∀ k < κ, ∀ i ≤ k, c.get P.R k i = p.R k i
  lo : ∀ j < κ, p.colKept j = true ∧ p.kappamin j = j ∧ ∀ k < j, P.VR j k = p.VR j k
  hi : ∀ j, κ ≤ j → j < d → p.colKept j = true →
    ∀ k : ℕ, (k : ℤ) < p.kappamin j → k < κ → P.VR j k = p.VR j k
  kκ : κ < d → p.colKept κ = true → p.kappamin κ ≤ κ
  skip : κ < d → p.colKept κ = true → 1 ≤ p.descendu κ → p.descendu κ < κ →
    ColSt c (nmaxOf str κ) κ P p κ

structure Head (c : Cont F M W G) (E : Bool → F → F → Prop) (n d : Nat) (str : Nat → Int) (P : FPartG F M)
    (p : FPart F) (κ : Nat) : Prop where
  bz : ∀ j < d, ∀ r, nmaxOf str j ≤ r → r < n → E true (c.get P.Bfp j r) (p.Bfp j r)
  be : ∀ j < d, ∀ r < n, E false (c.get P.Bfp j r) (p.Bfp j r)
  ck : ∀ j < d, P.colKept j = p.colKept j
  kb : ∀ j < d, p.colKept j = true → (∀ r < n, c.get P.Bfp j r = p.Bfp j r) ∧
    P.normB2 j = p.normB2 j ∧ P.kappamin j = p.kappamin j ∧ 0 ≤ p.kappamin j
  de : ∀ j < d, P.descendu j = p.descendu j
  de0 : ∀ j, κ < j → j < d → p.descendu j = 0
  full : κ ≠ 1 → HeadFull c n d str P p κ

/-- Relation before and after `hlll`. -/
structure Rel (c : Cont F M W G) (E : Bool → F → F → Prop) (n d : Nat) (S : LatG F M) (s : Lat F) : Prop where
  same : Same S s
  bz : ∀ j < d, ∀ r, nmaxOf s.str j ≤ r → r < n → E true (c.get S.fp.Bfp j r) (s.fp.Bfp j r)
  be : ∀ j < d, ∀ r < n, E false (c.get S.fp.Bfp j r) (s.fp.Bfp j r)

/-- Relation at the head of the main loop. -/
structure HRel (c : Cont F M W G) (E : Bool → F → F → Prop) (n d : Nat) (H : Gen.HState F M) (h : HState F) :
    Prop where
  kappa : H.kappa = h.kappa
  prevkappa : H.prevkappa = h.prevkappa
  prevR : H.prevR = h.prevR
  same : Same H.s h.s
  head : Head c E n d h.s.str H.s.fp h.s.fp h.kappa

theorem hhV_z {κ : Nat} {S : LatG F M} {s : Lat F} (hz : S.z = s.z)
    (hn : S.fp.nmaxkappa = s.fp.nmaxkappa) : (Gen.hhV o c κ S).z = (s.hhV o κ).z := by
  simp only [Gen.hhV, Lat.hhV, Lat.z, Gen.hhVIdx, hhVIdx]
  rw [hz, hn]; rfl

theorem hhR_z0 {S : LatG F M} {s : Lat F} (hz : S.z = s.z) :
    (Gen.hhR c 0 S).z = (s.hhR o 0).z := by
  have e : Gen.hhRIdx S.z.n S.z.d S.z.str 0 S.fp = hhRIdx s.n s.d s.str 0 s.fp := by
    rw [hz]
    unfold Gen.hhRIdx hhRIdx
    simp only [decide_true, Bool.true_or]
    rfl
  simp only [Gen.hhR, Lat.hhR, Lat.z]
  rw [e, hz]; rfl

theorem Head.prep (hc : c.Lawful o n E) {d κ : Nat} {S : LatG F M} {s : Lat F} (hκ : 0 < κ)
    (hκd : κ < d) (hn : s.n = n) (hd : s.d = d) (hg : Geom n d s.str) (hs : Same S s)
    (h : Head c E n d s.str S.fp s.fp κ) :
    Mid c E n d κ (Gen.hlllPrep o c κ S) (hlllPrep o κ s) := by
  have hSd : S.z.d = d := by rw [hs.z]; exact hd
  unfold Gen.hlllPrep hlllPrep
  by_cases h1 : κ = 1
  · subst h1
    simp only [if_true]
    obtain ⟨T, hT⟩ : ∃ T : LatG F M, T = { S with fp := { S.fp with
        kappamin := fun i => if i < S.z.d then min (S.fp.kappamin i) 0 else S.fp.kappamin i } } :=
      ⟨_, rfl⟩
    obtain ⟨t, ht⟩ : ∃ t : Lat F, t = { s with fp := { s.fp with
        kappamin := fun i => if i < s.d then min (s.fp.kappamin i) 0 else s.fp.kappamin i } } :=
      ⟨_, rfl⟩
    have hTz : T.z = t.z := by rw [hT, ht]; exact hs.z
    rw [← hT, ← ht]
    have htstr : t.str = s.str := by rw [ht]
    obtain ⟨a, f, b, e, x1, x2⟩ := householderR_zero_sim hc t.str t.B (P := T.fp) (p := t.fp)
      (by rw [htstr]; exact hg.diag 0 (by omega)) (by rw [htstr]; exact hg.le 0 (by omega))
      (by rw [hT, ht]; exact h.bz 0 (by omega)) (by rw [hT, ht]; exact h.ck 0 (by omega))
      (by rw [hT, ht]; exact fun hk => ⟨(h.kb 0 (by omega) hk).1, (h.kb 0 (by omega) hk).2.1⟩)
    obtain ⟨P1, hP1⟩ : ∃ P1, P1 = Gen.householderR c t.str t.B 0 T.fp := ⟨_, rfl⟩
    obtain ⟨p1, hp1⟩ : ∃ p1, p1 = householderR o t.str t.B 0 t.fp := ⟨_, rfl⟩
    rw [← hP1, ← hp1] at a f b e
    rw [← hP1] at x1
    rw [← hp1] at x2
    rw [htstr] at a b
    obtain ⟨V, R, v, r, eP, ep, fr, hV, hR⟩ := householderV_sim hc (P := P1) (p := p1) (κ := 0)
      (hg.diag 0 (by omega)) (hg.le 0 (by omega)) a.nP a.np a.r
    have hSfp : (Gen.hhV o c 0 (Gen.hhR c 0 T)).fp = { P1 with V := V, R := R } := by
      show Gen.householderV o c T.z.n 0 (Gen.householderR c T.z.str T.z.B 0 T.fp) = _
      rw [hTz]
      show Gen.householderV o c t.n 0 (Gen.householderR c t.str t.B 0 T.fp) = _
      rw [← hP1, show t.n = n by rw [ht]; exact hn]; exact eP
    have hsfp : (Lat.hhV o 0 (t.hhR o 0)).fp = { p1 with V := v, R := r } := by
      show householderV o t.n 0 (householderR o t.str t.B 0 t.fp) = _
      rw [← hp1, show t.n = n by rw [ht]; exact hn]; exact ep
    have hmin : ∀ j, j < d → j ≠ 0 → s.fp.colKept j = true → p1.kappamin j = 0 ∧ P1.kappamin j = 0 := by
      intro j hj hj0 hk
      rw [f.pkappamin j hj0, f.kappamin j hj0, hT, ht]
      simp only [hd, hSd, if_pos hj]
      obtain ⟨_, _, h3, h4⟩ := h.kb j hj hk
      omega
    have hkept : ∀ j, j ≠ 0 → p1.colKept j = s.fp.colKept j := by
      intro j hj; rw [f.pcolKept j hj, ht]
    refine ⟨⟨?_, ?_⟩, ?_, ?_⟩
    · refine hhV_z (hhR_z0 hTz) ?_
      show (Gen.householderR c T.z.str T.z.B 0 T.fp).nmaxkappa = _
      rw [hTz]
      show (Gen.householderR c t.str t.B 0 T.fp).nmaxkappa = (householderR o t.str t.B 0 t.fp).nmaxkappa
      rw [← hP1, ← hp1, a.nP, a.np]
    · intro g1 g2
      rw [hSfp, hsfp]
      show P1.x = p1.x
      rw [x1, x2, hT, ht]
      rw [ht] at g1 g2
      exact hs.x g1 g2
    · rw [hSfp, hsfp]
      show Oth c E n d t.str _ _ 1
      rw [htstr]
      constructor
      · intro k hk i h3 h4
        have : k = 0 := by omega
        subst this; exact hV i h3 h4
      · intro k hk i hi
        have : k = 0 := by omega
        subst this; exact hR i (by have := hg.diag 0 (by omega); omega)
      · intro j hj i h3 h4
        by_cases hj0 : j = 0
        · subst hj0; exact b i h3 h4
        · show E true (c.get P1.Bfp j i) (p1.Bfp j i)
          rw [f.Bfp j hj0, f.pBfp j hj0, hT, ht]; exact h.bz j hj i h3 h4
      · intro j hj i h4
        by_cases hj0 : j = 0
        · subst hj0
          show E false (c.get P1.Bfp 0 i) (p1.Bfp 0 i)
          rw [a.bfp i h4]; exact hc.e_refl _
        · show E false (c.get P1.Bfp j i) (p1.Bfp j i)
          rw [f.Bfp j hj0, f.pBfp j hj0, hT, ht]; exact h.be j hj i h4
      · intro j hj
        by_cases hj0 : j = 0
        · subst hj0; exact e
        · show P1.colKept j = p1.colKept j
          rw [f.colKept j hj0, f.pcolKept j hj0, hT, ht]; exact h.ck j hj
      · intro j hj hj1 hk
        by_cases hj0 : j = 0
        · subst hj0
          exact ⟨a.bfp, a.nrm, a.kmin, by show 0 ≤ p1.kappamin 0; rw [a.kminκ]; simp⟩
        · have hk' : s.fp.colKept j = true := by rw [← hkept j hj0]; exact hk
          obtain ⟨g1, g2⟩ := hmin j hj hj0 hk'
          refine ⟨?_, ?_, ?_, ?_⟩
          · intro i hi
            show c.get P1.Bfp j i = p1.Bfp j i
            rw [f.Bfp j hj0, f.pBfp j hj0, hT, ht]; exact (h.kb j hj hk').1 i hi
          · show P1.normB2 j = p1.normB2 j
            rw [f.normB2 j hj0, f.pnormB2 j hj0, hT, ht]; exact (h.kb j hj hk').2.1
          · show P1.kappamin j = p1.kappamin j
            rw [g1, g2]
          · show 0 ≤ p1.kappamin j
            rw [g1]
      · intro j hj
        have : j = 0 := by omega
        subst this
        exact ⟨a.kept, a.kminκ, fun k hk => by omega⟩
      · intro j hj hjd hk
        have hk' : s.fp.colKept j = true := by rw [← hkept j (by omega)]; exact hk
        obtain ⟨g1, g2⟩ := hmin j hjd (by omega) hk'
        refine ⟨by show p1.kappamin j ≤ _; rw [g1]; simp, fun k hk2 => ?_⟩
        have hk2 : (k : ℤ) < p1.kappamin j := hk2
        rw [g1] at hk2; omega
      · intro j hj
        show P1.descendu j = p1.descendu j
        rw [f.descendu, f.pdescendu, hT, ht]; exact h.de j hj
      · intro j hj hjd
        show p1.descendu j = 0
        rw [f.pdescendu, ht]; exact h.de0 j hj hjd
    · rw [hSfp, hsfp]
      show p1.colKept 1 = true → ColPre c n (nmaxOf t.str 1) 1 { P1 with V := V, R := R } { p1 with V := v, R := r }
      rw [htstr]
      intro hk
      have hk' : s.fp.colKept 1 = true := by rw [← hkept 1 (by omega)]; exact hk
      obtain ⟨g1, g2⟩ := hmin 1 hκd (by omega) hk'
      refine ⟨?_, ?_, ?_, ?_, ?_, ?_, ?_⟩
      · intro i hi
        show c.get P1.Bfp 1 i = p1.Bfp 1 i
        rw [f.Bfp 1 (by omega), f.pBfp 1 (by omega), hT, ht]; exact (h.kb 1 hκd hk').1 i hi
      · show P1.normB2 1 = p1.normB2 1
        rw [f.normB2 1 (by omega), f.pnormB2 1 (by omega), hT, ht]; exact (h.kb 1 hκd hk').2.1
      · show P1.kappamin 1 = p1.kappamin 1
        rw [g1, g2]
      · show 0 ≤ p1.kappamin 1; rw [g1]
      · show p1.kappamin 1 ≤ _; rw [g1]; simp
      · intro k hk2
        have hk2 : (k : ℤ) < p1.kappamin 1 := hk2
        rw [g1] at hk2; omega
      · intro h1 h2; omega
  · rw [if_neg h1, if_neg h1]
    have hf := h.full h1
    refine ⟨⟨hs.z, hs.x⟩, ?_, ?_⟩
    · show Oth c E n d s.str _ _ κ
      refine ⟨hf.v, hf.r, h.bz, h.be, h.ck, ?_, ?_, ?_, h.de, h.de0⟩
      · intro j hj hjκ hk
        obtain ⟨a, b, e, g⟩ := h.kb j hj hk
        refine ⟨a, b, ?_, ?_⟩
        · simp only [hd, hSd, e]
        · simp only []
          split
          · exact le_min g (by omega)
          · exact g
      · intro j hj
        obtain ⟨a, b, e⟩ := hf.lo j hj
        refine ⟨a, ?_, e⟩
        simp only []
        rw [if_neg (by omega)]; exact b
      · intro j hj hjd hk
        simp only [hd]
        rw [if_pos ⟨hj, hjd⟩]
        refine ⟨min_le_right _ _, fun k hk2 => ?_⟩
        exact hf.hi j hj.le hjd hk k (lt_of_lt_of_le hk2 (min_le_left _ _))
          (by have := lt_of_lt_of_le hk2 (min_le_right _ _); omega)
    · intro hk
      obtain ⟨a, b, e, g⟩ := h.kb κ hκd hk
      have hkm : (if κ < κ ∧ κ < s.d then min (s.fp.kappamin κ) (κ : ℤ) else s.fp.kappamin κ)
          = s.fp.kappamin κ := if_neg (by omega)
      have hkM : (if κ < κ ∧ κ < S.z.d then min (S.fp.kappamin κ) (κ : ℤ) else S.fp.kappamin κ)
          = S.fp.kappamin κ := if_neg (by omega)
      refine ⟨a, b, ?_, ?_, ?_, ?_, ?_⟩
      · show (if κ < κ ∧ κ < S.z.d then _ else _) = (if κ < κ ∧ κ < s.d then _ else _)
        rw [hkm, hkM]; exact e
      · show 0 ≤ (if κ < κ ∧ κ < s.d then _ else _); rw [hkm]; exact g
      · show (if κ < κ ∧ κ < s.d then _ else _) ≤ _; rw [hkm]; exact hf.kκ hκd hk
      · intro k hk2
        have hk2 : (k : ℤ) < (if κ < κ ∧ κ < s.d then min (s.fp.kappamin κ) (κ : ℤ)
          else s.fp.kappamin κ) := hk2
        rw [hkm] at hk2
        exact hf.hi κ (le_refl _) hκd hk k hk2 (by have := hf.kκ hκd hk; omega)
      · intro h3 h4
        exact ⟨(hf.skip hκd hk h3 h4).rk, (hf.skip hκd hk h3 h4).vr⟩

theorem lovtest_sim (δ : F) {d κ : Nat} {S : LatG F M} {s : Lat F} (hκ : 0 < κ)
    (h : Post c E n d κ S s) : Gen.lovtest o c δ κ S.fp = lovtest o δ κ s.fp := by
  unfold Gen.lovtest lovtest
  rw [h.oth.r (κ - 1) (by omega) (κ - 1) (le_refl _)]

theorem newt_sim (hc : c.Lawful o n E) {d κ : Nat} {S : LatG F M} {s : Lat F} (hκ : 0 < κ)
    (hκd : κ < d) (hg : Geom n d s.str) (h : Post c E n d κ S s) :
    Gen.newt o c s.str κ S.fp = newt o s.str κ s.fp := by
  have := hg.diag κ hκd
  unfold Gen.newt newt
  simp only []
  rw [h.post.r (κ - 1) (by omega), hc.norm _ _ _ (by omega)]
  rw [fpNorm_congr o (v' := getcol s.fp.R κ κ) (by omega)]
  intro i hi
  rw [hc.getcol]
  exact h.post.r _ (by omega)

theorem Post.up (hc : c.Lawful o n E) {d κ : Nat} {S : LatG F M} {s : Lat F} (hκ : 0 < κ) (hκd : κ < d)
    (hn : s.n = n) (hg : Geom n d s.str) (h : Post c E n d κ S s) :
    Same (Gen.hhV o c κ S) (s.hhV o κ) ∧ Oth c E n d s.str (Gen.hhV o c κ S).fp (s.hhV o κ).fp κ ∧
    c.get (Gen.hhV o c κ S).fp.R κ κ = (s.hhV o κ).fp.R κ κ ∧
    Same (Gen.hlllUp κ (Gen.hhV o c κ S)) (hlllUp κ (s.hhV o κ)) ∧
    Head c E n d s.str (Gen.hlllUp κ (Gen.hhV o c κ S)).fp (hlllUp κ (s.hhV o κ)).fp (κ + 1) := by
  obtain ⟨hs, h1, h2⟩ := h
  have hdg := hg.diag κ hκd
  obtain ⟨V, R, v, r, eP, ep, fr, hV, hR⟩ := householderV_sim hc (P := S.fp) (p := s.fp) (κ := κ)
      hdg (hg.le κ hκd) h2.nP h2.np h2.r
  have hSfp : (Gen.hhV o c κ S).fp = { S.fp with V := V, R := R } := by
    show Gen.householderV o c S.z.n κ S.fp = _
    rw [hs.z]
    show Gen.householderV o c s.n κ S.fp = _
    rw [hn]; exact eP
  have hsfp : (s.hhV o κ).fp = { s.fp with V := v, R := r } := by
    show householderV o s.n κ s.fp = _
    rw [hn]; exact ep
  have hsame : Same (Gen.hhV o c κ S) (s.hhV o κ) := by
    refine ⟨hhV_z hs.z (by rw [h2.nP, h2.np]), ?_⟩
    rw [hSfp, hsfp]; exact hs.x
  have hUP : (Gen.hlllUp κ (Gen.hhV o c κ S)).fp = { S.fp with
      V := V, R := R
      descendu := if κ = 1 then setAt (setAt S.fp.descendu κ 0) 0 0 else setAt S.fp.descendu κ 0 } := by
    unfold Gen.hlllUp; simp only [hSfp]
  have hup : (hlllUp κ (s.hhV o κ)).fp = { s.fp with
      V := v, R := r
      descendu := if κ = 1 then setAt (setAt s.fp.descendu κ 0) 0 0 else setAt s.fp.descendu κ 0 } := by
    unfold hlllUp; simp only [hsfp]
  have hde : ∀ j < d, (if κ = 1 then setAt (setAt S.fp.descendu κ 0) 0 0 else setAt S.fp.descendu κ 0) j =
      (if κ = 1 then setAt (setAt s.fp.descendu κ 0) 0 0 else setAt s.fp.descendu κ 0) j := by
    intro j hj
    have e := h1.de j hj
    split
    · by_cases hj0 : j = 0
      · subst hj0; rw [setAt_same, setAt_same]
      · rw [setAt_ne _ _ hj0, setAt_ne _ _ hj0]
        by_cases hjκ : j = κ
        · subst hjκ; rw [setAt_same, setAt_same]
        · rw [setAt_ne _ _ hjκ, setAt_ne _ _ hjκ, e]
    · by_cases hjκ : j = κ
      · subst hjκ; rw [setAt_same, setAt_same]
      · rw [setAt_ne _ _ hjκ, setAt_ne _ _ hjκ, e]
  have hde0 : ∀ j, κ + 1 ≤ j → j < d →
      (if κ = 1 then setAt (setAt s.fp.descendu κ 0) 0 0 else setAt s.fp.descendu κ 0) j = 0 := by
    intro j hj hjd
    have e := h1.de0 j (by omega) hjd
    split
    · rw [setAt_ne _ _ (by omega), setAt_ne _ _ (by omega), e]
    · rw [setAt_ne _ _ (by omega), e]
  refine ⟨hsame, ?_, ?_, ⟨hsame.z, ?_⟩, ?_⟩
  · rw [hSfp, hsfp]
    refine ⟨?_, ?_, h1.bz, h1.be, h1.ck, h1.kb, h1.lo, h1.hi, h1.de, h1.de0⟩
    · intro k hk i g1 g2
      obtain ⟨e1, e2, _⟩ := fr k (by omega) i
      show c.get V k i = v k i
      rw [e1, e2]; exact h1.v k hk i g1 g2
    · intro k hk i hi
      obtain ⟨_, _, e1, e2⟩ := fr k (by omega) i
      show c.get R k i = r k i
      rw [e1, e2]; exact h1.r k hk i hi
  · rw [hSfp, hsfp]; exact hR κ hdg
  · rw [hUP, hup]; exact hs.x
  · rw [hUP, hup]
    refine ⟨h1.bz, h1.be, h1.ck, ?_, hde, fun j hj => hde0 j (by omega), fun _ => ⟨?_, ?_, ?_, ?_, ?_, ?_⟩⟩
    · intro j hj hk
      by_cases hjκ : j = κ
      · subst hjκ
        exact ⟨h2.bfp, h2.nrm, h2.kmin, by show 0 ≤ s.fp.kappamin j; rw [h2.kminκ]; omega⟩
      · exact h1.kb j hj hjκ hk
    · intro k hk i g1 g2
      show c.get V k i = v k i
      by_cases hkκ : k = κ
      · subst hkκ; exact hV i g1 g2
      · obtain ⟨e1, e2, _⟩ := fr k hkκ i
        rw [e1, e2]; exact h1.v k (by omega) i g1 g2
    · intro k hk i hi
      show c.get R k i = r k i
      by_cases hkκ : k = κ
      · subst hkκ; exact hR i (by omega)
      · obtain ⟨_, _, e1, e2⟩ := fr k hkκ i
        rw [e1, e2]; exact h1.r k (by omega) i hi
    · intro j hj
      by_cases hjκ : j = κ
      · subst hjκ
        exact ⟨h2.kept, h2.kminκ, fun k hk => h2.col.vr k hk⟩
      · exact h1.lo j (by omega)
    · intro j hj hjd hk k hk2 hk3
      exact (h1.hi j (by omega) hjd hk).2 k hk2
    · intro hd hk
      have := (h1.hi (κ + 1) (by omega) hd hk).1
      simp only []
      push_cast; omega
    · intro hd hk h3 h4
      exfalso
      simp only [] at h3
      rw [hde0 (κ + 1) (le_refl _) hd] at h3
      omega

theorem Post.down (hc : c.Lawful o n E) {d κ : Nat} {S : LatG F M} {s : Lat F} (hκ : 0 < κ) (hκd : κ < d)
    (hg : Geom n d s.str) (h : Post c E n d κ S s) :
    Same (Gen.hlllDown c κ S) (hlllDown κ s) ∧
    Head c E n d (hlllDown κ s).str (Gen.hlllDown c κ S).fp (hlllDown κ s).fp (max (κ - 1) 1) := by
  obtain ⟨hs, h1, h2⟩ := h
  have hlo := h1.lo (κ - 1) (by omega)
  have hkb1 := h1.kb (κ - 1) (by omega) (by omega) hlo.1
  have hne : κ ≠ κ - 1 := by omega
  have hBg : ∀ j i, c.get (Gen.hlllDown c κ S).fp.Bfp j i =
      c.get S.fp.Bfp (if j = κ - 1 then κ else if j = κ then κ - 1 else j) i :=
    fun j i => by
      simp only [Gen.hlllDown]
      rw [hc.colswap]
      split
      · rfl
      · split <;> rfl
  have hBp : ∀ j i, (hlllDown κ s).fp.Bfp j i =
      s.fp.Bfp (if j = κ - 1 then κ else if j = κ then κ - 1 else j) i := by
    intro j i
    simp only [hlllDown, colswap]
    split
    · rfl
    · split <;> rfl
  have hnm : ∀ j, j ≠ κ - 1 → nmaxOf (hlllDown κ s).str j = nmaxOf s.str j := by
    intro j hj
    unfold nmaxOf; simp only [hlllDown]; rw [setAt_ne _ _ hj]
  have hnm1 : nmaxOf (hlllDown κ s).str (κ - 1) = nmaxOf s.str κ := by
    unfold nmaxOf; simp only [hlllDown]; rw [setAt_same]
  refine ⟨⟨?_, hs.x⟩, ?_, ?_, h1.ck, ?_, ?_, ?_, ?_⟩
  · simp only [Gen.hlllDown, hlllDown, Lat.z]
    rw [hs.z]; rfl
  · intro j hj r hr hrn
    rw [hBg, hBp]
    by_cases c1 : j = κ - 1
    · subst c1
      rw [if_pos rfl]
      rw [hnm1] at hr
      exact h1.bz κ hκd r hr hrn
    · rw [if_neg c1]
      rw [hnm j c1] at hr
      by_cases c2 : j = κ
      · subst c2
        rw [if_pos rfl]
        exact h1.bz (j - 1) (by omega) r (le_trans (hg.mono (j - 1) j (by omega) hκd) hr) hrn
      · rw [if_neg c2]; exact h1.bz j hj r hr hrn
  · intro j hj r hrn
    rw [hBg, hBp]
    by_cases c1 : j = κ - 1
    · rw [if_pos c1]; exact h1.be κ hκd r hrn
    · rw [if_neg c1]
      by_cases c2 : j = κ
      · rw [if_pos c2]; exact h1.be (κ - 1) (by omega) r hrn
      · rw [if_neg c2]; exact h1.be j hj r hrn
  · intro j hj hk
    have hk : s.fp.colKept j = true := hk
    show (∀ r < n, c.get (Gen.hlllDown c κ S).fp.Bfp j r = (hlllDown κ s).fp.Bfp j r) ∧
      setAt (setAt S.fp.normB2 κ (S.fp.normB2 (κ - 1))) (κ - 1) (S.fp.normB2 κ) j =
      setAt (setAt s.fp.normB2 κ (s.fp.normB2 (κ - 1))) (κ - 1) (s.fp.normB2 κ) j ∧
      S.fp.kappamin j = s.fp.kappamin j ∧ 0 ≤ s.fp.kappamin j
    have hBe : ∀ r, c.get (Gen.hlllDown c κ S).fp.Bfp j r = (hlllDown κ s).fp.Bfp j r ↔
      c.get S.fp.Bfp (if j = κ - 1 then κ else if j = κ then κ - 1 else j) r =
      s.fp.Bfp (if j = κ - 1 then κ else if j = κ then κ - 1 else j) r := by
      intro r; rw [hBg, hBp]
    simp only [hBe]
    by_cases c1 : j = κ - 1
    · subst c1
      rw [if_pos rfl, setAt_same, setAt_same]
      exact ⟨h2.bfp, h2.nrm, hkb1.2.2⟩
    · rw [if_neg c1, setAt_ne _ _ c1, setAt_ne _ _ c1]
      by_cases c2 : j = κ
      · subst c2
        rw [if_pos rfl, setAt_same, setAt_same]
        exact ⟨hkb1.1, hkb1.2.1, h2.kmin, by rw [h2.kminκ]; omega⟩
      · rw [if_neg c2, setAt_ne _ _ c2, setAt_ne _ _ c2]
        exact h1.kb j hj c2 hk
  · intro j hj
    simp only [Gen.hlllDown, hlllDown]
    by_cases c2 : j = κ
    · subst c2; rw [setAt_same, setAt_same]
    · rw [setAt_ne _ _ c2, setAt_ne _ _ c2]
      split
      · by_cases c0 : j = 0
        · subst c0; rw [setAt_same, setAt_same]
        · rw [setAt_ne _ _ c0, setAt_ne _ _ c0]; exact h1.de j hj
      · by_cases c0 : j = κ - 1
        · subst c0; rw [setAt_same, setAt_same, h1.de κ hκd]
        · rw [setAt_ne _ _ c0, setAt_ne _ _ c0]; exact h1.de j hj
  · intro j hj hjd
    simp only [hlllDown]
    by_cases c2 : j = κ
    · subst c2; rw [setAt_same]
    · rw [setAt_ne _ _ c2]
      split
      · rw [setAt_ne _ _ (by omega)]; exact h1.de0 j (by omega) hjd
      · rw [setAt_ne _ _ (by omega)]; exact h1.de0 j (by omega) hjd
  · intro hκ1
    have hκ2 : max (κ - 1) 1 = κ - 1 := by omega
    rw [hκ2]
    rw [hκ2] at hκ1
    refine ⟨?_, ?_, ?_, ?_, ?_, ?_⟩
    · intro k hk; exact h1.v k (by omega)
    · intro k hk; exact h1.r k (by omega)
    · intro j hj
      obtain ⟨a, b, e⟩ := h1.lo j (by omega)
      refine ⟨a, b, fun k hk => ?_⟩
      simp only [Gen.hlllDown, hlllDown, colswap]
      rw [if_neg (by omega), if_neg (by omega), if_neg (by omega), if_neg (by omega)]
      exact e k hk
    · intro j hj hjd hk k hk2 hk3
      simp only [Gen.hlllDown, hlllDown, colswap] at hk hk2 ⊢
      by_cases c1 : j = κ - 1
      · subst c1
        rw [if_pos rfl, if_pos rfl]
        exact h2.col.vr k (by omega)
      · rw [if_neg c1, if_neg c1]
        by_cases c2 : j = κ
        · subst c2
          rw [if_pos rfl, if_pos rfl]
          exact hlo.2.2 k hk3
        · rw [if_neg c2, if_neg c2]
          exact (h1.hi j (by omega) hjd hk).2 k hk2
    · intro _ _
      simp only [hlllDown]
      rw [hlo.2.1]
    · intro _ _ _ _
      rw [hnm1]
      constructor
      · intro k hk i hki hi
        exact h2.col.rk k (by omega) i hki hi
      · intro k hk
        simp only [Gen.hlllDown, hlllDown, colswap]
        rw [if_pos trivial, if_pos trivial]
        exact h2.col.vr k (by omega)

/-- Related outcomes of one iteration. -/
def StepRel (c : Cont F M W G) (E : Bool → F → F → Prop) (n d : Nat) : Gen.HStep F M → HStep F → Prop
  | .diverge, .diverge => True
  | .fail S, .fail s => Rel c E n d S s
  | .next H, .next h => HRel c E n d H h
  | _, _ => False

theorem hlllStep_sim (hc : c.Lawful o n E) {d : Nat} {A : Mat Int} {track : Prop}
    (hA : FullColumnRank (toMatrix n d A)) (fuel : Nat) (δ : F) (H : Gen.HState F M) (h : HState F)
    (hκ : 0 < h.kappa) (hκd : h.kappa < d) (hI : LInv n d A track h.s) (hr : HRel c E n d H h) :
    StepRel c E n d (Gen.hlllStep o c fuel δ H) (hlllStep o fuel δ h) := by
  obtain ⟨hk, hpk, hpr, hs, hh⟩ := hr
  unfold Gen.hlllStep hlllStep
  simp only []
  rw [hk, hpk, hpr]
  generalize h.kappa = κ at *
  have hmid := hh.prep hc hκ hκd hI.hn hI.hd (hI.geom hA) hs
  have hIp : LInv n d A track (hlllPrep o κ h.s) := hI.zsteps hκd (hlllPrep_zs o _ _)
  have hred := hlllReduce_sim hc hκ hκd hA fuel _ _ hIp hmid
  have hzs := fun st s' => hlllReduce_zs o hκ fuel (hlllPrep o κ h.s) st s'
  revert hred hzs
  generalize Gen.hlllReduce o c fuel κ (Gen.hlllPrep o c κ H.s) = X
  generalize hlllReduce o fuel κ (hlllPrep o κ h.s) = x
  intro hred hzs
  match X, x, hred with
  | none, none, _ => exact trivial
  | some (f, S), some (f', s), ⟨hf, hp⟩ =>
    subst hf
    have hIs : LInv n d A track s := hIp.zsteps hκd (hzs _ _ rfl)
    have hg := hIs.geom hA
    have hstr : S.z.str = s.str := by rw [hp.same.z]; rfl
    simp only []
    by_cases hfl : f = -1
    · rw [if_pos hfl, if_pos hfl]
      exact ⟨hp.same, hp.oth.bz, hp.oth.be⟩
    · rw [if_neg hfl, if_neg hfl]
      have hnt : Gen.newt o c S.z.str κ S.fp = newt o s.str κ s.fp := by
        rw [hstr]; exact newt_sim hc hκ hκd hg hp
      rw [lovtest_sim δ hκ hp, hnt]
      have hp2 : Post c E n d κ
          { S with z := { S.z with
              nblov := S.z.nblov + 1
              ub := S.z.ub || !(decide (κ < S.z.d ∧ κ < S.z.n ∧ nmaxOf S.z.str κ ≤ S.z.n)) } }
          { s with
              nblov := s.nblov + 1
              ub := s.ub || !(decide (κ < s.d ∧ κ < s.n ∧ nmaxOf s.str κ ≤ s.n)) } := by
        refine ⟨⟨?_, hp.same.x⟩, hp.oth, hp.post⟩
        simp only []
        rw [hp.same.z]
        rfl
      have hIs2 : LInv n d A track { s with
              nblov := s.nblov + 1
              ub := s.ub || !(decide (κ < s.d ∧ κ < s.n ∧ nmaxOf s.str κ ≤ s.n)) } :=
        hIs.congr rfl rfl rfl rfl rfl rfl rfl rfl
      by_cases hl : o.le (lovtest o δ κ s.fp) (newt o s.str κ s.fp) = true
      · rw [if_pos hl, if_pos hl]
        obtain ⟨u1, u2, u3, u4, u5⟩ := hp2.up hc hκ hκd hIs2.hn (hIs2.geom hA)
        simp only [] at u3 ⊢
        rw [u3]
        split
        · exact ⟨u1, u2.bz, u2.be⟩
        · exact ⟨rfl, rfl, rfl, u4, u5⟩
      · rw [if_neg hl, if_neg hl]
        obtain ⟨u1, u2⟩ := hp2.down hc hκ hκd (hIs2.geom hA)
        exact ⟨rfl, rfl, rfl, u1, u2⟩

theorem hlllLoop_sim (hc : c.Lawful o n E) {d : Nat} {A : Mat Int} {track : Prop}
    (hA : FullColumnRank (toMatrix n d A)) (δ : F) (fuel : Nat) :
    ∀ (H : Gen.HState F M) (h : HState F), 0 < h.kappa → h.s.kappaMax ≤ d → LInv n d A track h.s →
    HRel c E n d H h → ORel (Rel c E n d) (Gen.hlllLoop o c δ fuel H) (hlllLoop o δ fuel h) := by
  induction fuel with
  | zero => intro H h _ _ _ _; exact trivial
  | succ fuel ih =>
    intro H h hκ hkm hI hr
    have hcond : (H.kappa < H.s.z.kappaMax ∧ H.s.z.nblov < H.s.z.nblovMax) =
        (h.kappa < h.s.kappaMax ∧ h.s.nblov < h.s.nblovMax) := by
      rw [hr.kappa, hr.same.z]; rfl
    simp only [Gen.hlllLoop, hlllLoop, hcond]
    by_cases hlt : h.kappa < h.s.kappaMax ∧ h.s.nblov < h.s.nblovMax
    · rw [if_pos hlt, if_pos hlt]
      have hκd : h.kappa < d := by omega
      have hst := hlllStep_sim hc hA (fuel + 1) δ H h hκ hκd hI hr
      have hcs := hlllStep_cases o (fuel + 1) δ h hκ
      revert hst hcs
      generalize Gen.hlllStep o c (fuel + 1) δ H = X
      generalize hlllStep o (fuel + 1) δ h = x
      intro hst hcs
      match X, x, hst with
      | .diverge, .diverge, _ => exact trivial
      | .fail S, .fail s, hf => exact ⟨rfl, hf⟩
      | .next H', .next h', hn =>
        have hI1 : LInv n d A track { h.s with nblov := h.s.nblov + 1 } :=
          hI.congr rfl rfl rfl rfl rfl rfl rfl rfl
        simp only []
        rcases hcs with e | ⟨_, _, e⟩ | ⟨_, _, e⟩ | ⟨s, pr, hz, e⟩ | ⟨s, hz, e⟩
        · cases e
        · cases e
        · cases e
        · injection e with e
          subst e
          exact ih _ _ (by simp) (by rw [hz.frame.kappaMax]; exact hkm)
            (LInv.zsteps hκd hz hI1) hn
        · injection e with e
          subst e
          refine ih _ _ (by simp) (by show s.kappaMax ≤ d; rw [hz.frame.kappaMax]; exact hkm)
            (LInv.down hκd hκ (LInv.zsteps hκd hz hI1)) hn
    · rw [if_neg hlt, if_neg hlt]
      exact ⟨rfl, hr.same, hr.head.bz, hr.head.be⟩

theorem hlllInit_sim {d : Nat} {S : LatG F M} {s : Lat F} (hd : s.d = d)
    (h : Rel c E n d S s) : HRel c E n d (Gen.hlllInit o S) (hlllInit o s) := by
  have hSd : S.z.d = d := by rw [h.same.z]; exact hd
  refine ⟨rfl, rfl, rfl, ⟨h.same.z, h.same.x⟩, h.bz, h.be, ?_, ?_, ?_, ?_, fun h => absurd rfl h⟩
  · intro j hj
    simp only [Gen.hlllInit, hlllInit, hSd, hd, if_pos hj]
  · intro j hj hk
    simp only [hlllInit, hd, if_pos hj] at hk
    simp at hk
  · intro j hj
    simp only [Gen.hlllInit, hlllInit, hSd, hd, if_pos hj]
  · intro j _ hj
    simp only [hlllInit, hd, if_pos hj]

/-- `hlll` over a lawful matrix class follows `hlll` of the plain model. -/
theorem hlll_sim (hc : c.Lawful o n E) {d : Nat} {A : Mat Int} {track : Prop}
    (hA : FullColumnRank (toMatrix n d A)) (fuel : Nat) (δ : F) (verbose : Bool)
    (S : LatG F M) (s : Lat F) (hkm : s.kappaMax ≤ d) (hI : LInv n d A track s)
    (h : Rel c E n d S s) :
    ORel (Rel c E n d) (Gen.hlll o c fuel δ verbose S) (hlll o fuel δ verbose s) := by
  have h' : Rel c E n d
      (if verbose then { S with z := { S.z with verboseDepth := S.z.verboseDepth - 1 } } else S)
      (if verbose then { s with verboseDepth := s.verboseDepth - 1 } else s) := by
    cases verbose
    · exact h
    · refine ⟨⟨?_, h.same.x⟩, h.bz, h.be⟩
      simp only [if_true]
      rw [h.same.z]; rfl
  have hI' : LInv n d A track (if verbose then { s with verboseDepth := s.verboseDepth - 1 } else s) := by
    cases verbose
    · exact hI
    · exact hI.congr rfl rfl rfl rfl rfl rfl rfl rfl
  have hkm' : (if verbose then { s with verboseDepth := s.verboseDepth - 1 } else s).kappaMax ≤ d := by
    cases verbose <;> exact hkm
  have hl := hlllLoop_sim hc hA δ fuel _ _ (by simp [hlllInit]) hkm'
    (hI'.congr rfl rfl rfl rfl rfl rfl rfl rfl) (hlllInit_sim (o := o) hI'.hd h')
  unfold Gen.hlll hlll
  simp only []
  revert hl
  generalize Gen.hlllLoop o c δ fuel (Gen.hlllInit o _) = X
  generalize hlllLoop o δ fuel (hlllInit o _) = x
  intro hl
  match X, x, hl with
  | none, none, _ => exact trivial
  | some (f, S), some (f', s), ⟨hf, hp⟩ =>
    refine ⟨hf, ?_⟩
    cases verbose
    · exact hp
    · refine ⟨⟨?_, hp.same.x⟩, hp.bz, hp.be⟩
      simp only [if_true]
      rw [hp.same.z]; rfl

end Sim
end HPLLL
