import Verif.Proof.FpHh
import Verif.Proof.ExactLoop
/-! Invariants of a run in an arbitrary arithmetic: the cached floating point data is what a
computation from the integer columns gives. -/

namespace HPLLL
open Spec

namespace Fl

variable {F : Type} {o : FPOps F}

/-- Structurally zero entries. -/
def Sup (n d : Nat) (str : Nat → Int) (B : Mat Int) : Prop :=
  ∀ j < d, ∀ r, nmaxOf str j ≤ r → r < n → B j r = 0

theorem _root_.HPLLL.LInv.sup {n d : Nat} {A : Mat Int} {track : Prop} {s : Lat F}
    (h : LInv n d A track s) : Sup n d s.str s.B := by
  intro j hj r hr hrn
  exact h.supp j hj r hrn (by unfold nmaxOf at hr; omega)

/-- The first `κ` columns of the factorisation. -/
def FQR (o : FPOps F) (n : Nat) (str : Nat → Int) (B : Mat Int) (V R : Mat F) (κ : Nat) : Prop :=
  ∀ k < κ, HvCol o n (nmaxOf str k) k (fapp o n V k (fvec o n B k)) (V k) (R k)

theorem FQR.congr {n : Nat} {str str' : Nat → Int} {B B' : Mat Int} {V V' R R' : Mat F} {κ : Nat}
    (h : FQR o n str B V R κ) (hs : ∀ k < κ, str' k = str k) (hB : ∀ k < κ, B' k = B k)
    (hV : ∀ k < κ, V' k = V k) (hR : ∀ k < κ, R' k = R k) : FQR o n str' B' V' R' κ := by
  intro k hk
  have e1 : nmaxOf str' k = nmaxOf str k := by unfold nmaxOf; rw [hs k hk]
  have e2 : fvec o n B' k = fvec o n B k := by unfold fvec; rw [hB k hk]
  rw [e1, e2, fapp_congrV n V V' k (fun j hj => hV j (by omega)), hV k hk, hR k hk]
  exact h k hk

theorem FQR.mono {n : Nat} {str : Nat → Int} {B : Mat Int} {V R : Mat F} {κ κ' : Nat}
    (h : FQR o n str B V R κ) (hk : κ' ≤ κ) : FQR o n str B V R κ' :=
  fun k hk' => h k (by omega)

/-- Everything that is not about column `κ`. -/
structure Oth (o : FPOps F) (n d : Nat) (str : Nat → Int) (B : Mat Int) (p : FPart F) (κ : Nat) : Prop where
  qr : FQR o n str B p.V p.R κ
  bz : ∀ c < d, ∀ r, nmaxOf str c ≤ r → r < n → p.Bfp c r = o.zero
  kb : ∀ c < d, c ≠ κ → p.colKept c = true → (∀ r < n, p.Bfp c r = fvec o n B c r) ∧
    p.normB2 c = fdot o n 0 (fvec o n B c) (fvec o n B c) ∧ 0 ≤ p.kappamin c
  lo : ∀ c < κ, p.colKept c = true ∧ p.kappamin c = c ∧
    ∀ k < c, p.VR c k = vprod o n p.V k (fvec o n B c)
  hi : ∀ c, κ < c → c < d → p.colKept c = true → p.kappamin c ≤ κ ∧
    ∀ k : Nat, (k : Int) < p.kappamin c → p.VR c k = vprod o n p.V k (fvec o n B c)
  de : ∀ c, κ < c → c < d → p.descendu c = 0

theorem Oth.congr {n d : Nat} {str : Nat → Int} {B B' : Mat Int} {p p' : FPart F} {κ : Nat}
    (h : Oth o n d str B p κ) (hB : ∀ c, c ≠ κ → B' c = B c) (f : HhFrame κ p p')
    (hz : κ < d → ∀ r, nmaxOf str κ ≤ r → r < n → p'.Bfp κ r = o.zero) : Oth o n d str B' p' κ := by
  have hbv : ∀ c, c ≠ κ → fvec o n B' c = fvec o n B c := by
    intro c hc; unfold fvec; rw [hB c hc]
  constructor
  · exact h.qr.congr (fun _ _ => rfl) (fun k hk => hB k (by omega)) (fun k _ => by rw [f.V])
      (fun k hk => f.R k (by omega))
  · intro c hc r hr hrn
    by_cases hcκ : c = κ
    · subst hcκ; exact hz hc r hr hrn
    · rw [f.Bfp c hcκ]; exact h.bz c hc r hr hrn
  · intro c hc hcκ
    rw [f.colKept c hcκ, f.Bfp c hcκ, f.normB2 c hcκ, f.kappamin c hcκ, hbv c hcκ]
    exact h.kb c hc hcκ
  · intro c hc
    have hcκ : c ≠ κ := by omega
    rw [f.colKept c hcκ, f.kappamin c hcκ, f.VR c hcκ, hbv c hcκ, f.V]
    exact h.lo c hc
  · intro c hc hcd
    have hcκ : c ≠ κ := by omega
    rw [f.colKept c hcκ, f.kappamin c hcκ, f.VR c hcκ, hbv c hcκ, f.V]
    exact h.hi c hc hcd
  · intro c hc hcd; rw [f.descendu]; exact h.de c hc hcd

/-- Before `householder_r(κ)`. -/
def Mid (o : FPOps F) (n d : Nat) (κ : Nat) (s : Lat F) : Prop :=
  Oth o n d s.str s.B s.fp κ ∧
    (s.fp.colKept κ = true → ColPre o n (nmaxOf s.str κ) κ s.fp (fvec o n s.B κ))

/-- After `householder_r(κ)`. -/
def Post (o : FPOps F) (n d : Nat) (κ : Nat) (s : Lat F) : Prop :=
  Oth o n d s.str s.B s.fp κ ∧ ColPost o n (nmaxOf s.str κ) κ s.fp (fvec o n s.B κ)

structure HeadFull (o : FPOps F) (n d : Nat) (str : Nat → Int) (B : Mat Int) (p : FPart F) (κ : Nat) : Prop where
  qr : FQR o n str B p.V p.R κ
  lo : ∀ c < κ, p.colKept c = true ∧ p.kappamin c = c ∧
    ∀ k < c, p.VR c k = vprod o n p.V k (fvec o n B c)
  hi : ∀ c, κ ≤ c → c < d → p.colKept c = true →
    ∀ k : Nat, (k : Int) < p.kappamin c → k < κ → p.VR c k = vprod o n p.V k (fvec o n B c)
  kκ : κ < d → p.colKept κ = true → p.kappamin κ ≤ κ
  skip : κ < d → p.colKept κ = true → 1 ≤ p.descendu κ → p.descendu κ < κ →
    ColSt o n (nmaxOf str κ) κ p (fvec o n B κ) κ

structure Head (o : FPOps F) (n d : Nat) (str : Nat → Int) (B : Mat Int) (p : FPart F) (κ : Nat) : Prop where
  bz : ∀ c < d, ∀ r, nmaxOf str c ≤ r → r < n → p.Bfp c r = o.zero
  kb : ∀ c < d, p.colKept c = true → (∀ r < n, p.Bfp c r = fvec o n B c r) ∧
    p.normB2 c = fdot o n 0 (fvec o n B c) (fvec o n B c) ∧ 0 ≤ p.kappamin c
  de : ∀ c, κ < c → c < d → p.descendu c = 0
  full : κ ≠ 1 → HeadFull o n d str B p κ


theorem FQR.vz {n : Nat} {d : Nat} {str : Nat → Int} {B : Mat Int} {V R : Mat F} {κ : Nat}
    (h : FQR o n str B V R κ) (hg : Geom n d str) (hκd : κ < d) :
    ∀ k < κ, ∀ r, nmaxOf str κ ≤ r → r < n → V k r = o.zero :=
  fun k hk r hr hrn => (h k hk).vzero r (le_trans (hg.mono k κ (by omega) hκd) hr) hrn

theorem Mid.hhR (hz : ZeroLaws o) {n d κ : Nat} {s : Lat F} (hκ : 0 < κ) (hκd : κ < d)
    (hg : Geom n d s.str) (hs : Sup n d s.str s.B) (h : Mid o n d κ s) :
    Post o n d κ (s.hhR o κ) ∧ HhFrame κ s.fp (s.hhR o κ).fp := by
  obtain ⟨h1, h2⟩ := h
  obtain ⟨a, b⟩ := householderR_spec hz s.str s.B s.fp hκ (hg.diag κ hκd) (hg.le κ hκd)
    (h1.qr.vz hg hκd) (h1.bz κ hκd) (hs κ hκd) h2
  refine ⟨⟨h1.congr (fun _ _ => rfl) b ?_, a⟩, b⟩
  intro _ r hr hrn
  have := a.bfp r hrn
  rw [show (s.hhR o κ).fp = householderR o s.str s.B κ s.fp from rfl, this]
  simp only [fvec]
  rw [if_pos hrn, hs κ hκd r hr hrn, hz.ofZ]

theorem hhFrame_rfl (κ : Nat) (p : FPart F) : HhFrame κ p p :=
  ⟨rfl, fun _ _ => rfl, fun _ _ => rfl, fun _ _ => rfl, fun _ _ => rfl, fun _ _ => rfl,
    fun _ _ => rfl, rfl⟩

theorem hhFrame_trans {κ : Nat} {p q r : FPart F} (a : HhFrame κ p q) (b : HhFrame κ q r) :
    HhFrame κ p r :=
  ⟨b.V.trans a.V, fun c hc => (b.R c hc).trans (a.R c hc),
    fun c hc => (b.Bfp c hc).trans (a.Bfp c hc), fun c hc => (b.normB2 c hc).trans (a.normB2 c hc),
    fun c hc => (b.colKept c hc).trans (a.colKept c hc),
    fun c hc => (b.kappamin c hc).trans (a.kappamin c hc),
    fun c hc => (b.VR c hc).trans (a.VR c hc), b.descendu.trans a.descendu⟩

theorem redR_ne (κ i len : Nat) (x : F) (R : Mat F) (c : Nat) (hc : c ≠ κ) :
    redR o κ i len x R c = R c := by
  unfold redR
  simp only [faddcol, fsubcol, fsubmulcol]
  split
  · split
    · rw [setCol_ne _ _ hc]
    · split <;> rw [setCol_ne _ _ hc]
  · rw [setCol_ne _ _ hc]

/-! ### one pass of the size reduction -/

/-- What a pass does to the floating point data; `m` coefficients. -/
structure PassFr (o : FPOps F) (κ m : Nat) (s s' : Lat F) (b b' : Bool) : Prop where
  fp : ∃ R x, s'.fp = { s.fp with R := R, x := x } ∧ ∀ c, c ≠ κ → R c = s.fp.R c
  none : b' = false → b = false ∧ s'.B = s.B ∧ s'.fp.R = s.fp.R ∧
    ∀ i < m, o.isZero (o.rnd (o.div (s.fp.R κ i) (s.fp.R i i))) = true

theorem sizeUpdateLoop_fr (κ : Nat) : ∀ (m : Nat) (q : Lat F × Bool),
    PassFr o κ m q.1 (sizeUpdateLoop o κ m q).1 q.2 (sizeUpdateLoop o κ m q).2 := by
  intro m
  induction m with
  | zero =>
    intro q
    exact ⟨⟨q.1.fp.R, q.1.fp.x, rfl, fun _ _ => rfl⟩, fun h => ⟨h, rfl, rfl, fun i hi => by omega⟩⟩
  | succ m ih =>
    intro q
    simp only [sizeUpdateLoop]
    obtain ⟨⟨R, x, e, f⟩, g⟩ := ih (sizeUpdateStep o κ m q)
    have hst : (∃ R x, (sizeUpdateStep o κ m q).1.fp = { q.1.fp with R := R, x := x } ∧
        ∀ c, c ≠ κ → R c = q.1.fp.R c) ∧
        ((sizeUpdateStep o κ m q).2 = false → q.2 = false ∧ (sizeUpdateStep o κ m q).1.B = q.1.B ∧
          (sizeUpdateStep o κ m q).1.fp.R = q.1.fp.R ∧
          o.isZero (o.rnd (o.div (q.1.fp.R κ m) (q.1.fp.R m m))) = true) := by
      unfold sizeUpdateStep
      simp only []
      split
      · rename_i h0
        exact ⟨⟨q.1.fp.R, _, rfl, fun _ _ => rfl⟩, fun h => ⟨h, rfl, rfl, h0⟩⟩
      · refine ⟨⟨_, _, rfl, fun c hc => redR_ne _ _ _ _ _ c hc⟩, by simp⟩
    obtain ⟨⟨R1, x1, e1, f1⟩, g1⟩ := hst
    refine ⟨⟨R, x, ?_, ?_⟩, ?_⟩
    · rw [e, e1]
    · intro c hc; rw [f c hc, e1]; exact f1 c hc
    · intro h
      obtain ⟨a1, a2, a3, a4⟩ := g h
      obtain ⟨b1, b2, b3, b4⟩ := g1 a1
      refine ⟨b1, a2.trans b2, a3.trans b3, ?_⟩
      intro i hi
      by_cases him : i = m
      · subst him; exact b4
      · have := a4 i (by omega)
        rw [b3] at this
        exact this

theorem sizeUpdateRLoop_fr (κ : Nat) : ∀ (m : Nat) (q : Lat F × (Nat → F) × Bool),
    PassFr o κ m q.1 (sizeUpdateRLoop o κ m q).1 q.2.2 (sizeUpdateRLoop o κ m q).2.2 ∧
    (sizeUpdateRLoop o κ m q).1.B = q.1.B ∧
    (∀ i, m ≤ i → (sizeUpdateRLoop o κ m q).2.1 i = q.2.1 i) ∧
    ((sizeUpdateRLoop o κ m q).2.2 = false →
      ∀ i < m, o.isZero ((sizeUpdateRLoop o κ m q).2.1 i) = true) := by
  intro m
  induction m with
  | zero =>
    intro q
    exact ⟨⟨⟨q.1.fp.R, q.1.fp.x, rfl, fun _ _ => rfl⟩,
      fun h => ⟨h, rfl, rfl, fun i hi => by omega⟩⟩, rfl, fun _ _ => rfl, fun _ i hi => by omega⟩
  | succ m ih =>
    intro q
    simp only [sizeUpdateRLoop]
    obtain ⟨⟨⟨R, x, e, f⟩, g⟩, hB, hi, hz⟩ := ih (sizeUpdateRStep o κ m q)
    have hst : (∃ R x, (sizeUpdateRStep o κ m q).1.fp = { q.1.fp with R := R, x := x } ∧
        ∀ c, c ≠ κ → R c = q.1.fp.R c) ∧ (sizeUpdateRStep o κ m q).1.B = q.1.B ∧
        (∀ i, i ≠ m → (sizeUpdateRStep o κ m q).2.1 i = q.2.1 i) ∧
        ((sizeUpdateRStep o κ m q).2.2 = false → q.2.2 = false ∧
          (sizeUpdateRStep o κ m q).1.fp.R = q.1.fp.R ∧
          o.isZero (o.rnd (o.div (q.1.fp.R κ m) (q.1.fp.R m m))) = true ∧
          o.isZero ((sizeUpdateRStep o κ m q).2.1 m) = true) := by
      unfold sizeUpdateRStep
      simp only []
      split
      · rename_i h0
        refine ⟨⟨q.1.fp.R, _, rfl, fun _ _ => rfl⟩, rfl, fun i hi => setAt_ne _ _ hi,
          fun h => ⟨h, rfl, h0, ?_⟩⟩
        simp only [setAt_same]; exact h0
      · refine ⟨⟨_, _, rfl, fun c hc => redR_ne _ _ _ _ _ c hc⟩, rfl,
          fun i hi => setAt_ne _ _ hi, by simp⟩
    obtain ⟨⟨R1, x1, e1, f1⟩, gB, gi, g1⟩ := hst
    refine ⟨⟨⟨R, x, ?_, ?_⟩, ?_⟩, hB.trans gB, ?_, ?_⟩
    · rw [e, e1]
    · intro c hc; rw [f c hc, e1]; exact f1 c hc
    · intro h
      obtain ⟨a1, a2, a3, a4⟩ := g h
      obtain ⟨b1, b3, b4, b5⟩ := g1 a1
      refine ⟨b1, a2.trans gB, a3.trans b3, ?_⟩
      intro i hi
      by_cases him : i = m
      · subst him; exact b4
      · have := a4 i (by omega)
        rw [b3] at this
        exact this
    · intro i hi'
      rw [hi i (by omega), gi i (by omega)]
    · intro h i hi'
      obtain ⟨a1, _⟩ := g h
      obtain ⟨b1, b3, b4, b5⟩ := g1 a1
      by_cases him : i = m
      · subst him; rw [hi i (by omega)]; exact b5
      · exact hz h i (by omega)

theorem psizeThread_zero (fl : Bool) (κ : Nat) (vx : Nat → F) (ib nl : Nat) : ∀ (m : Nat)
    (M : Mat Int), (∀ i < m, o.isZero (vx i) = true) → psizeThread o fl κ vx ib nl m M = M := by
  intro m
  induction m with
  | zero => intro M _; rfl
  | succ m ih =>
    intro M h
    simp only [psizeThread]
    rw [ih _ (fun i hi => h i (by omega))]
    unfold predZ
    rw [if_pos (h m (by omega))]

theorem psizeUpdateB_zero' (fl : Bool) (κ m : Nat) (str : Nat → Int) (vx : Nat → F) (S : Nat)
    (M : Mat Int) (h : ∀ i < m, o.isZero (vx i) = true) :
    psizeUpdateB o fl κ m str vx S M = M := by
  unfold psizeUpdateB
  simp only []
  generalize List.range S = l
  induction l generalizing M with
  | nil => rfl
  | cons a l ih =>
    rw [List.foldl_cons, psizeThread_zero fl κ vx _ _ m M h]
    exact ih M

theorem hsizePass_fr (κ m : Nat) (s : Lat F) :
    PassFr o κ m s (hsizePass o κ m s).1 false (hsizePass o κ m s).2 := by
  unfold hsizePass
  split
  · exact sizeUpdateLoop_fr κ m (s, false)
  · simp only []
    obtain ⟨⟨h1, h2⟩, h3, h4, h5⟩ := sizeUpdateRLoop_fr (o := o) κ m (s, fun _ => o.zero, false)
    refine ⟨h1, fun h => ?_⟩
    obtain ⟨a1, a2, a3, a4⟩ := h2 h
    refine ⟨rfl, ?_, a3, a4⟩
    show psizeUpdateB o _ κ m _ _ _ _ = _
    rw [psizeUpdateB_zero' _ _ _ _ _ _ _ (h5 h), a2]

/-! ### reduction of one column -/

/-- Size test of column `κ` in the current state. -/
def SizedAt (o : FPOps F) (n κ : Nat) (s : Lat F) : Prop := FpSized o n κ (fvec o n s.B) s.fp.R

/-- After some change of column `κ` only. -/
theorem Post.invalidate {n d κ : Nat} {s t : Lat F} (hκd : κ < d) (hP : Post o n d κ s)
    (hfr : Frame κ s t) (R : Mat F) (x : F)
    (e : t.fp = { s.fp with R := R, x := x }) (f : ∀ c, c ≠ κ → R c = s.fp.R c) :
    Mid o n d κ { t with fp := { t.fp with colKept := setAt t.fp.colKept κ false } } ∧
    HhFrame κ s.fp { t.fp with colKept := setAt t.fp.colKept κ false } := by
  have hf : HhFrame κ s.fp { t.fp with colKept := setAt t.fp.colKept κ false } := by
    rw [e]
    refine ⟨rfl, f, fun _ _ => rfl, fun _ _ => rfl, ?_, fun _ _ => rfl, fun _ _ => rfl, rfl⟩
    intro c hc; simp only []; rw [setAt_ne _ _ hc]
  refine ⟨⟨?_, ?_⟩, hf⟩
  · show Oth o n d t.str t.B _ κ
    rw [hfr.str]
    refine hP.1.congr (fun c hc => hfr.Bcol c hc) hf ?_
    intro _; rw [e]; exact hP.1.bz κ hκd
  · intro hk
    have : setAt t.fp.colKept κ false κ = true := hk
    rw [setAt_same] at this; simp at this

theorem hsizeLoop_spec (hz : ZeroLaws o) {n d κ : Nat} {A : Mat Int} {track : Prop}
    (hκ : 0 < κ) (hκd : κ < d) (hA : FullColumnRank (toMatrix n d A)) (fuel : Nat) :
    ∀ (b : Bool) (s s' : Lat F) (st : Int), LInv n d A track s → Post o n d κ s →
    hsizeLoop o κ κ fuel b s = some (st, s') →
    Post o n d κ s' ∧ HhFrame κ s.fp s'.fp ∧ (st ≠ -1 → SizedAt o n κ s') := by
  induction fuel with
  | zero => intro b s s' st _ _ h; simp [hsizeLoop] at h
  | succ fuel ih =>
    intro b s s' st hI hP h
    obtain ⟨⟨R, x, e, f⟩, g⟩ := hsizePass_fr (o := o) κ κ s
    have hzs := hsizePass_zs o (κ := κ) (le_refl κ) s
    have hIq := hI.zsteps hκd hzs
    simp only [hsizeLoop] at h
    split at h
    · obtain ⟨hM, hf1⟩ := hP.invalidate hκd hzs.frame R x e f
      set t : Lat F := { (hsizePass o κ κ s).1 with
        fp := { (hsizePass o κ κ s).1.fp with
          colKept := setAt (hsizePass o κ κ s).1.fp.colKept κ false } } with ht
      have hIt : LInv n d A track t := hIq.congr rfl rfl rfl rfl rfl rfl rfl rfl
      obtain ⟨hp, hf2⟩ := hM.hhR hz hκ hκd (hIt.geom hA) hIt.sup
      have hf := hhFrame_trans hf1 hf2
      split at h
      · split at h
        · simp only [Option.some.injEq, Prod.mk.injEq] at h
          obtain ⟨rfl, rfl⟩ := h
          exact ⟨hp, hf, fun h => absurd rfl h⟩
        · rename_i hsa
          simp only [Option.some.injEq, Prod.mk.injEq] at h
          obtain ⟨rfl, rfl⟩ := h
          refine ⟨hp, hf, fun _ => ?_⟩
          right
          intro i hi
          rw [Bool.not_eq_true] at hsa
          unfold sizeAnomaly at hsa
          rw [List.any_eq_false] at hsa
          have := hsa i (by simpa using hi)
          rw [Bool.not_eq_true] at this
          rw [hp.2.nrm] at this
          exact this
      · obtain ⟨a, b, c⟩ := ih _ (t.hhR o κ) _ _ (hIt.congr rfl rfl rfl rfl rfl rfl rfl rfl) hp h
        exact ⟨a, hhFrame_trans hf b, c⟩
    · rename_i hq
      simp only [Option.some.injEq, Prod.mk.injEq] at h
      obtain ⟨rfl, rfl⟩ := h
      obtain ⟨_, c1, c2, c3⟩ := g (by simpa using hq)
      have hf : HhFrame κ s.fp (hsizePass o κ κ s).1.fp := by
        rw [e]
        exact ⟨rfl, f, fun _ _ => rfl, fun _ _ => rfl, fun _ _ => rfl, fun _ _ => rfl,
          fun _ _ => rfl, rfl⟩
      refine ⟨⟨?_, ?_⟩, hf, fun _ => ?_⟩
      · rw [hzs.frame.str, c1]
        refine hP.1.congr (fun _ _ => rfl) hf ?_
        intro _; rw [e]; exact hP.1.bz κ hκd
      · rw [hzs.frame.str, c1]
        have c2' : R = s.fp.R := by rw [← c2, e]
        rw [e]
        have h2 := hP.2
        exact ⟨h2.nmk, h2.kept, h2.bfp, h2.nrm, h2.kmin, ⟨h2.col.rk, h2.col.vr⟩, by
          simp only []; rw [c2']; exact h2.r⟩
      · left
        rw [c2]; exact c3

theorem seysenLoop_spec (hz : ZeroLaws o) {n d κ : Nat} {A : Mat Int} {track : Prop}
    (hκ : 0 < κ) (hκd : κ < d) (hA : FullColumnRank (toMatrix n d A)) (fuel : Nat) :
    ∀ (n0 n1 : Bool) (tmp vx : Nat → F) (s s' : Lat F) (st : Int), LInv n d A track s →
    Post o n d κ s → seysenLoop o κ fuel n0 n1 tmp vx s = some (st, s') →
    st = 0 ∧ Post o n d κ s' ∧ HhFrame κ s.fp s'.fp := by
  induction fuel with
  | zero => intro n0 n1 tmp vx s s' st _ _ h; simp [seysenLoop] at h
  | succ fuel ih =>
    intro n0 n1 tmp vx s s' st hI hP h
    simp only [seysenLoop] at h
    set q := seysenBlocks o κ (κ + 1) 1 0
      { s := s, tmpcol := tmp, vectx := vx, somedone := false } with hq
    obtain ⟨⟨R, e, f⟩, g⟩ := seysenBlocks_frame (o := o) κ (κ + 1) 1 0
      { s := s, tmpcol := tmp, vectx := vx, somedone := false }
    rw [← hq] at e g
    simp only [] at e f g
    have hzs : ZSteps κ s q.s := seysenBlocks_zs o (κ := κ) (κ + 1) 1 0
      { s := s, tmpcol := tmp, vectx := vx, somedone := false }
    have hIq := hI.zsteps hκd hzs
    split at h
    · obtain ⟨hM, hf1⟩ := hP.invalidate hκd hzs.frame R s.fp.x e f
      set t : Lat F := { q.s with fp := { q.s.fp with colKept := setAt q.s.fp.colKept κ false } }
        with ht
      have hIt : LInv n d A track t := hIq.congr rfl rfl rfl rfl rfl rfl rfl rfl
      obtain ⟨hp, hf2⟩ := hM.hhR hz hκ hκd (hIt.geom hA) hIt.sup
      have hf := hhFrame_trans hf1 hf2
      split at h
      · obtain ⟨a, b, c⟩ := ih _ _ _ _ (t.hhR o κ) _ _ (hIt.congr rfl rfl rfl rfl rfl rfl rfl rfl) hp h
        exact ⟨a, b, hhFrame_trans hf c⟩
      · simp only [Option.some.injEq, Prod.mk.injEq] at h
        obtain ⟨rfl, rfl⟩ := h
        exact ⟨rfl, hp, hf⟩
    · rename_i hd
      simp only [Option.some.injEq, Prod.mk.injEq] at h
      obtain ⟨rfl, rfl⟩ := h
      have := (g (by simpa using hd)).1
      rw [this]
      exact ⟨rfl, hP, hhFrame_rfl κ _⟩

/-- Reduction of a column, both methods. -/
theorem hlllReduce_spec (hz : ZeroLaws o) {n d κ : Nat} {A : Mat Int} {track : Prop}
    (hκ : 0 < κ) (hκd : κ < d) (hA : FullColumnRank (toMatrix n d A)) (fuel : Nat) (s s' : Lat F)
    (st : Int) (hI : LInv n d A track s) (hM : Mid o n d κ s)
    (h : hlllReduce o fuel κ s = some (st, s')) :
    Post o n d κ s' ∧ HhFrame κ s.fp s'.fp ∧ (s.seysenFlag < 1 → st ≠ -1 → SizedAt o n κ s') := by
  obtain ⟨hpost, hf⟩ := hM.hhR hz hκ hκd (hI.geom hA) hI.sup
  have hI' : LInv n d A track (s.hhR o κ) := hI.congr rfl rfl rfl rfl rfl rfl rfl rfl
  unfold hlllReduce at h
  split at h
  · unfold hsizereduce at h
    simp only [Nat.lt_irrefl, if_false] at h
    rw [show κ - 1 + 1 = κ by omega] at h
    obtain ⟨a, b, c⟩ := hsizeLoop_spec hz hκ hκd hA fuel _ (s.hhR o κ) _ _ hI' hpost h
    exact ⟨a, hhFrame_trans hf b, fun _ => c⟩
  · rename_i hfl
    unfold seysenreduce at h
    obtain ⟨_, a, b⟩ := seysenLoop_spec hz hκ hκd hA fuel _ _ _ _ _ _ _ hI' hpost h
    exact ⟨a, hhFrame_trans hf b, fun h => absurd h hfl⟩

end Fl
end HPLLL
