import Verif.Model.Cont
import Verif.Proof.HlllExit
/-! What `hlll` needs of a floating point matrix class. -/

namespace HPLLL

variable {F M W G : Type}

/-- The methods compute the operations `o` on the rows they are asked to update; *nothing* is said
of the other rows of the target column, except that `setcol` from integers keeps the relation `E true` between them. -/
structure Cont.Lawful (c : Cont F M W G) (o : FPOps F) (n : Nat) (E : Bool → F → F → Prop) where
  /-- rows kept by `setcol` from integers are equal -/
  e_eq : ∀ a b, E true a b → a = b
  e_weak : ∀ a b, E true a b → E false a b
  e_refl : ∀ a, E false a a
  /-- entries of a column view -/
  wv : W → Nat → F
  /-- value of a raw number -/
  gv : G → F
  getcol : ∀ m j i r, wv (c.getcol m j i) r = c.get m j (i + r)
  getRaw : ∀ m j i, gv (c.getRaw m j i) = c.get m j i
  set_same : ∀ m j i x, i < n → c.get (c.set m j i x) j i = x
  set_row : ∀ m j i x r, r < n → r ≠ i → c.get (c.set m j i x) j r = c.get m j r
  set_col : ∀ m j i x j' r, j' ≠ j → c.get (c.set m j i x) j' r = c.get m j' r
  setcolZ_in : ∀ m j b l i, i < l → c.get (c.setcolZ m j b l) j i = o.ofZ (b i)
  setcolZ_out : ∀ m j b l i x, l ≤ i → E true (c.get m j i) x →
    E true (c.get (c.setcolZ m j b l) j i) x
  setcolZ_col : ∀ m j b l j' r, j' ≠ j → c.get (c.setcolZ m j b l) j' r = c.get m j' r
  setcolW_in : ∀ m j w l i, i < l → c.get (c.setcolW m j w l) j i = wv w i
  setcolW_col : ∀ m j w l j' r, j' ≠ j → c.get (c.setcolW m j w l) j' r = c.get m j' r
  setcolV_in : ∀ m j v l i, i < l → c.get (c.setcolV m j v l) j i = gv (v i)
  setcolV_col : ∀ m j v l j' r, j' ≠ j → c.get (c.setcolV m j v l) j' r = c.get m j' r
  fmasub_in : ∀ m j k w z a l i, k ≤ i → i < k + l →
    c.get (c.fmasub m j k w z a l) j i = o.submul (wv w (i - k)) (wv z (i - k)) a
  fmasub_col : ∀ m j k w z a l j' r, j' ≠ j → c.get (c.fmasub m j k w z a l) j' r = c.get m j' r
  div_in : ∀ m j k w a l i, k ≤ i → i < k + l →
    c.get (c.div m j k w a l) j i = o.div (wv w (i - k)) a
  div_col : ∀ m j k w a l j' r, j' ≠ j → c.get (c.div m j k w a l) j' r = c.get m j' r
  colswap : ∀ m j k j' r, c.get (c.colswap m j k) j' r =
    if j' = j then c.get m k r else if j' = k then c.get m j r else c.get m j' r
  addcol_in : ∀ m j k l i, j ≠ k → i < l →
    c.get (c.addcol m j k l) j i = o.add (c.get m j i) (c.get m k i)
  addcol_col : ∀ m j k l j' r, j' ≠ j → c.get (c.addcol m j k l) j' r = c.get m j' r
  subcol_in : ∀ m j k l i, j ≠ k → i < l →
    c.get (c.subcol m j k l) j i = o.sub (c.get m j i) (c.get m k i)
  subcol_col : ∀ m j k l j' r, j' ≠ j → c.get (c.subcol m j k l) j' r = c.get m j' r
  submulcol_in : ∀ m j k a l i, j ≠ k → i < l →
    c.get (c.submulcol m j k a l) j i = o.submul (c.get m j i) a (c.get m k i)
  submulcol_col : ∀ m j k a l j' r, j' ≠ j → c.get (c.submulcol m j k a l) j' r = c.get m j' r
  normSq : ∀ w l x, 0 < l → c.normSq w l x = HPLLL.fpNormSq o (wv w) l
  norm : ∀ w l x, 0 < l → c.norm w l x = HPLLL.fpNorm o (wv w) l
  scalarprod : ∀ v w l x, 0 < l → c.scalarprod v w l x = HPLLL.scalarprod o (wv v) (wv w) l

theorem scalarprod_congr (o : FPOps F) {v v' w w' : Nat → F} {l : Nat} (hl : 0 < l)
    (hv : ∀ i < l, v i = v' i) (hw : ∀ i < l, w i = w' i) :
    scalarprod o v w l = scalarprod o v' w' l := by
  unfold scalarprod
  rw [hv 0 hl, hw 0 hl]
  apply List.foldl_ext
  intro a b hb
  rw [List.mem_range] at hb
  rw [hv _ (by omega), hw _ (by omega)]

theorem fpNormSq_congr (o : FPOps F) {v v' : Nat → F} {l : Nat} (hl : 0 < l)
    (hv : ∀ i < l, v i = v' i) : fpNormSq o v l = fpNormSq o v' l :=
  scalarprod_congr o hl hv hv

theorem fpNorm_congr (o : FPOps F) {v v' : Nat → F} {l : Nat} (hl : 0 < l)
    (hv : ∀ i < l, v i = v' i) : fpNorm o v l = fpNorm o v' l := by
  unfold fpNorm; rw [fpNormSq_congr o hl hv]

namespace Gen

variable {o : FPOps F} {c : Cont F M W G} {n : Nat} {E : Bool → F → F → Prop}

/-! ### Frames -/

/-- `Rkept` and column `κ` of `VR` may change. -/
def GUpd (κ : Nat) (P P' : FPartG F M) : Prop :=
  ∃ Rk VR, P' = { P with Rkept := Rk, VR := VR } ∧ ∀ j, j ≠ κ → VR j = P.VR j

theorem GUpd.rfl' (κ : Nat) (P : FPartG F M) : GUpd κ P P := ⟨_, _, rfl, fun _ _ => rfl⟩

theorem GUpd.trans' {κ : Nat} {P Q R : FPartG F M} (a : GUpd κ P Q) (b : GUpd κ Q R) : GUpd κ P R := by
  obtain ⟨_, _, rfl, ha⟩ := a
  obtain ⟨_, V, rfl, hb⟩ := b
  exact ⟨_, V, rfl, fun j hj => (hb j hj).trans (ha j hj)⟩

theorem hhApply_upd (κ k : Nat) (P : FPartG F M) : GUpd κ P (hhApply c κ k P) :=
  ⟨_, P.VR, rfl, fun _ _ => rfl⟩

theorem hhCompute_upd (κ k : Nat) (P : FPartG F M) : GUpd κ P (hhCompute c κ k P) :=
  ⟨_, _, rfl, fun j hj => by simp only [setEntry]; rw [setCol_ne _ _ hj]⟩

theorem foldl_upd (κ : Nat) (f : FPartG F M → Nat → FPartG F M) (hf : ∀ p k, GUpd κ p (f p k))
    (l : List Nat) : ∀ P, GUpd κ P (l.foldl f P) := by
  induction l with
  | nil => intro P; exact .rfl' _ _
  | cons a l ih => intro P; exact (hf P a).trans' (ih _)

theorem hhComputeRange_upd (κ a m : Nat) (P : FPartG F M) : GUpd κ P (hhComputeRange c κ a m P) :=
  foldl_upd κ _ (fun p k => hhCompute_upd κ k p) _ P

theorem hhApplyRange_upd (κ a m : Nat) (P : FPartG F M) : GUpd κ P (hhApplyRange c κ a m P) :=
  foldl_upd κ _ (fun p k => hhApply_upd κ k p) _ P

theorem hhKept_upd (κ : Nat) (P : FPartG F M) : GUpd κ P (hhKept c κ P) := by
  unfold hhKept
  split
  · split
    · exact (hhCompute_upd κ 0 P).trans' (hhComputeRange_upd ..)
    · exact ((hhApply_upd κ 0 P).trans' (hhApplyRange_upd ..)).trans' (hhComputeRange_upd ..)
  · exact .rfl' _ _

end Gen

/-- The same for the plain model. -/
def PUpd (κ : Nat) (P P' : FPart F) : Prop :=
  ∃ Rk VR, P' = { P with Rkept := Rk, VR := VR } ∧ ∀ j, j ≠ κ → VR j = P.VR j

theorem PUpd.rfl' (κ : Nat) (P : FPart F) : PUpd κ P P := ⟨_, _, rfl, fun _ _ => rfl⟩

theorem PUpd.trans' {κ : Nat} {P Q R : FPart F} (a : PUpd κ P Q) (b : PUpd κ Q R) : PUpd κ P R := by
  obtain ⟨_, _, rfl, ha⟩ := a
  obtain ⟨_, V, rfl, hb⟩ := b
  exact ⟨_, V, rfl, fun j hj => (hb j hj).trans (ha j hj)⟩

theorem hhApply_pupd (o : FPOps F) (κ k : Nat) (P : FPart F) : PUpd κ P (hhApply o κ k P) :=
  ⟨_, P.VR, rfl, fun _ _ => rfl⟩

theorem hhCompute_pupd (o : FPOps F) (κ k : Nat) (P : FPart F) : PUpd κ P (hhCompute o κ k P) :=
  ⟨_, _, rfl, fun j hj => by simp only [setEntry]; rw [setCol_ne _ _ hj]⟩

theorem foldl_pupd (κ : Nat) (f : FPart F → Nat → FPart F) (hf : ∀ p k, PUpd κ p (f p k))
    (l : List Nat) : ∀ P, PUpd κ P (l.foldl f P) := by
  induction l with
  | nil => intro P; exact .rfl' _ _
  | cons a l ih => intro P; exact (hf P a).trans' (ih _)

theorem hhComputeRange_pupd (o : FPOps F) (κ a m : Nat) (P : FPart F) :
    PUpd κ P (hhComputeRange o κ a m P) :=
  foldl_pupd κ _ (fun p k => hhCompute_pupd o κ k p) _ P

theorem hhApplyRange_pupd (o : FPOps F) (κ a m : Nat) (P : FPart F) :
    PUpd κ P (hhApplyRange o κ a m P) :=
  foldl_pupd κ _ (fun p k => hhApply_pupd o κ k p) _ P

theorem hhKept_pupd (o : FPOps F) (κ : Nat) (P : FPart F) : PUpd κ P (hhKept o κ P) := by
  unfold hhKept
  split
  · split
    · exact (hhCompute_pupd o κ 0 P).trans' (hhComputeRange_pupd ..)
    · exact ((hhApply_pupd o κ 0 P).trans' (hhApplyRange_pupd ..)).trans' (hhComputeRange_pupd ..)
  · exact .rfl' _ _

/-! ### Column κ -/

namespace Sim

variable {o : FPOps F} {c : Cont F M W G} {n : Nat} {E : Bool → F → F → Prop}

/-- The first `m` steps of the reduction of column `κ` agree. -/
structure ColSt (c : Cont F M W G) (nm κ : Nat) (P : FPartG F M) (p : FPart F) (m : Nat) : Prop where
  rk : ∀ k < m, ∀ r, k ≤ r → r < nm → c.get P.Rkept k r = p.Rkept k r
  vr : ∀ k < m, P.VR κ k = p.VR κ k

/-- Data used by the reduction of column `κ`. -/
structure Src (c : Cont F M W G) (nm κ : Nat) (P : FPartG F M) (p : FPart F) : Prop where
  nP : P.nmaxkappa = nm
  np : p.nmaxkappa = nm
  bfp : ∀ r < nm, c.get P.Bfp κ r = p.Bfp κ r
  v : ∀ k < κ, ∀ r, k ≤ r → r < nm → c.get P.V k r = p.V k r

theorem Src.upd {nm κ : Nat} {P P' : FPartG F M} {p p' : FPart F} (h : Src c nm κ P p)
    (a : Gen.GUpd κ P P') (b : PUpd κ p p') : Src c nm κ P' p' := by
  obtain ⟨_, _, rfl, _⟩ := a
  obtain ⟨_, _, rfl, _⟩ := b
  exact ⟨h.nP, h.np, h.bfp, h.v⟩

theorem hhSrc_eq (hc : c.Lawful o n E) {nm κ k : Nat} {P : FPartG F M} {p : FPart F}
    (h : Src c nm κ P p) (hs : ColSt c nm κ P p k) (r : Nat) (hr : k + r < nm) :
    hc.wv (Gen.hhSrc c κ k P) r = hhSrc κ k p r := by
  unfold Gen.hhSrc hhSrc
  split
  · rw [hc.getcol]; exact h.bfp _ (by omega)
  · rw [hc.getcol]; exact hs.rk _ (by omega) _ (by omega) hr

theorem hhApply_sim (hc : c.Lawful o n E) {nm κ k : Nat} {P : FPartG F M} {p : FPart F}
    (h : Src c nm κ P p) (hk : k < κ) (hs : ColSt c nm κ P p k) (hv : P.VR κ k = p.VR κ k) :
    ColSt c nm κ (Gen.hhApply c κ k P) (hhApply o κ k p) (k + 1) := by
  constructor
  · intro j hj r hjr hr
    simp only [Gen.hhApply, hhApply, fmasub]
    rw [h.nP, h.np]
    by_cases hjk : j = k
    · subst hjk
      rw [hc.fmasub_in _ _ _ _ _ _ _ _ hjr (by omega), setCol_same, if_pos ⟨hjr, by omega⟩,
        hhSrc_eq hc h hs _ (by omega), hc.getcol, hv]
      congr 1
      exact h.v j hk _ (by omega) (by omega)
    · rw [hc.fmasub_col _ _ _ _ _ _ _ _ _ hjk, setCol_ne _ _ hjk]
      exact hs.rk j (by omega) r hjr hr
  · intro j hj
    by_cases hjk : j = k
    · subst hjk; exact hv
    · exact hs.vr j (by omega)

theorem hhCompute_sim (hc : c.Lawful o n E) {nm κ k : Nat} {P : FPartG F M} {p : FPart F}
    (h : Src c nm κ P p) (hk : k < κ) (hkn : k < nm) (hs : ColSt c nm κ P p k) :
    ColSt c nm κ (Gen.hhCompute c κ k P) (hhCompute o κ k p) (k + 1) := by
  unfold Gen.hhCompute hhCompute
  refine hhApply_sim hc ⟨h.nP, h.np, h.bfp, h.v⟩ hk ⟨hs.rk, ?_⟩ ?_
  · intro j hj
    simp only [setEntry, setCol_same]
    rw [setAt_ne _ _ (by omega), setAt_ne _ _ (by omega)]
    exact hs.vr j hj
  · simp only [setEntry, setCol_same, setAt_same]
    have hl : 0 < P.nmaxkappa - k := by rw [h.nP]; omega
    rw [hc.scalarprod _ _ _ _ hl, h.nP, h.np]
    refine scalarprod_congr o (by omega) ?_ ?_
    · intro i hi; rw [hc.getcol]; exact h.v k hk _ (by omega) (by omega)
    · intro i hi; exact hhSrc_eq hc h hs i (by omega)

theorem computeList_sim (hc : c.Lawful o n E) {nm κ : Nat} (len : Nat) :
    ∀ (a : Nat) (P : FPartG F M) (p : FPart F), Src c nm κ P p → a + len ≤ κ → a + len ≤ nm →
    ColSt c nm κ P p a →
    ColSt c nm κ ((List.range' a len).foldl (fun p k => Gen.hhCompute c κ k p) P)
      ((List.range' a len).foldl (fun p k => hhCompute o κ k p) p) (a + len) := by
  induction len with
  | zero => intro a P p _ _ _ h; simpa using h
  | succ len ih =>
    intro a P p h h1 h2 hs
    simp only [List.range'_succ, List.foldl_cons]
    rw [show a + (len + 1) = (a + 1) + len by omega]
    exact ih (a + 1) _ _ (h.upd (Gen.hhCompute_upd ..) (hhCompute_pupd ..)) (by omega) (by omega)
      (hhCompute_sim hc h (by omega) (by omega) hs)

theorem applyList_sim (hc : c.Lawful o n E) {nm κ : Nat} (len : Nat) :
    ∀ (a : Nat) (P : FPartG F M) (p : FPart F), Src c nm κ P p → a + len ≤ κ →
    (∀ k, a ≤ k → k < a + len → P.VR κ k = p.VR κ k) →
    ColSt c nm κ P p a →
    ColSt c nm κ ((List.range' a len).foldl (fun p k => Gen.hhApply c κ k p) P)
      ((List.range' a len).foldl (fun p k => hhApply o κ k p) p) (a + len) := by
  induction len with
  | zero => intro a P p _ _ _ h; simpa using h
  | succ len ih =>
    intro a P p h h1 h2 hs
    simp only [List.range'_succ, List.foldl_cons]
    rw [show a + (len + 1) = (a + 1) + len by omega]
    exact ih (a + 1) _ _ (h.upd (Gen.hhApply_upd ..) (hhApply_pupd ..)) (by omega)
      (fun k hk1 hk2 => h2 k (by omega) (by omega))
      (hhApply_sim hc h (by omega) hs (h2 a (by omega) (by omega)))

/-- What `householder_r` requires of the cached data of column `κ`. -/
structure ColPre (c : Cont F M W G) (n nm κ : Nat) (P : FPartG F M) (p : FPart F) : Prop where
  bfp : ∀ r < n, c.get P.Bfp κ r = p.Bfp κ r
  nrm : P.normB2 κ = p.normB2 κ
  kmin : P.kappamin κ = p.kappamin κ
  kmin0 : 0 ≤ p.kappamin κ
  kmin1 : p.kappamin κ ≤ κ
  vr : ∀ k : ℕ, (k : ℤ) < p.kappamin κ → P.VR κ k = p.VR κ k
  skip : 1 ≤ p.descendu κ → p.descendu κ < κ → ColSt c nm κ P p κ

theorem hhKept_sim (hc : c.Lawful o n E) {nm κ : Nat} (hκ : 0 < κ) (hκn : κ < nm) {P : FPartG F M}
    {p : FPart F} (h : Src c nm κ P p) (hd : P.descendu κ = p.descendu κ)
    (hp : ColPre c n nm κ P p) :
    ColSt c nm κ (Gen.hhKept c κ P) (hhKept o κ p) κ := by
  have h0 : ColSt c nm κ P p 0 := ⟨fun k hk => by omega, fun k hk => by omega⟩
  unfold Gen.hhKept hhKept
  rw [hd]
  split
  · rename_i hde
    rw [hp.kmin]
    split
    · rename_i hk0
      have h1 := hhCompute_sim hc h hκ (by omega) h0
      have := computeList_sim hc (nm := nm) (κ := κ) (κ - 1) 1 _ _
        (h.upd (Gen.hhCompute_upd ..) (hhCompute_pupd ..)) (by omega) (by omega) h1
      unfold Gen.hhComputeRange hhComputeRange
      rw [h.nP, h.np, show min κ nm = κ by omega]
      rw [show 1 + (κ - 1) = κ by omega] at this
      exact this
    · rename_i hk0
      have e0 := hp.kmin0
      have e1 := hp.kmin1
      obtain ⟨km, hkm⟩ : ∃ km : ℕ, p.kappamin κ = km := ⟨(p.kappamin κ).toNat, by omega⟩
      simp only [hkm, Int.toNat_natCast]
      rw [hkm] at e1 hk0
      have hkm0 : 0 < km := by omega
      have hkm1 : km ≤ κ := by omega
      have h1 := hhApply_sim hc h hκ h0 (hp.vr 0 (by rw [hkm]; omega))
      have u1 := h.upd (Gen.hhApply_upd (c := c) κ 0 P) (hhApply_pupd o κ 0 p)
      have h2 := applyList_sim hc (nm := nm) (κ := κ) (km - 1) 1 _ _ u1 (by omega)
        (fun k hk1 hk2 => hp.vr k (by rw [hkm]; omega)) h1
      have u2 := u1.upd (Gen.hhApplyRange_upd (c := c) κ 1 (min km nm) _)
        (hhApplyRange_pupd o κ 1 (min km nm) _)
      unfold Gen.hhComputeRange hhComputeRange
      rw [h.nP, h.np, show min κ nm = κ by omega]
      have h3 := computeList_sim hc (nm := nm) (κ := κ) (κ - km) km _ _ u2 (by omega) (by omega)
        (by unfold Gen.hhApplyRange hhApplyRange
            rw [show min km nm = km by omega]
            rw [show 1 + (km - 1) = km by omega] at h2
            exact h2)
      rw [show km + (κ - km) = κ by omega] at h3
      exact h3
  · exact hp.skip (by omega) (by omega)

/-- After `householder_r(κ)`. -/
structure ColPost (c : Cont F M W G) (n nm κ : Nat) (P : FPartG F M) (p : FPart F) : Prop where
  nP : P.nmaxkappa = nm
  np : p.nmaxkappa = nm
  kept : p.colKept κ = true
  bfp : ∀ r < n, c.get P.Bfp κ r = p.Bfp κ r
  nrm : P.normB2 κ = p.normB2 κ
  kmin : P.kappamin κ = p.kappamin κ
  kminκ : p.kappamin κ = κ
  col : ColSt c nm κ P p κ
  r : ∀ i < nm, c.get P.R κ i = p.R κ i

/-- Only column `κ` is touched. -/
structure Frm (c : Cont F M W G) (κ : Nat) (P P' : FPartG F M) (p p' : FPart F) : Prop where
  V : P'.V = P.V
  pV : p'.V = p.V
  R : ∀ j, j ≠ κ → ∀ i, c.get P'.R j i = c.get P.R j i
  pR : ∀ j, j ≠ κ → p'.R j = p.R j
  Bfp : ∀ j, j ≠ κ → ∀ i, c.get P'.Bfp j i = c.get P.Bfp j i
  pBfp : ∀ j, j ≠ κ → p'.Bfp j = p.Bfp j
  normB2 : ∀ j, j ≠ κ → P'.normB2 j = P.normB2 j
  pnormB2 : ∀ j, j ≠ κ → p'.normB2 j = p.normB2 j
  colKept : ∀ j, j ≠ κ → P'.colKept j = P.colKept j
  pcolKept : ∀ j, j ≠ κ → p'.colKept j = p.colKept j
  kappamin : ∀ j, j ≠ κ → P'.kappamin j = P.kappamin j
  pkappamin : ∀ j, j ≠ κ → p'.kappamin j = p.kappamin j
  VR : ∀ j, j ≠ κ → P'.VR j = P.VR j
  pVR : ∀ j, j ≠ κ → p'.VR j = p.VR j
  descendu : P'.descendu = P.descendu
  pdescendu : p'.descendu = p.descendu

theorem copyR_sim (hc : c.Lawful o n E) {nm κ : Nat} (hκ : 0 < κ) (hκn : κ < nm) {P : FPartG F M}
    {p : FPart F} (hP : P.nmaxkappa = nm) (hp : p.nmaxkappa = nm) (h : ColSt c nm κ P p κ) (i : Nat)
    (hi : i < nm) : c.get (Gen.hhCopyR c κ P).R κ i = (hhCopyR κ p).R κ i := by
  simp only [Gen.hhCopyR, hhCopyR, fsetcol, setCol_same]
  rw [hP, hp, hc.setcolV_in _ _ _ _ _ hi, if_pos hi, if_pos hκn, if_pos hκn]
  split
  · rw [hc.getRaw]; exact h.rk i (by omega) i (by omega) hi
  · rw [hc.getRaw]; exact h.rk (κ - 1) (by omega) i (by omega) hi

theorem householderR_sim (hc : c.Lawful o n E) {κ : Nat} (str : Nat → Int) (B : Mat Int)
    {P : FPartG F M} {p : FPart F} (hκ : 0 < κ) (hκn : κ < nmaxOf str κ) (hn : nmaxOf str κ ≤ n)
    (hV : ∀ k < κ, ∀ r, k ≤ r → r < n → c.get P.V k r = p.V k r)
    (hz : ∀ r, nmaxOf str κ ≤ r → r < n → E true (c.get P.Bfp κ r) (p.Bfp κ r))
    (hk : P.colKept κ = p.colKept κ) (hd : P.descendu κ = p.descendu κ)
    (hp : p.colKept κ = true → ColPre c n (nmaxOf str κ) κ P p) :
    ColPost c n (nmaxOf str κ) κ (Gen.householderR c str B κ P) (householderR o str B κ p) ∧
      Frm c κ P (Gen.householderR c str B κ P) p (householderR o str B κ p) ∧
      (∀ r, nmaxOf str κ ≤ r → r < n →
        E true (c.get (Gen.householderR c str B κ P).Bfp κ r)
          ((householderR o str B κ p).Bfp κ r)) ∧
      (Gen.householderR c str B κ P).colKept κ = (householderR o str B κ p).colKept κ ∧
      (Gen.householderR c str B κ P).x = P.x ∧ (householderR o str B κ p).x = p.x := by
  unfold Gen.householderR householderR
  have hκ0 : ¬ κ = 0 := by omega
  simp only [if_neg hκ0]
  rw [hk]
  by_cases hkp : p.colKept κ = true
  · rw [if_pos hkp, if_pos hkp]
    set Q : FPartG F M := { P with nmaxkappa := nmaxOf str κ } with hQ
    set q : FPart F := { p with nmaxkappa := nmaxOf str κ } with hq
    have hp1 := hp hkp
    have hsrc : Src c (nmaxOf str κ) κ Q q :=
      ⟨rfl, rfl, fun r hr => hp1.bfp r (by omega), fun k hk r h1 h2 => hV k hk r h1 (by omega)⟩
    have hpre : ColPre c n (nmaxOf str κ) κ Q q := ⟨hp1.bfp, hp1.nrm, hp1.kmin, hp1.kmin0,
      hp1.kmin1, hp1.vr, fun a b => ⟨(hp1.skip a b).rk, (hp1.skip a b).vr⟩⟩
    have hst := hhKept_sim hc hκ hκn hsrc hd hpre
    have hcp := fun i hi => copyR_sim hc hκ hκn (hsrc.upd (Gen.hhKept_upd (c := c) κ Q)
      (hhKept_pupd o κ q)).nP (hsrc.upd (Gen.hhKept_upd (c := c) κ Q) (hhKept_pupd o κ q)).np hst i hi
    obtain ⟨Rk, VR, e, hv⟩ := Gen.hhKept_upd (c := c) κ Q
    obtain ⟨rk, vr, e', hv'⟩ := hhKept_pupd o κ q
    rw [e, e'] at hst hcp ⊢
    refine ⟨⟨rfl, rfl, hkp, hp1.bfp, hp1.nrm, ?_, setAt_same _ _ _, ⟨hst.rk, hst.vr⟩, hcp⟩, ?_, hz, hk, rfl, rfl⟩
    · simp only [Gen.hhCopyR, hhCopyR, setAt_same]
    · refine ⟨rfl, rfl, ?_, ?_, fun _ _ _ => rfl, fun _ _ => rfl, fun _ _ => rfl, fun _ _ => rfl,
        fun _ _ => rfl, fun _ _ => rfl, ?_, ?_, hv, hv', rfl, rfl⟩
      · intro j hj i; exact hc.setcolV_col _ _ _ _ _ _ hj
      · intro j hj; exact setCol_ne _ _ hj
      · intro j hj; exact setAt_ne _ _ hj
      · intro j hj; exact setAt_ne _ _ hj
  · rw [if_neg hkp, if_neg hkp]
    unfold Gen.hhFull hhFull
    simp only []
    set Q : FPartG F M := { P with
      nmaxkappa := nmaxOf str κ
      colKept := setAt P.colKept κ true
      Bfp := c.setcolZ P.Bfp κ (B κ) (nmaxOf str κ)
      normB2 := setAt P.normB2 κ
        (c.normSq (c.getcol (c.setcolZ P.Bfp κ (B κ) (nmaxOf str κ)) κ 0) (nmaxOf str κ) (P.normB2 κ)) }
      with hQ
    set q : FPart F := { p with
      nmaxkappa := nmaxOf str κ
      colKept := setAt p.colKept κ true
      Bfp := fsetcolZ o p.Bfp κ (B κ) (nmaxOf str κ)
      normB2 := setAt p.normB2 κ
        (fpNormSq o (fsetcolZ o p.Bfp κ (B κ) (nmaxOf str κ) κ) (nmaxOf str κ)) } with hq
    have hb : ∀ r < n, c.get Q.Bfp κ r = q.Bfp κ r := by
      intro r hr
      simp only [hQ, hq, fsetcolZ, setCol_same]
      split
      · rename_i h; exact hc.setcolZ_in _ _ _ _ _ h
      · rename_i h
        exact hc.e_eq _ _ (hc.setcolZ_out _ _ _ _ _ _ (by omega) (hz r (by omega) hr))
    have hnb : Q.normB2 κ = q.normB2 κ := by
      simp only [hQ, hq, setAt_same]
      rw [hc.normSq _ _ _ (by omega)]
      refine fpNormSq_congr o (by omega) ?_
      intro i hi
      rw [hc.getcol, Nat.zero_add]
      exact hb i (by omega)
    have hsrc : Src c (nmaxOf str κ) κ Q q :=
      ⟨rfl, rfl, fun r hr => hb r (by omega), fun k hk r h1 h2 => hV k hk r h1 (by omega)⟩
    have h1 := hhCompute_sim hc hsrc hκ (by omega) ⟨fun k hk => by omega, fun k hk => by omega⟩
    have h2 := computeList_sim hc (nm := nmaxOf str κ) (κ := κ) (κ - 1) 1 _ _
      (hsrc.upd (Gen.hhCompute_upd ..) (hhCompute_pupd ..)) (by omega) (by omega) h1
    rw [show 1 + (κ - 1) = κ by omega] at h2
    have hst : ColSt c (nmaxOf str κ) κ
        (Gen.hhComputeRange c κ 1 (min κ (nmaxOf str κ)) (Gen.hhCompute c κ 0 Q))
        (hhComputeRange o κ 1 (min κ (nmaxOf str κ)) (hhCompute o κ 0 q)) κ := by
      unfold Gen.hhComputeRange hhComputeRange
      rw [show min κ (nmaxOf str κ) = κ by omega]
      exact h2
    have U := (Gen.hhCompute_upd (c := c) κ 0 Q).trans'
      (Gen.hhComputeRange_upd (c := c) κ 1 (min κ (nmaxOf str κ)) _)
    have u := (hhCompute_pupd o κ 0 q).trans'
      (hhComputeRange_pupd o κ 1 (min κ (nmaxOf str κ)) _)
    have hcp := fun i hi => copyR_sim hc hκ hκn (hsrc.upd U u).nP (hsrc.upd U u).np hst i hi
    obtain ⟨Rk, VR, e, hv⟩ := U
    obtain ⟨rk, vr, e', hv'⟩ := u
    rw [e, e'] at hst hcp ⊢
    refine ⟨⟨rfl, rfl, setAt_same _ _ _, hb, hnb, ?_, setAt_same _ _ _, ⟨hst.rk, hst.vr⟩, hcp⟩, ?_,
      ?_, ?_, rfl, rfl⟩
    · simp only [Gen.hhCopyR, hhCopyR, setAt_same]
    · refine ⟨rfl, rfl, ?_, ?_, ?_, ?_, ?_, ?_, ?_, ?_, ?_, ?_, hv, hv', rfl, rfl⟩
      · intro j hj i; exact hc.setcolV_col _ _ _ _ _ _ hj
      · intro j hj; exact setCol_ne _ _ hj
      · intro j hj i; exact hc.setcolZ_col _ _ _ _ _ _ hj
      · intro j hj; exact setCol_ne _ _ hj
      · intro j hj; exact setAt_ne _ _ hj
      · intro j hj; exact setAt_ne _ _ hj
      · intro j hj; exact setAt_ne _ _ hj
      · intro j hj; exact setAt_ne _ _ hj
      · intro j hj; exact setAt_ne _ _ hj
      · intro j hj; exact setAt_ne _ _ hj
    · intro r h3 h4
      simp only [hhCopyR, hq, fsetcolZ, setCol_same]
      rw [if_neg (by omega)]; exact hc.setcolZ_out _ _ _ _ _ _ h3 (hz r h3 h4)
    · simp only [Gen.hhCopyR, hhCopyR, hQ, hq, setAt_same]

theorem householderR_zero_sim (hc : c.Lawful o n E) (str : Nat → Int) (B : Mat Int)
    {P : FPartG F M} {p : FPart F} (hκn : 0 < nmaxOf str 0) (hn : nmaxOf str 0 ≤ n)
    (hz : ∀ r, nmaxOf str 0 ≤ r → r < n → E true (c.get P.Bfp 0 r) (p.Bfp 0 r))
    (hk : P.colKept 0 = p.colKept 0)
    (hp : p.colKept 0 = true → (∀ r < n, c.get P.Bfp 0 r = p.Bfp 0 r) ∧ P.normB2 0 = p.normB2 0) :
    ColPost c n (nmaxOf str 0) 0 (Gen.householderR c str B 0 P) (householderR o str B 0 p) ∧
      Frm c 0 P (Gen.householderR c str B 0 P) p (householderR o str B 0 p) ∧
      (∀ r, nmaxOf str 0 ≤ r → r < n →
        E true (c.get (Gen.householderR c str B 0 P).Bfp 0 r)
          ((householderR o str B 0 p).Bfp 0 r)) ∧
      (Gen.householderR c str B 0 P).colKept 0 = (householderR o str B 0 p).colKept 0 ∧
      (Gen.householderR c str B 0 P).x = P.x ∧ (householderR o str B 0 p).x = p.x := by
  unfold Gen.householderR householderR
  rw [if_pos rfl, if_pos rfl]
  simp only []
  rw [hk]
  have h0 : ∀ (P : FPartG F M) (p : FPart F), ColSt c (nmaxOf str 0) 0 P p 0 :=
    fun _ _ => ⟨fun k hk => by omega, fun k hk => by omega⟩
  by_cases hkp : p.colKept 0 = true
  · rw [if_pos hkp, if_pos hkp]
    obtain ⟨h1, h2⟩ := hp hkp
    refine ⟨⟨rfl, rfl, hkp, h1, h2, ?_, by simp, h0 _ _, ?_⟩, ?_, hz, hk, rfl, rfl⟩
    · simp only [setAt_same]
    · intro i hi
      simp only [fsetcol, setCol_same, if_pos hi]
      rw [hc.setcolW_in _ _ _ _ _ hi, hc.getcol, Nat.zero_add]
      exact h1 i (by omega)
    · refine ⟨rfl, rfl, ?_, ?_, fun _ _ _ => rfl, fun _ _ => rfl, fun _ _ => rfl, fun _ _ => rfl,
        fun _ _ => rfl, fun _ _ => rfl, ?_, ?_, fun _ _ => rfl, fun _ _ => rfl, rfl, rfl⟩
      · intro j hj i; exact hc.setcolW_col _ _ _ _ _ _ hj
      · intro j hj; exact setCol_ne _ _ hj
      · intro j hj; exact setAt_ne _ _ hj
      · intro j hj; exact setAt_ne _ _ hj
  · rw [if_neg hkp, if_neg hkp]
    have hb : ∀ r < n, c.get (c.setcolZ P.Bfp 0 (B 0) (nmaxOf str 0)) 0 r =
        fsetcolZ o p.Bfp 0 (B 0) (nmaxOf str 0) 0 r := by
      intro r hr
      simp only [fsetcolZ, setCol_same]
      split
      · rename_i h; exact hc.setcolZ_in _ _ _ _ _ h
      · rename_i h
        exact hc.e_eq _ _ (hc.setcolZ_out _ _ _ _ _ _ (by omega) (hz r (by omega) hr))
    have hR : ∀ i < nmaxOf str 0, c.get (c.setcolW P.R 0
        (c.getcol (c.setcolZ P.Bfp 0 (B 0) (nmaxOf str 0)) 0 0) (nmaxOf str 0)) 0 i =
        fsetcol p.R 0 (fsetcolZ o p.Bfp 0 (B 0) (nmaxOf str 0) 0) (nmaxOf str 0) 0 i := by
      intro i hi
      rw [hc.setcolW_in _ _ _ _ _ hi, hc.getcol, Nat.zero_add]
      simp only [fsetcol, setCol_same, if_pos hi]
      exact hb i (by omega)
    refine ⟨⟨rfl, rfl, by simp, hb, ?_, ?_, by simp, h0 _ _, hR⟩, ?_, ?_, ?_, rfl, rfl⟩
    · simp only [setAt_same]
      rw [hc.normSq _ _ _ hκn]
      refine fpNormSq_congr o hκn ?_
      intro i hi
      rw [hc.getcol, Nat.zero_add]
      exact hR i hi
    · simp only [setAt_same]
    · refine ⟨rfl, rfl, ?_, ?_, ?_, ?_, ?_, ?_, ?_, ?_, ?_, ?_, fun _ _ => rfl, fun _ _ => rfl, rfl, rfl⟩
      · intro j hj i; exact hc.setcolW_col _ _ _ _ _ _ hj
      · intro j hj; exact setCol_ne _ _ hj
      · intro j hj i; exact hc.setcolZ_col _ _ _ _ _ _ hj
      · intro j hj; exact setCol_ne _ _ hj
      · intro j hj; exact setAt_ne _ _ hj
      · intro j hj; exact setAt_ne _ _ hj
      · intro j hj; exact setAt_ne _ _ hj
      · intro j hj; exact setAt_ne _ _ hj
      · intro j hj; exact setAt_ne _ _ hj
      · intro j hj; exact setAt_ne _ _ hj
    · intro r h3 h4
      simp only [fsetcolZ, setCol_same]
      rw [if_neg (by omega)]; exact hc.setcolZ_out _ _ _ _ _ _ h3 (hz r h3 h4)
    · simp only [setAt_same]

/-! ### householder_v -/

theorem zeroRows_spec (hc : c.Lawful o n E) (κ a m : Nat) (V : M) (ham : a + m ≤ n) (j r : Nat)
    (hr : r < n) : c.get (Gen.zeroRows o c κ a m V) j r =
      if j = κ ∧ a ≤ r ∧ r < a + m then o.zero else c.get V j r := by
  induction m with
  | zero => rw [if_neg (by omega)]; rfl
  | succ m ih =>
    simp only [Gen.zeroRows]
    have ih := ih (by omega)
    by_cases hj : j = κ
    · subst hj
      by_cases hrm : r = a + m
      · subst hrm; rw [hc.set_same _ _ _ _ hr, if_pos (by omega)]
      · rw [hc.set_row _ _ _ _ _ hr hrm, ih]
        by_cases h : a ≤ r ∧ r < a + m
        · rw [if_pos ⟨rfl, h⟩, if_pos ⟨rfl, by omega, by omega⟩]
        · rw [if_neg (fun h' => h h'.2), if_neg (by omega)]
    · rw [hc.set_col _ _ _ _ _ _ hj, ih, if_neg (fun h => hj h.1), if_neg (fun h => hj h.1)]

theorem zeroRows_col (hc : c.Lawful o n E) (κ a m : Nat) (V : M) (j r : Nat) (hj : j ≠ κ) :
    c.get (Gen.zeroRows o c κ a m V) j r = c.get V j r := by
  induction m with
  | zero => rfl
  | succ m ih => simp only [Gen.zeroRows]; rw [hc.set_col _ _ _ _ _ _ hj, ih]

theorem householderV_sim (hc : c.Lawful o n E) {nm κ : Nat} {P : FPartG F M} {p : FPart F}
    (hκn : κ < nm) (hn : nm ≤ n) (hP : P.nmaxkappa = nm) (hp : p.nmaxkappa = nm)
    (hR : ∀ i < nm, c.get P.R κ i = p.R κ i) :
    ∃ V R v r, Gen.householderV o c n κ P = { P with V := V, R := R } ∧
      householderV o n κ p = { p with V := v, R := r } ∧
      (∀ j, j ≠ κ → ∀ i, c.get V j i = c.get P.V j i ∧ v j i = p.V j i ∧
        c.get R j i = c.get P.R j i ∧ r j i = p.R j i) ∧
      (∀ i, κ ≤ i → i < n → c.get V κ i = v κ i) ∧ (∀ i < nm, c.get R κ i = r κ i) := by
  refine ⟨_, _, _, _, rfl, rfl, ?_, ?_, ?_⟩
  · intro j hj i
    refine ⟨?_, ?_, ?_, ?_⟩
    · rw [hc.set_col _ _ _ _ _ _ hj, zeroRows_col hc _ _ _ _ _ _ hj, hc.div_col _ _ _ _ _ _ _ _ hj]
    · simp only [setEntry, fdivcol]
      rw [setCol_ne _ _ hj, setCol_ne _ _ hj, setCol_ne _ _ hj]
    · rw [hc.set_col _ _ _ _ _ _ hj]
    · simp only [setEntry]; rw [setCol_ne _ _ hj]
  all_goals
    have hnorm : c.norm (c.getcol P.R κ κ) (P.nmaxkappa - κ) o.zero =
        fpNorm o (getcol p.R κ κ) (p.nmaxkappa - κ) := by
      have hl : 0 < P.nmaxkappa - κ := by rw [hP]; omega
      rw [hc.norm _ _ _ hl, hP, hp]
      refine fpNorm_congr o (by omega) ?_
      intro i hi
      rw [hc.getcol]
      exact hR _ (by omega)
    have hw := hR κ hκn
  · intro i hi hin
    rw [hw, hnorm]
    by_cases hiκ : i = κ
    · subst hiκ
      rw [hc.set_same _ _ _ _ hin]
      simp only [setEntry, setCol_same, setAt_same]
    · rw [hc.set_row _ _ _ _ _ hin hiκ, zeroRows_spec hc _ _ _ _ (by rw [hP]; omega) _ _ hin]
      simp only [setEntry, setCol_same, fdivcol]
      rw [setAt_ne _ _ hiκ, hP, hp]
      by_cases hni : nm ≤ i
      · have h1 : True ∧ nm ≤ i ∧ i < nm + (n - nm) := ⟨trivial, hni, by omega⟩
        have h2 : nm ≤ i ∧ i < n := ⟨hni, hin⟩
        rw [if_pos h1, if_pos h2]
      · have h1 : ¬ (True ∧ nm ≤ i ∧ i < nm + (n - nm)) := fun h => hni h.2.1
        have h2 : ¬ (nm ≤ i ∧ i < n) := fun h => hni h.1
        have h3 : κ + 1 ≤ i ∧ i < κ + 1 + (nm - κ - 1) := by omega
        rw [if_neg h1, if_neg h2, if_pos h3,
          hc.div_in _ _ _ _ _ _ _ (by omega) (by omega), hc.getcol,
          hc.set_row _ _ _ _ _ (by omega) (by omega)]
        simp only [getcol, setCol_same]
        rw [setAt_ne _ _ (by omega), hR _ (by omega)]
  · intro i hi
    rw [hw, hnorm]
    by_cases hiκ : i = κ
    · subst hiκ
      rw [hc.set_same _ _ _ _ (by omega)]
      simp only [setEntry, setCol_same, setAt_same]
    · rw [hc.set_row _ _ _ _ _ (by omega) hiκ]
      simp only [setEntry, setCol_same]
      rw [setAt_ne _ _ hiκ]
      exact hR i hi

end Sim
end HPLLL
