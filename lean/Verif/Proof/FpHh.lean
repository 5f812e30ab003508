import Verif.Proof.ContMain
import Verif.Spec.FpQR
/-! `householder_r` and `householder_v` in an arbitrary arithmetic: what is cached is what a
computation from the integer columns would give. -/

namespace HPLLL
open Spec

namespace Fl

variable {F : Type} {o : FPOps F}

/-- Integer column as floating point vector. -/
def fvec (o : FPOps F) (n : Nat) (B : Mat Int) (c : Nat) : Nat → F :=
  fun r => if r < n then o.ofZ (B c r) else o.zero

theorem fdot_trunc (h : ∀ a v, o.addmul a v o.zero = a) {n nm a : Nat} (hn : nm ≤ n) (ha : a < nm)
    (x y : Nat → F) (hy : ∀ r, nm ≤ r → r < n → y r = o.zero) :
    fdot o n a x y = fdot o nm a x y := by
  unfold fdot
  obtain ⟨t, ht⟩ : ∃ t, n - a - 1 = (nm - a - 1) + t := ⟨n - nm, by omega⟩
  have hlt : a + (nm - a - 1) + t < n := by omega
  rw [ht]
  clear ht
  induction t with
  | zero => rfl
  | succ t ih =>
    rw [← Nat.add_assoc, List.range_succ, List.foldl_append, ih (by omega)]
    simp only [List.foldl_cons, List.foldl_nil]
    have hh := hy (a + (nm - a - 1 + t + 1)) (by omega) (by omega)
    rw [hh]
    exact h _ _

theorem fdot_congr {n a : Nat} (x y y' : Nat → F) (h : ∀ r, a ≤ r → r < n ∨ r = a → y r = y' r) :
    fdot o n a x y = fdot o n a x y' := by
  unfold fdot
  rw [h (a + 0) (by omega) (by omega)]
  have : ∀ (l : List Nat) (z : F), (∀ i ∈ l, a + (i + 1) < n) →
      l.foldl (fun acc i => o.addmul acc (x (a + (i + 1))) (y (a + (i + 1)))) z =
      l.foldl (fun acc i => o.addmul acc (x (a + (i + 1))) (y' (a + (i + 1)))) z := by
    intro l
    induction l with
    | nil => intros; rfl
    | cons b l ih =>
      intro z hz
      rw [List.foldl_cons, List.foldl_cons, h _ (by omega) (.inl (hz b (by simp)))]
      exact ih _ (fun i hi => hz i (by simp [hi]))
  apply this
  intro i hi
  have := List.mem_range.mp hi
  omega

theorem fdot_congr2 {n a : Nat} (y y' : Nat → F) (h : ∀ r, a ≤ r → r < n ∨ r = a → y r = y' r) :
    fdot o n a y y = fdot o n a y' y' := by
  unfold fdot
  rw [h (a + 0) (by omega) (by omega)]
  have : ∀ (l : List Nat) (z : F), (∀ i ∈ l, a + (i + 1) < n) →
      l.foldl (fun acc i => o.addmul acc (y (a + (i + 1))) (y (a + (i + 1)))) z =
      l.foldl (fun acc i => o.addmul acc (y' (a + (i + 1))) (y' (a + (i + 1)))) z := by
    intro l
    induction l with
    | nil => intros; rfl
    | cons b l ih =>
      intro z hz
      rw [List.foldl_cons, List.foldl_cons, h _ (by omega) (.inl (hz b (by simp)))]
      exact ih _ (fun i hi => hz i (by simp [hi]))
  apply this
  intro i hi
  have := List.mem_range.mp hi
  omega

theorem fapp_congrV (n : Nat) (V V' : Mat F) (k : Nat) (h : ∀ j < k, V' j = V j) (x : Nat → F) :
    fapp o n V' k x = fapp o n V k x := by
  induction k with
  | zero => rfl
  | succ k ih =>
    funext r
    simp only [fapp]
    rw [ih (fun j hj => h j (by omega)), h k (by omega)]

theorem fapp_stable (n : Nat) (V : Mat F) (x : Nat → F) (r : Nat) {a b : Nat} (h : r < a) (hab : a ≤ b) :
    fapp o n V b x r = fapp o n V a x r := by
  induction hab with
  | refl => rfl
  | step hb ih =>
    simp only [fapp]
    rw [if_neg (by simp only [Nat.le_eq] at hb; omega), ih]

theorem fapp_zero (hz : ∀ a, o.submul o.zero o.zero a = o.zero) {n nm : Nat} (V : Mat F) (x : Nat → F)
    (k : Nat) (hv : ∀ j < k, ∀ r, nm ≤ r → r < n → V j r = o.zero)
    (hx : ∀ r, nm ≤ r → r < n → x r = o.zero) :
    ∀ r, nm ≤ r → r < n → fapp o n V k x r = o.zero := by
  induction k with
  | zero => exact hx
  | succ k ih =>
    intro r hr hrn
    have := ih (fun j hj => hv j (by omega)) r hr hrn
    simp only [fapp]
    split
    · rw [this, hv k (by omega) r hr hrn]; exact hz _
    · exact this

/-- The stored product of reflection `k` with column vector `x`. -/
def vprod (o : FPOps F) (n : Nat) (V : Mat F) (k : Nat) (x : Nat → F) : F :=
  fdot o n k (V k) (fapp o n V k x)

/-- The first `m` intermediate columns and products are right. -/
structure ColSt (o : FPOps F) (n nm κ : Nat) (p : FPart F) (x : Nat → F) (m : Nat) : Prop where
  rk : ∀ k < m, ∀ i, k ≤ i → i < nm → p.Rkept k i = fapp o n p.V (k + 1) x i
  vr : ∀ k < m, p.VR κ k = vprod o n p.V k x

theorem hhSrc_eq {n nm κ m : Nat} {p : FPart F} {x : Nat → F}
    (hx : ∀ r < nm, p.Bfp κ r = x r)
    (h : ColSt o n nm κ p x m) (i : Nat) (hi : m + i < nm) :
    hhSrc κ m p i = fapp o n p.V m x (m + i) := by
  unfold hhSrc
  split
  · rename_i h0; subst h0
    simp only [getcol, fapp]; exact hx _ hi
  · simp only [getcol]
    have := h.rk (m - 1) (by omega) (m + i) (by omega) hi
    rw [show m - 1 + 1 = m by omega] at this
    exact this

theorem hhApply_spec {n nm κ m : Nat} {p : FPart F} {x : Nat → F}
    (hnm : p.nmaxkappa = nm) (hm : m < nm) (hn : nm ≤ n)
    (hx : ∀ r < nm, p.Bfp κ r = x r)
    (h : ColSt o n nm κ p x m) (hvr : p.VR κ m = vprod o n p.V m x) :
    ColSt o n nm κ (hhApply o κ m p) x (m + 1) ∧ Upd κ p (hhApply o κ m p) := by
  constructor
  · constructor
    · intro k hk i hki hi
      simp only [hhApply, fmasub]
      by_cases hkm : k = m
      · subst hkm
        rw [setCol_same]
        rw [if_pos (by omega), hhSrc_eq hx h _ (by omega), hvr]
        simp only [getcol]
        rw [show k + (i - k) = i by omega]
        simp only [fapp]
        rw [if_pos (by omega)]
        rfl
      · rw [setCol_ne _ _ hkm]; exact h.rk k (by omega) i hki hi
    · intro k hk
      simp only [hhApply]
      by_cases hkm : k = m
      · subst hkm; exact hvr
      · exact h.vr k (by omega)
  · constructor <;> intros <;> rfl

theorem scalarprod_eq {n m : Nat} (v w : Nat → F) (y : Nat → F) (hm : m < n)
    (h : ∀ i, m + i < n → w i = y (m + i)) :
    scalarprod o (fun r => v (m + r)) w (n - m) = fdot o n m v y := by
  unfold scalarprod fdot
  rw [h 0 (by omega)]
  have : ∀ (l : List Nat) (z : F), (∀ i ∈ l, m + (i + 1) < n) →
      l.foldl (fun acc i => o.addmul acc (v (m + (i + 1))) (w (i + 1))) z =
      l.foldl (fun acc i => o.addmul acc (v (m + (i + 1))) (y (m + (i + 1)))) z := by
    intro l
    induction l with
    | nil => intros; rfl
    | cons b l ih =>
      intro z hz
      rw [List.foldl_cons, List.foldl_cons, h _ (hz b (by simp))]
      exact ih _ (fun i hi => hz i (by simp [hi]))
  apply this
  intro i hi
  have := List.mem_range.mp hi
  omega

theorem hhCompute_spec (hz : ZeroLaws o) {n nm κ m : Nat} {p : FPart F} {x : Nat → F}
    (hnm : p.nmaxkappa = nm) (hm : m < nm) (hn : nm ≤ n)
    (hv : ∀ j < m, ∀ r, nm ≤ r → r < n → p.V j r = o.zero)
    (hx0 : ∀ r, nm ≤ r → r < n → x r = o.zero)
    (hx : ∀ r < nm, p.Bfp κ r = x r)
    (h : ColSt o n nm κ p x m) :
    ColSt o n nm κ (hhCompute o κ m p) x (m + 1) ∧ Upd κ p (hhCompute o κ m p) := by
  unfold hhCompute
  set q : FPart F :=
    { p with
      VR := setEntry p.VR m κ
        (scalarprod o (getcol p.V m m) (hhSrc κ m p) (p.nmaxkappa - m)) } with hq
  have hval : q.VR κ m = vprod o n q.V m x := by
    simp only [hq, setEntry, setCol_same, setAt_same]
    unfold vprod
    rw [hnm, fdot_trunc hz.addmul hn hm _ _ (fapp_zero hz.submul p.V x m hv hx0)]
    exact scalarprod_eq (p.V m) _ _ hm (fun i hi => hhSrc_eq hx h i (by omega))
  have hq1 : ColSt o n nm κ q x m := by
    refine ⟨h.rk, fun k hk => ?_⟩
    simp only [hq, setEntry, setCol_same]
    rw [setAt_ne _ _ (by omega)]
    exact h.vr k hk
  have hq2 : Upd κ p q := by
    constructor <;> intros <;> try rfl
    rename_i c hc
    simp only [hq, setEntry]; rw [setCol_ne _ _ hc]
  obtain ⟨a, b⟩ := hhApply_spec (p := q) hnm hm hn hx hq1 hval
  exact ⟨a, hq2.trans' b⟩

theorem hhComputeRange_spec (hz : ZeroLaws o) {n nm κ : Nat} (hn : nm ≤ n) (len : Nat) :
    ∀ (a : Nat) {p : FPart F} {x : Nat → F},
    p.nmaxkappa = nm → a + len ≤ nm →
    (∀ k < a + len, ∀ r, nm ≤ r → r < n → p.V k r = o.zero) →
    (∀ r, nm ≤ r → r < n → x r = o.zero) →
    (∀ r < nm, p.Bfp κ r = x r) → ColSt o n nm κ p x a →
    ColSt o n nm κ ((List.range' a len).foldl (fun p k => hhCompute o κ k p) p) x (a + len) ∧
      Upd κ p ((List.range' a len).foldl (fun p k => hhCompute o κ k p) p) := by
  induction len with
  | zero => intro a p x _ _ _ _ _ h; exact ⟨h, Upd.rfl' p⟩
  | succ len ih =>
    intro a p x hnm hal hv hx0 hx h
    rw [List.range'_succ, List.foldl_cons]
    obtain ⟨h1, u1⟩ := hhCompute_spec hz hnm (by omega) hn (fun j hj => hv j (by omega)) hx0 hx h
    obtain ⟨h2, u2⟩ := ih (a + 1) (p := hhCompute o κ a p) (x := x)
      (u1.nmaxkappa.trans hnm) (by omega)
      (by intro k hk; rw [u1.V]; exact hv k (by omega)) hx0 (by rw [u1.Bfp]; exact hx) h1
    rw [show a + (len + 1) = a + 1 + len by omega]
    exact ⟨h2, u1.trans' u2⟩

theorem hhApplyRange_spec {n nm κ : Nat} (hn : nm ≤ n) (len : Nat) :
    ∀ (a : Nat) {p : FPart F} {x : Nat → F},
    p.nmaxkappa = nm → a + len ≤ nm →
    (∀ r < nm, p.Bfp κ r = x r) → ColSt o n nm κ p x a →
    (∀ k < a + len, p.VR κ k = vprod o n p.V k x) →
    ColSt o n nm κ ((List.range' a len).foldl (fun p k => hhApply o κ k p) p) x (a + len) ∧
      Upd κ p ((List.range' a len).foldl (fun p k => hhApply o κ k p) p) := by
  induction len with
  | zero => intro a p x _ _ _ h _; exact ⟨h, Upd.rfl' p⟩
  | succ len ih =>
    intro a p x hnm hal hx h hvr
    rw [List.range'_succ, List.foldl_cons]
    obtain ⟨h1, u1⟩ := hhApply_spec hnm (by omega) hn hx h (hvr a (by omega))
    obtain ⟨h2, u2⟩ := ih (a + 1) (p := hhApply o κ a p) (x := x)
      (u1.nmaxkappa.trans hnm) (by omega) (by rw [u1.Bfp]; exact hx) h1
      (by intro k hk; rw [u1.V]; exact hvr k (by omega))
    rw [show a + (len + 1) = a + 1 + len by omega]
    exact ⟨h2, u1.trans' u2⟩

/-- The data attached to column `κ` by `householder_r`. -/
structure ColPost (o : FPOps F) (n nm κ : Nat) (p : FPart F) (x : Nat → F) : Prop where
  nmk : p.nmaxkappa = nm
  kept : p.colKept κ = true
  bfp : ∀ r < n, p.Bfp κ r = x r
  nrm : p.normB2 κ = fdot o n 0 x x
  kmin : p.kappamin κ = κ
  col : ColSt o n nm κ p x κ
  r : ∀ i < nm, p.R κ i = fapp o n p.V κ x i

/-- What `householder_r` requires of the cached data of column `κ`. -/
structure ColPre (o : FPOps F) (n nm κ : Nat) (p : FPart F) (x : Nat → F) : Prop where
  bfp : ∀ r < n, p.Bfp κ r = x r
  nrm : p.normB2 κ = fdot o n 0 x x
  kmin0 : 0 ≤ p.kappamin κ
  kmin1 : p.kappamin κ ≤ κ
  vr : ∀ k : Nat, (k : Int) < p.kappamin κ → p.VR κ k = vprod o n p.V k x
  skip : 1 ≤ p.descendu κ → p.descendu κ < κ → ColSt o n nm κ p x κ

theorem hhCopyR_spec {n nm κ : Nat} {p : FPart F} {x : Nat → F} (hκ : 0 < κ)
    (hnm : p.nmaxkappa = nm) (h : ColSt o n nm κ p x κ) (i : Nat) (hκn : κ < nm) (hi : i < nm) :
    (hhCopyR κ p).R κ i = fapp o n p.V κ x i := by
  simp only [hhCopyR, fsetcol, setCol_same]
  rw [hnm, if_pos hi]
  split
  · rename_i h1
    rw [h.rk i h1 i (Nat.le_refl _) hi]
    exact (fapp_stable n p.V x i (by omega) (by omega)).symm
  · have := h.rk (κ - 1) (by omega) i (by omega) hi
    rw [show κ - 1 + 1 = κ by omega] at this
    exact this

theorem hhKept_spec (hz : ZeroLaws o) {n nm κ : Nat} {p : FPart F} {x : Nat → F} (hκ : 0 < κ)
    (hκn : κ < nm) (hn : nm ≤ n) (hnm : p.nmaxkappa = nm)
    (hv : ∀ k < κ, ∀ r, nm ≤ r → r < n → p.V k r = o.zero)
    (hx0 : ∀ r, nm ≤ r → r < n → x r = o.zero) (h : ColPre o n nm κ p x) :
    ColSt o n nm κ (hhKept o κ p) x κ ∧ Upd κ p (hhKept o κ p) := by
  have hx : ∀ r < nm, p.Bfp κ r = x r := fun r hr => h.bfp r (by omega)
  have h0 : ColSt o n nm κ p x 0 := ⟨fun k hk => by omega, fun k hk => by omega⟩
  unfold hhKept
  split
  · rename_i hd
    have hmin : min κ p.nmaxkappa = κ := by omega
    split
    · rename_i hk0
      obtain ⟨h1, u1⟩ := hhCompute_spec hz hnm (by omega) hn (fun j hj => by omega) hx0 hx h0
      unfold hhComputeRange
      rw [hmin]
      obtain ⟨h2, u2⟩ := hhComputeRange_spec hz hn (κ - 1) 1 (p := hhCompute o κ 0 p) (x := x)
        (κ := κ) (u1.nmaxkappa.trans hnm) (by omega)
        (by intro k hk; rw [u1.V]; exact hv k (by omega)) hx0 (by rw [u1.Bfp]; exact hx) h1
      rw [show 1 + (κ - 1) = κ by omega] at h2
      exact ⟨h2, u1.trans' u2⟩
    · rename_i hk0
      have hk1 := h.kmin0
      have hk2 := h.kmin1
      obtain ⟨km, hkm⟩ : ∃ km : Nat, p.kappamin κ = km := ⟨(p.kappamin κ).toNat, by omega⟩
      simp only [hkm, Int.toNat_natCast]
      rw [hkm] at hk0 hk2
      have hkm0 : 0 < km := by omega
      have hkmκ : km ≤ κ := by omega
      have hvr : ∀ k < km, p.VR κ k = vprod o n p.V k x := fun k hk => h.vr k (by rw [hkm]; omega)
      obtain ⟨h1, u1⟩ := hhApply_spec hnm (by omega) hn hx h0 (hvr 0 hkm0)
      unfold hhComputeRange hhApplyRange
      rw [hmin, show min km p.nmaxkappa = km by omega]
      obtain ⟨h2, u2⟩ := hhApplyRange_spec hn (km - 1) 1 (p := hhApply o κ 0 p) (x := x)
        (κ := κ) (u1.nmaxkappa.trans hnm) (by omega) (by rw [u1.Bfp]; exact hx) h1
        (by intro k hk; rw [u1.V]; exact hvr k (by omega))
      rw [show 1 + (km - 1) = km by omega] at h2
      set q := (List.range' 1 (km - 1)).foldl (fun p k => hhApply o κ k p) (hhApply o κ 0 p) with hq
      have u12 := u1.trans' u2
      obtain ⟨h3, u3⟩ := hhComputeRange_spec hz hn (κ - km) km (p := q) (x := x)
        (κ := κ) (u12.nmaxkappa.trans hnm) (by omega)
        (by intro k hk; rw [u12.V]; exact hv k (by omega)) hx0 (by rw [u12.Bfp]; exact hx) h2
      rw [show km + (κ - km) = κ by omega] at h3
      exact ⟨h3, u12.trans' u3⟩
  · rename_i hd
    exact ⟨h.skip (by omega) (by omega), Upd.rfl' p⟩

theorem fpNormSq_eq (hz : ZeroLaws o) {n nm : Nat} (hn : nm ≤ n) (h0 : 0 < nm) (w x : Nat → F)
    (h : ∀ r < nm, w r = x r) (hx0 : ∀ r, nm ≤ r → r < n → x r = o.zero) :
    fpNormSq o w nm = fdot o n 0 x x := by
  rw [fdot_trunc hz.addmul hn h0 _ _ hx0, fdot_congr2 (o := o) x w (fun r _ hr => (h r (by omega)).symm)]
  unfold fpNormSq fdot
  simp only [Nat.zero_add, Nat.sub_zero]

/-- `householder_r(kappa)`, `kappa > 0`. -/
theorem householderR_spec (hz : ZeroLaws o) {n κ : Nat} (str : Nat → Int) (B : Mat Int) (p : FPart F)
    (hκ : 0 < κ) (hκn : κ < nmaxOf str κ) (hn : nmaxOf str κ ≤ n)
    (hv : ∀ k < κ, ∀ r, nmaxOf str κ ≤ r → r < n → p.V k r = o.zero)
    (hzb : ∀ r, nmaxOf str κ ≤ r → r < n → p.Bfp κ r = o.zero)
    (hB : ∀ r, nmaxOf str κ ≤ r → r < n → B κ r = 0)
    (hkept : p.colKept κ = true → ColPre o n (nmaxOf str κ) κ p (fvec o n B κ)) :
    ColPost o n (nmaxOf str κ) κ (householderR o str B κ p) (fvec o n B κ) ∧
      HhFrame κ p (householderR o str B κ p) := by
  set nm := nmaxOf str κ with hnm
  set x := fvec o n B κ with hx
  have hx0 : ∀ r, nm ≤ r → r < n → x r = o.zero := by
    intro r hr hrn
    simp only [hx, fvec, if_pos hrn, hB r hr hrn, hz.ofZ]
  unfold householderR
  rw [if_neg (by omega)]
  simp only []
  split
  · rename_i hk
    set q : FPart F := { p with nmaxkappa := nmaxOf str κ } with hq
    have hpre := hkept hk
    have hpre' : ColPre o n nm κ q x := ⟨hpre.bfp, hpre.nrm, hpre.kmin0, hpre.kmin1, hpre.vr,
      fun a b => ⟨(hpre.skip a b).rk, (hpre.skip a b).vr⟩⟩
    obtain ⟨h1, u⟩ := hhKept_spec hz (p := q) hκ hκn hn rfl hv hx0 hpre'
    constructor
    · refine ⟨u.nmaxkappa, ?_, ?_, ?_, by simp [hhCopyR], ⟨h1.rk, h1.vr⟩, ?_⟩
      · simp only [hhCopyR, u.colKept]; exact hk
      · intro r hr; simp only [hhCopyR, u.Bfp]; exact hpre.bfp r hr
      · simp only [hhCopyR, u.normB2]; exact hpre.nrm
      · intro i hi; exact hhCopyR_spec hκ u.nmaxkappa h1 i hκn hi
    · refine ⟨u.V, ?_, ?_, ?_, ?_, ?_, ?_, u.descendu⟩
      · intro c hc; simp only [hhCopyR, fsetcol]; rw [setCol_ne _ _ hc, u.R]
      · intro c hc; simp only [hhCopyR, u.Bfp]
        rfl
      · intro c hc; simp only [hhCopyR, u.normB2]; rfl
      · intro c hc; simp only [hhCopyR, u.colKept]; rfl
      · intro c hc; simp only [hhCopyR]; rw [setAt_ne _ _ hc, u.kappamin]
      · intro c hc; simp only [hhCopyR]; rw [u.VR c hc]
  · rename_i hk
    unfold hhFull
    simp only []
    set q : FPart F :=
      { p with
        normB2 := setAt p.normB2 κ
          (fpNormSq o ((fsetcolZ o p.Bfp κ (B κ) (nmaxOf str κ)) κ) (nmaxOf str κ))
        Bfp := fsetcolZ o p.Bfp κ (B κ) (nmaxOf str κ)
        colKept := setAt p.colKept κ true
        nmaxkappa := nmaxOf str κ } with hq
    have hbx : ∀ r < n, q.Bfp κ r = x r := by
      intro r hr
      simp only [hq, fsetcolZ, setCol_same, hx, fvec, if_pos hr]
      split
      · rfl
      · rename_i h1; rw [hzb r (by omega) hr, hB r (by omega) hr, hz.ofZ]
    have h0 : ColSt o n nm κ q x 0 := ⟨fun k hk => by omega, fun k hk => by omega⟩
    obtain ⟨h1, u1⟩ := hhCompute_spec hz (p := q) (nm := nm) rfl (by omega) hn (fun j hj => by omega) hx0
      (fun r hr => hbx r (by omega)) h0
    unfold hhComputeRange
    rw [show min κ (nmaxOf str κ) = κ by omega]
    obtain ⟨h2, u2⟩ := hhComputeRange_spec hz hn (κ - 1) 1 (p := hhCompute o κ 0 q) (x := x)
      (κ := κ) (u1.nmaxkappa.trans rfl) (by omega)
      (by intro k hk; rw [u1.V]; exact hv k (by omega)) hx0
      (by rw [u1.Bfp]; exact fun r hr => hbx r (by omega)) h1
    rw [show 1 + (κ - 1) = κ by omega] at h2
    have u := u1.trans' u2
    set q2 := (List.range' 1 (κ - 1)).foldl (fun p k => hhCompute o κ k p) (hhCompute o κ 0 q)
      with hq2
    constructor
    · refine ⟨u.nmaxkappa, ?_, ?_, ?_, by simp [hhCopyR], ⟨h2.rk, h2.vr⟩, ?_⟩
      · simp only [hhCopyR, u.colKept]; simp [hq]
      · intro r hr; simp only [hhCopyR, u.Bfp]; exact hbx r hr
      · simp only [hhCopyR, u.normB2]
        simp only [hq, setAt_same]
        exact fpNormSq_eq hz hn (by omega) _ _ (fun r hr => hbx r (by omega)) hx0
      · intro i hi; exact hhCopyR_spec hκ u.nmaxkappa h2 i hκn hi
    · refine ⟨u.V, ?_, ?_, ?_, ?_, ?_, ?_, u.descendu⟩
      · intro c hc; simp only [hhCopyR, fsetcol]; rw [setCol_ne _ _ hc, u.R]
      · intro c hc; simp only [hhCopyR, u.Bfp]
        simp only [hq, fsetcolZ]; rw [setCol_ne _ _ hc]
      · intro c hc; simp only [hhCopyR, u.normB2]; simp only [hq]; rw [setAt_ne _ _ hc]
      · intro c hc; simp only [hhCopyR, u.colKept]; simp only [hq]; rw [setAt_ne _ _ hc]
      · intro c hc; simp only [hhCopyR]; rw [setAt_ne _ _ hc, u.kappamin]
      · intro c hc; simp only [hhCopyR]; rw [u.VR c hc]

/-- `householder_r(0)`. -/
theorem householderR_zero_spec (hz : ZeroLaws o) {n : Nat} (str : Nat → Int) (B : Mat Int) (p : FPart F)
    (hκn : 0 < nmaxOf str 0) (hn : nmaxOf str 0 ≤ n)
    (hzb : ∀ r, nmaxOf str 0 ≤ r → r < n → p.Bfp 0 r = o.zero)
    (hB : ∀ r, nmaxOf str 0 ≤ r → r < n → B 0 r = 0)
    (hkept : p.colKept 0 = true → (∀ r < n, p.Bfp 0 r = fvec o n B 0 r) ∧
      p.normB2 0 = fdot o n 0 (fvec o n B 0) (fvec o n B 0)) :
    ColPost o n (nmaxOf str 0) 0 (householderR o str B 0 p) (fvec o n B 0) ∧
      HhFrame 0 p (householderR o str B 0 p) := by
  unfold householderR
  rw [if_pos rfl]
  simp only []
  split
  · rename_i hk
    obtain ⟨h1, h2⟩ := hkept hk
    constructor
    · refine ⟨rfl, hk, h1, h2, by simp, ⟨fun k hk => by omega, fun k hk => by omega⟩, ?_⟩
      intro i hi
      simp only [fsetcol, setCol_same, if_pos hi, fapp]
      exact h1 i (by omega)
    · refine ⟨rfl, ?_, fun _ _ => rfl, fun _ _ => rfl, fun _ _ => rfl, ?_, fun _ _ => rfl, rfl⟩
      · intro c hc; simp only [fsetcol]; rw [setCol_ne _ _ hc]
      · intro c hc; simp only []; rw [setAt_ne _ _ hc]
  · have hbx : ∀ r < n, fsetcolZ o p.Bfp 0 (B 0) (nmaxOf str 0) 0 r = fvec o n B 0 r := by
      intro r hr
      simp only [fsetcolZ, setCol_same, fvec, if_pos hr]
      split
      · rfl
      · rename_i h1; rw [hzb r (by omega) hr, hB r (by omega) hr, hz.ofZ]
    constructor
    · refine ⟨rfl, by simp, hbx, ?_, by simp, ⟨fun k hk => by omega, fun k hk => by omega⟩, ?_⟩
      · simp only [setAt_same]
        refine fpNormSq_eq hz hn hκn _ _ (fun r hr => ?_) ?_
        · simp only [fsetcol, setCol_same, if_pos hr]
          exact hbx r (by omega)
        · intro r hr hrn
          simp only [fvec, if_pos hrn, hB r hr hrn, hz.ofZ]
      · intro i hi
        simp only [fsetcol, setCol_same, if_pos hi, fapp]
        exact hbx i (by omega)
    · refine ⟨rfl, ?_, ?_, ?_, ?_, ?_, fun _ _ => rfl, rfl⟩
      · intro c hc; simp only [fsetcol]; rw [setCol_ne _ _ hc]
      · intro c hc; simp only [fsetcolZ]; rw [setCol_ne _ _ hc]
      · intro c hc; simp only []; rw [setAt_ne _ _ hc]
      · intro c hc; simp only []; rw [setAt_ne _ _ hc]
      · intro c hc; simp only []; rw [setAt_ne _ _ hc]

/-! ### `householder_v` -/

/-- Column `k` of the factorisation, `nm` rows are not structurally zero. -/
structure HvCol (o : FPOps F) (n nm k : Nat) (y : Nat → F) (V R : Nat → F) : Prop where
  up : ∀ i < k, R i = y i
  diag : R k = if o.le o.zero (y k) then o.neg (fnorm o n k y) else fnorm o n k y
  vdiag : V k = o.div (o.add (y k) (fsig o n k y)) (fscal o n k y)
  vlow : ∀ r, k < r → r < nm → V r = o.div (y r) (fscal o n k y)
  vzero : ∀ r, nm ≤ r → r < n → V r = o.zero

theorem householderV_spec (hz : ZeroLaws o) {n κ : Nat} (p : FPart F) (y : Nat → F)
    (hκ : κ < p.nmaxkappa) (hn : p.nmaxkappa ≤ n)
    (hR : ∀ i < p.nmaxkappa, p.R κ i = y i)
    (hy : ∀ r, p.nmaxkappa ≤ r → r < n → y r = o.zero) :
    HvFrame κ p (householderV o n κ p) ∧
    HvCol o n p.nmaxkappa κ y ((householderV o n κ p).V κ) ((householderV o n κ p).R κ) := by
  set nm := p.nmaxkappa with hnm
  have hnrm : fpNorm o (getcol p.R κ κ) (nm - κ) = fnorm o n κ y := by
    unfold fpNorm fnorm
    congr 1
    rw [fdot_trunc hz.addmul hn hκ _ _ hy,
      fdot_congr2 (o := o) y (p.R κ) (fun r _ hr => (hR r (by omega)).symm)]
    rfl
  have hRw : p.R κ κ = y κ := hR κ hκ
  have hsig : (if o.le o.zero (y κ) = true then fnorm o n κ y else o.neg (fnorm o n κ y)) =
      fsig o n κ y := rfl
  constructor
  · refine ⟨?_, ?_, ?_, ⟨_, _, rfl⟩⟩
    · intro c hc
      simp only [householderV, setEntry, fdivcol]
      rw [setCol_ne _ _ hc, setCol_ne _ _ hc, setCol_ne _ _ hc]
    · intro c hc
      simp only [householderV, setEntry]
      rw [setCol_ne _ _ hc]
    · intro i hi
      simp only [householderV, setEntry, setCol_same]
      rw [setAt_ne _ _ hi]
  · constructor
    · intro i hi
      simp only [householderV, setEntry, setCol_same]
      rw [setAt_ne _ _ (by omega), hR i (by omega)]
    · simp only [householderV, setEntry, setCol_same, setAt_same, ← hnm, hnrm, hRw]
    · simp only [householderV, setEntry, setCol_same, setAt_same, ← hnm, hnrm, hRw, hsig]
      rfl
    · intro r hr hrn
      simp only [householderV, setEntry, setCol_same, ← hnm, hnrm, hRw, hsig, fdivcol, getcol]
      rw [setAt_ne _ _ (by omega), if_neg (by omega), if_pos (by omega), setAt_ne _ _ (by omega),
        hR _ (by omega), show κ + 1 + (r - (κ + 1)) = r by omega]
      rfl
    · intro r hr hrn
      simp only [householderV, setEntry, setCol_same, ← hnm]
      rw [setAt_ne _ _ (by omega), if_pos ⟨hr, hrn⟩]

end Fl
end HPLLL
