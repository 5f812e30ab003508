import Verif.Proof.ExactOps
import Verif.Proof.Gram
/-! `householder_r` and `householder_v` in exact arithmetic. -/

namespace HPLLL
open Spec Finset

variable {o : FPOps ℝ}

/-- Only `Rkept` and column `κ` of `VR` may differ. -/
structure Upd {F : Type} (κ : ℕ) (p p' : FPart F) : Prop where
  V : p'.V = p.V
  R : p'.R = p.R
  Bfp : p'.Bfp = p.Bfp
  normB2 : p'.normB2 = p.normB2
  x : p'.x = p.x
  nmaxkappa : p'.nmaxkappa = p.nmaxkappa
  colKept : p'.colKept = p.colKept
  kappamin : p'.kappamin = p.kappamin
  descendu : p'.descendu = p.descendu
  VR : ∀ c, c ≠ κ → p'.VR c = p.VR c

theorem Upd.rfl' {F : Type} {κ : ℕ} (p : FPart F) : Upd κ p p := by constructor <;> intros <;> rfl
theorem Upd.trans' {F : Type} {κ : ℕ} {p q r : FPart F} (a : Upd κ p q) (b : Upd κ q r) : Upd κ p r :=
  ⟨b.V.trans a.V, b.R.trans a.R, b.Bfp.trans a.Bfp, b.normB2.trans a.normB2, b.x.trans a.x,
   b.nmaxkappa.trans a.nmaxkappa, b.colKept.trans a.colKept, b.kappamin.trans a.kappamin,
   b.descendu.trans a.descendu, fun c hc => (b.VR c hc).trans (a.VR c hc)⟩

/-- The stored product of reflection `k` with column vector `x`. -/
noncomputable def vprod (n : ℕ) (V : Mat ℝ) (k : ℕ) (x : ℕ → ℝ) : ℝ :=
  Ex.dot n (Ex.vv n V k) (Ex.app n V k x)

/-- The first `m` intermediate columns and products are right. -/
structure ColSt (n nm κ : ℕ) (p : FPart ℝ) (x : ℕ → ℝ) (m : ℕ) : Prop where
  rk : ∀ k < m, ∀ i, k ≤ i → i < nm → p.Rkept k i = Ex.app n p.V (k + 1) x i
  vr : ∀ k < m, p.VR κ k = vprod n p.V k x

theorem vprod_eq {n nm m : ℕ} (V : Mat ℝ) (x : ℕ → ℝ) (hm : m ≤ nm) (hn : nm ≤ n)
    (hv : ∀ r, nm ≤ r → r < n → V m r = 0) :
    vprod n V m x = ∑ i ∈ range (nm - m), V m (m + i) * Ex.app n V m x (m + i) := by
  unfold vprod
  rw [Ex.dot_split n m (by omega)]
  have h1 : Ex.dot m (Ex.vv n V m) (Ex.app n V m x) = 0 := by
    unfold Ex.dot
    refine sum_eq_zero fun r hr => ?_
    have := mem_range.mp hr
    simp only [Ex.vv]; rw [if_neg (by omega)]; ring
  rw [h1, zero_add]
  symm
  have hsub : range (nm - m) ⊆ range (n - m) := by intro r; simp only [mem_range]; omega
  rw [← sum_subset hsub]
  · refine sum_congr rfl fun i hi => ?_
    have := mem_range.mp hi
    simp only [Ex.vv]; rw [if_pos (by omega)]
  · intro i hi hi'
    simp only [mem_range] at hi hi'
    simp only [Ex.vv]; rw [if_pos (by omega), hv _ (by omega) (by omega)]; ring

theorem hhSrc_eq {n nm κ m : ℕ} {p : FPart ℝ} {x : ℕ → ℝ}
    (hx : ∀ r < nm, p.Bfp κ r = x r)
    (h : ColSt n nm κ p x m) (i : ℕ) (hi : m + i < nm) :
    hhSrc κ m p i = Ex.app n p.V m x (m + i) := by
  unfold hhSrc
  split
  · rename_i h0; subst h0
    simp only [getcol, Ex.app]; exact hx _ hi
  · simp only [getcol]
    have := h.rk (m - 1) (by omega) (m + i) (by omega) hi
    rw [show m - 1 + 1 = m by omega] at this
    exact this

theorem hhApply_spec (ho : Exact o) {n nm κ m : ℕ} {p : FPart ℝ} {x : ℕ → ℝ}
    (hnm : p.nmaxkappa = nm) (hm : m < nm) (hn : nm ≤ n)
    (hx : ∀ r < nm, p.Bfp κ r = x r)
    (h : ColSt n nm κ p x m) (hvr : p.VR κ m = vprod n p.V m x) :
    ColSt n nm κ (hhApply o κ m p) x (m + 1) ∧ Upd κ p (hhApply o κ m p) := by
  constructor
  · constructor
    · intro k hk i hki hi
      simp only [hhApply, fmasub]
      by_cases hkm : k = m
      · subst hkm
        rw [setCol_same]
        rw [if_pos (by omega), ho.submul, hhSrc_eq hx h _ (by omega), hvr]
        simp only [getcol]
        rw [show k + (i - k) = i by omega]
        simp only [Ex.app, Ex.refl, vprod]
        have : Ex.vv n p.V k i = p.V k i := by simp only [Ex.vv]; rw [if_pos (by omega)]
        rw [this]; ring
      · rw [setCol_ne _ _ hkm]; exact h.rk k (by omega) i hki hi
    · intro k hk
      simp only [hhApply]
      by_cases hkm : k = m
      · subst hkm; exact hvr
      · exact h.vr k (by omega)
  · constructor <;> intros <;> rfl

theorem hhCompute_spec (ho : Exact o) {n nm κ m : ℕ} {p : FPart ℝ} {x : ℕ → ℝ}
    (hnm : p.nmaxkappa = nm) (hm : m < nm) (hn : nm ≤ n)
    (hv : ∀ r, nm ≤ r → r < n → p.V m r = 0)
    (hx : ∀ r < nm, p.Bfp κ r = x r)
    (h : ColSt n nm κ p x m) :
    ColSt n nm κ (hhCompute o κ m p) x (m + 1) ∧ Upd κ p (hhCompute o κ m p) := by
  unfold hhCompute
  set q : FPart ℝ :=
    { p with
      VR := setEntry p.VR m κ
        (scalarprod o (getcol p.V m m) (hhSrc κ m p) (p.nmaxkappa - m)) } with hq
  have hval : q.VR κ m = vprod n q.V m x := by
    simp only [hq, setEntry, setCol_same, setAt_same]
    rw [hnm, scalarprod_exact ho _ _ _ (by omega), vprod_eq p.V x hm.le hn hv]
    refine sum_congr rfl fun i hi => ?_
    have := mem_range.mp hi
    rw [hhSrc_eq hx h i (by omega)]; rfl
  have hq1 : ColSt n nm κ q x m := by
    refine ⟨h.rk, fun k hk => ?_⟩
    simp only [hq, setEntry, setCol_same]
    rw [setAt_ne _ _ (by omega)]
    exact h.vr k hk
  have hq2 : Upd κ p q := by
    constructor <;> intros <;> try rfl
    rename_i c hc
    simp only [hq, setEntry]; rw [setCol_ne _ _ hc]
  obtain ⟨a, b⟩ := hhApply_spec ho (p := q) hnm hm hn hx hq1 hval
  exact ⟨a, hq2.trans' b⟩

theorem hhComputeRange_spec (ho : Exact o) {n nm κ : ℕ} (hn : nm ≤ n) (len : ℕ) :
    ∀ (a : ℕ) {p : FPart ℝ} {x : ℕ → ℝ},
    p.nmaxkappa = nm → a + len ≤ nm →
    (∀ k < a + len, ∀ r, nm ≤ r → r < n → p.V k r = 0) →
    (∀ r < nm, p.Bfp κ r = x r) → ColSt n nm κ p x a →
    ColSt n nm κ ((List.range' a len).foldl (fun p k => hhCompute o κ k p) p) x (a + len) ∧
      Upd κ p ((List.range' a len).foldl (fun p k => hhCompute o κ k p) p) := by
  induction len with
  | zero => intro a p x _ _ _ _ h; exact ⟨h, Upd.rfl' p⟩
  | succ len ih =>
    intro a p x hnm hal hv hx h
    rw [List.range'_succ, List.foldl_cons]
    obtain ⟨h1, u1⟩ := hhCompute_spec ho hnm (by omega) hn (hv a (by omega)) hx h
    obtain ⟨h2, u2⟩ := ih (a + 1) (p := hhCompute o κ a p) (x := x)
      (u1.nmaxkappa.trans hnm) (by omega)
      (by intro k hk; rw [u1.V]; exact hv k (by omega)) (by rw [u1.Bfp]; exact hx) h1
    rw [show a + (len + 1) = a + 1 + len by omega]
    exact ⟨h2, u1.trans' u2⟩

theorem hhApplyRange_spec (ho : Exact o) {n nm κ : ℕ} (hn : nm ≤ n) (len : ℕ) :
    ∀ (a : ℕ) {p : FPart ℝ} {x : ℕ → ℝ},
    p.nmaxkappa = nm → a + len ≤ nm →
    (∀ r < nm, p.Bfp κ r = x r) → ColSt n nm κ p x a →
    (∀ k < a + len, p.VR κ k = vprod n p.V k x) →
    ColSt n nm κ ((List.range' a len).foldl (fun p k => hhApply o κ k p) p) x (a + len) ∧
      Upd κ p ((List.range' a len).foldl (fun p k => hhApply o κ k p) p) := by
  induction len with
  | zero => intro a p x _ _ _ h _; exact ⟨h, Upd.rfl' p⟩
  | succ len ih =>
    intro a p x hnm hal hx h hvr
    rw [List.range'_succ, List.foldl_cons]
    obtain ⟨h1, u1⟩ := hhApply_spec ho hnm (by omega) hn hx h (hvr a (by omega))
    obtain ⟨h2, u2⟩ := ih (a + 1) (p := hhApply o κ a p) (x := x)
      (u1.nmaxkappa.trans hnm) (by omega) (by rw [u1.Bfp]; exact hx) h1
      (by intro k hk; rw [u1.V]; exact hvr k (by omega))
    rw [show a + (len + 1) = a + 1 + len by omega]
    exact ⟨h2, u1.trans' u2⟩

/-- The data attached to column `κ` by `householder_r`. -/
structure ColPost (n nm κ : ℕ) (p : FPart ℝ) (x : ℕ → ℝ) : Prop where
  nmk : p.nmaxkappa = nm
  kept : p.colKept κ = true
  bfp : ∀ r < n, p.Bfp κ r = x r
  nrm : p.normB2 κ = Ex.dot n x x
  kmin : p.kappamin κ = κ
  col : ColSt n nm κ p x κ
  r : ∀ i < nm, p.R κ i = Ex.app n p.V κ x i

/-- What `householder_r` requires of the cached data of column `κ`. -/
structure ColPre (n nm κ : ℕ) (p : FPart ℝ) (x : ℕ → ℝ) : Prop where
  bfp : ∀ r < n, p.Bfp κ r = x r
  nrm : p.normB2 κ = Ex.dot n x x
  kmin0 : 0 ≤ p.kappamin κ
  kmin1 : p.kappamin κ ≤ κ
  vr : ∀ k : ℕ, (k : ℤ) < p.kappamin κ → p.VR κ k = vprod n p.V k x
  skip : 1 ≤ p.descendu κ → p.descendu κ < κ → ColSt n nm κ p x κ

/-- Frame of `householder_r(kappa)`. -/
structure HhFrame {F : Type} (κ : ℕ) (p p' : FPart F) : Prop where
  V : p'.V = p.V
  R : ∀ c, c ≠ κ → p'.R c = p.R c
  Bfp : ∀ c, c ≠ κ → p'.Bfp c = p.Bfp c
  normB2 : ∀ c, c ≠ κ → p'.normB2 c = p.normB2 c
  colKept : ∀ c, c ≠ κ → p'.colKept c = p.colKept c
  kappamin : ∀ c, c ≠ κ → p'.kappamin c = p.kappamin c
  VR : ∀ c, c ≠ κ → p'.VR c = p.VR c
  descendu : p'.descendu = p.descendu

theorem hhCopyR_spec {n nm κ : ℕ} {p : FPart ℝ} {x : ℕ → ℝ} (hκ : 0 < κ)
    (hκn : κ < nm) (hnm : p.nmaxkappa = nm) (h : ColSt n nm κ p x κ) (i : ℕ) (hi : i < nm) :
    (hhCopyR κ p).R κ i = Ex.app n p.V κ x i := by
  simp only [hhCopyR, fsetcol, setCol_same]
  rw [hnm, if_pos hi]
  split
  · rename_i h1
    rw [h.rk i h1 i (le_refl _) hi]
    exact (Ex.app_stable n p.V x i (by omega) (by omega)).symm
  · have := h.rk (κ - 1) (by omega) i (by omega) hi
    rw [show κ - 1 + 1 = κ by omega] at this
    exact this

theorem hhKept_spec (ho : Exact o) {n nm κ : ℕ} {p : FPart ℝ} {x : ℕ → ℝ} (hκ : 0 < κ)
    (hκn : κ < nm) (hn : nm ≤ n) (hnm : p.nmaxkappa = nm)
    (hv : ∀ k < κ, ∀ r, nm ≤ r → r < n → p.V k r = 0) (h : ColPre n nm κ p x) :
    ColSt n nm κ (hhKept o κ p) x κ ∧ Upd κ p (hhKept o κ p) := by
  have hx : ∀ r < nm, p.Bfp κ r = x r := fun r hr => h.bfp r (by omega)
  have h0 : ColSt n nm κ p x 0 := ⟨fun k hk => by omega, fun k hk => by omega⟩
  unfold hhKept
  split
  · rename_i hd
    have hmin : min κ p.nmaxkappa = κ := by omega
    split
    · rename_i hk0
      obtain ⟨h1, u1⟩ := hhCompute_spec ho hnm (by omega) hn (hv 0 hκ) hx h0
      unfold hhComputeRange
      rw [hmin]
      obtain ⟨h2, u2⟩ := hhComputeRange_spec ho hn (κ - 1) 1 (p := hhCompute o κ 0 p) (x := x)
        (κ := κ) (u1.nmaxkappa.trans hnm) (by omega)
        (by intro k hk; rw [u1.V]; exact hv k (by omega)) (by rw [u1.Bfp]; exact hx) h1
      rw [show 1 + (κ - 1) = κ by omega] at h2
      exact ⟨h2, u1.trans' u2⟩
    · rename_i hk0
      have hk1 := h.kmin0
      have hk2 := h.kmin1
      obtain ⟨km, hkm⟩ : ∃ km : ℕ, p.kappamin κ = km := ⟨(p.kappamin κ).toNat, by omega⟩
      simp only [hkm, Int.toNat_natCast]
      rw [hkm] at hk0 hk2
      have hkm0 : 0 < km := by omega
      have hkmκ : km ≤ κ := by omega
      have hvr : ∀ k < km, p.VR κ k = vprod n p.V k x := fun k hk => h.vr k (by rw [hkm]; omega)
      obtain ⟨h1, u1⟩ := hhApply_spec ho hnm (by omega) hn hx h0 (hvr 0 hkm0)
      unfold hhComputeRange hhApplyRange
      rw [hmin, show min km p.nmaxkappa = km by omega]
      obtain ⟨h2, u2⟩ := hhApplyRange_spec ho hn (km - 1) 1 (p := hhApply o κ 0 p) (x := x)
        (κ := κ) (u1.nmaxkappa.trans hnm) (by omega) (by rw [u1.Bfp]; exact hx) h1
        (by intro k hk; rw [u1.V]; exact hvr k (by omega))
      rw [show 1 + (km - 1) = km by omega] at h2
      set q := (List.range' 1 (km - 1)).foldl (fun p k => hhApply o κ k p) (hhApply o κ 0 p) with hq
      have u12 := u1.trans' u2
      obtain ⟨h3, u3⟩ := hhComputeRange_spec ho hn (κ - km) km (p := q) (x := x)
        (κ := κ) (u12.nmaxkappa.trans hnm) (by omega)
        (by intro k hk; rw [u12.V]; exact hv k (by omega)) (by rw [u12.Bfp]; exact hx) h2
      rw [show km + (κ - km) = κ by omega] at h3
      exact ⟨h3, u12.trans' u3⟩
  · rename_i hd
    exact ⟨h.skip (by omega) (by omega), Upd.rfl' p⟩

theorem sum_fsetcolZ (ho : Exact o) {n nm κ : ℕ} (hn : nm ≤ n) (B : Mat Int)
    (hB : ∀ r, nm ≤ r → r < n → B κ r = 0) :
    ∑ i ∈ range nm, ((o.ofZ (B κ i)) * o.ofZ (B κ i)) = Ex.dot n (bv n B κ) (bv n B κ) := by
  unfold Ex.dot
  have hsub : range nm ⊆ range n := by intro r; simp only [mem_range]; omega
  rw [← sum_subset hsub]
  · refine sum_congr rfl fun i hi => ?_
    have := mem_range.mp hi
    simp only [bv, ho.ofZ]; rw [if_pos (by omega)]
  · intro i hi hi'
    simp only [mem_range] at hi hi'
    simp only [bv]; rw [if_pos hi, hB _ (by omega) hi]; simp

/-- `householder_r(kappa)`, `kappa > 0`. -/
theorem householderR_spec (ho : Exact o) {n κ : ℕ} (str : ℕ → ℤ) (B : Mat Int) (p : FPart ℝ)
    (hκ : 0 < κ) (hκn : κ < nmaxOf str κ) (hn : nmaxOf str κ ≤ n)
    (hv : ∀ k < κ, ∀ r, nmaxOf str κ ≤ r → r < n → p.V k r = 0)
    (hz : ∀ r, nmaxOf str κ ≤ r → r < n → p.Bfp κ r = 0)
    (hB : ∀ r, nmaxOf str κ ≤ r → r < n → B κ r = 0)
    (hkept : p.colKept κ = true → ColPre n (nmaxOf str κ) κ p (bv n B κ)) :
    ColPost n (nmaxOf str κ) κ (householderR o str B κ p) (bv n B κ) ∧
      HhFrame κ p (householderR o str B κ p) := by
  set nm := nmaxOf str κ with hnm
  set x := bv n B κ with hx
  unfold householderR
  rw [if_neg (by omega)]
  simp only []
  split
  · rename_i hk
    set q : FPart ℝ := { p with nmaxkappa := nmaxOf str κ } with hq
    have hpre := hkept hk
    have hpre' : ColPre n nm κ q x := ⟨hpre.bfp, hpre.nrm, hpre.kmin0, hpre.kmin1, hpre.vr,
      fun a b => ⟨(hpre.skip a b).rk, (hpre.skip a b).vr⟩⟩
    obtain ⟨h1, u⟩ := hhKept_spec ho (p := q) hκ hκn hn rfl hv hpre'
    constructor
    · refine ⟨u.nmaxkappa, ?_, ?_, ?_, by simp [hhCopyR], ⟨h1.rk, h1.vr⟩, ?_⟩
      · simp only [hhCopyR, u.colKept]; exact hk
      · intro r hr; simp only [hhCopyR, u.Bfp]; exact hpre.bfp r hr
      · simp only [hhCopyR, u.normB2]; exact hpre.nrm
      · intro i hi; exact hhCopyR_spec hκ hκn u.nmaxkappa h1 i hi
    · refine ⟨u.V, ?_, ?_, ?_, ?_, ?_, ?_, u.descendu⟩
      · intro c hc; simp only [hhCopyR, fsetcol]; rw [setCol_ne _ _ hc, u.R]
      · intro c hc; simp only [hhCopyR, u.Bfp]
        rfl
      · intro c hc; simp only [hhCopyR, u.normB2]; rfl
      · intro c hc; simp only [hhCopyR, u.colKept]; rfl
      · intro c hc; simp only [hhCopyR]; rw [setAt_ne _ _ hc, u.kappamin]
      · intro c hc; simp only [hhCopyR]; rw [u.VR c hc]
  · rename_i hk
    unfold hhFull
    simp only []
    set q : FPart ℝ :=
      { p with
        normB2 := setAt p.normB2 κ
          (fpNormSq o ((fsetcolZ o p.Bfp κ (B κ) (nmaxOf str κ)) κ) (nmaxOf str κ))
        Bfp := fsetcolZ o p.Bfp κ (B κ) (nmaxOf str κ)
        colKept := setAt p.colKept κ true
        nmaxkappa := nmaxOf str κ } with hq
    have hbx : ∀ r < n, q.Bfp κ r = x r := by
      intro r hr
      simp only [hq, fsetcolZ, setCol_same, hx, bv, if_pos hr]
      split
      · rw [ho.ofZ]
      · rename_i h1; rw [hz r (by omega) hr, hB r (by omega) hr]; simp
    have h0 : ColSt n nm κ q x 0 := ⟨fun k hk => by omega, fun k hk => by omega⟩
    obtain ⟨h1, u1⟩ := hhCompute_spec ho (p := q) (nm := nm) rfl (by omega) hn (hv 0 hκ)
      (fun r hr => hbx r (by omega)) h0
    unfold hhComputeRange
    rw [show min κ (nmaxOf str κ) = κ by omega]
    obtain ⟨h2, u2⟩ := hhComputeRange_spec ho hn (κ - 1) 1 (p := hhCompute o κ 0 q) (x := x)
      (κ := κ) (u1.nmaxkappa.trans rfl) (by omega)
      (by intro k hk; rw [u1.V]; exact hv k (by omega))
      (by rw [u1.Bfp]; exact fun r hr => hbx r (by omega)) h1
    rw [show 1 + (κ - 1) = κ by omega] at h2
    have u := u1.trans' u2
    set q2 := (List.range' 1 (κ - 1)).foldl (fun p k => hhCompute o κ k p) (hhCompute o κ 0 q)
      with hq2
    constructor
    · refine ⟨u.nmaxkappa, ?_, ?_, ?_, by simp [hhCopyR], ⟨h2.rk, h2.vr⟩, ?_⟩
      · simp only [hhCopyR, u.colKept]; simp [hq]
      · intro r hr; simp only [hhCopyR, u.Bfp]; exact hbx r hr
      · simp only [hhCopyR, u.normB2]
        simp only [hq, setAt_same]
        rw [fpNormSq_exact ho _ _ (by omega), hx, ← sum_fsetcolZ ho hn B hB]
        refine sum_congr rfl fun i hi => ?_
        have := mem_range.mp hi
        simp only [fsetcolZ, setCol_same]; rw [if_pos (by omega)]
      · intro i hi; exact hhCopyR_spec hκ hκn u.nmaxkappa h2 i hi
    · refine ⟨u.V, ?_, ?_, ?_, ?_, ?_, ?_, u.descendu⟩
      · intro c hc; simp only [hhCopyR, fsetcol]; rw [setCol_ne _ _ hc, u.R]
      · intro c hc; simp only [hhCopyR, u.Bfp]
        simp only [hq, fsetcolZ]; rw [setCol_ne _ _ hc]
      · intro c hc; simp only [hhCopyR, u.normB2]; simp only [hq]; rw [setAt_ne _ _ hc]
      · intro c hc; simp only [hhCopyR, u.colKept]; simp only [hq]; rw [setAt_ne _ _ hc]
      · intro c hc; simp only [hhCopyR]; rw [setAt_ne _ _ hc, u.kappamin]
      · intro c hc; simp only [hhCopyR]; rw [u.VR c hc]

/-- `householder_r(0)`. -/
theorem householderR_zero_spec (ho : Exact o) {n : ℕ} (str : ℕ → ℤ) (B : Mat Int) (p : FPart ℝ)
    (hκn : 0 < nmaxOf str 0) (hn : nmaxOf str 0 ≤ n)
    (hz : ∀ r, nmaxOf str 0 ≤ r → r < n → p.Bfp 0 r = 0)
    (hB : ∀ r, nmaxOf str 0 ≤ r → r < n → B 0 r = 0)
    (hkept : p.colKept 0 = true → (∀ r < n, p.Bfp 0 r = bv n B 0 r) ∧
      p.normB2 0 = Ex.dot n (bv n B 0) (bv n B 0)) :
    ColPost n (nmaxOf str 0) 0 (householderR o str B 0 p) (bv n B 0) ∧
      HhFrame 0 p (householderR o str B 0 p) := by
  unfold householderR
  rw [if_pos rfl]
  simp only []
  split
  · rename_i hk
    obtain ⟨h1, h2⟩ := hkept hk
    constructor
    · refine ⟨rfl, hk, h1, h2, by simp, ⟨fun k hk => by omega, fun k hk => by omega⟩, ?_⟩
      intro i hi
      simp only [fsetcol, setCol_same, if_pos hi, Ex.app]
      exact h1 i (by omega)
    · refine ⟨rfl, ?_, fun _ _ => rfl, fun _ _ => rfl, fun _ _ => rfl, ?_, fun _ _ => rfl, rfl⟩
      · intro c hc; simp only [fsetcol]; rw [setCol_ne _ _ hc]
      · intro c hc; simp only []; rw [setAt_ne _ _ hc]
  · have hbx : ∀ r < n, fsetcolZ o p.Bfp 0 (B 0) (nmaxOf str 0) 0 r = bv n B 0 r := by
      intro r hr
      simp only [fsetcolZ, setCol_same, bv, if_pos hr]
      split
      · rw [ho.ofZ]
      · rename_i h1; rw [hz r (by omega) hr, hB r (by omega) hr]; simp
    constructor
    · refine ⟨rfl, by simp, hbx, ?_, by simp, ⟨fun k hk => by omega, fun k hk => by omega⟩, ?_⟩
      · simp only [setAt_same]
        rw [fpNormSq_exact ho _ _ (by omega), ← sum_fsetcolZ ho hn B hB]
        refine sum_congr rfl fun i hi => ?_
        have := mem_range.mp hi
        simp only [fsetcol, fsetcolZ, setCol_same]; rw [if_pos (by omega), if_pos (by omega)]
      · intro i hi
        simp only [fsetcol, setCol_same, if_pos hi, Ex.app]
        exact hbx i (by omega)
    · refine ⟨rfl, ?_, ?_, ?_, ?_, ?_, fun _ _ => rfl, rfl⟩
      · intro c hc; simp only [fsetcol]; rw [setCol_ne _ _ hc]
      · intro c hc; simp only [fsetcolZ]; rw [setCol_ne _ _ hc]
      · intro c hc; simp only []; rw [setAt_ne _ _ hc]
      · intro c hc; simp only []; rw [setAt_ne _ _ hc]
      · intro c hc; simp only []; rw [setAt_ne _ _ hc]

end HPLLL
