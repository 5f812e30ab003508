import Verif.Proof.HhVSpec
import Verif.Proof.LInv
/-! One pass of size reduction in exact arithmetic. -/

namespace HPLLL
open Spec Finset

variable {o : FPOps ℝ}

/-- Loop invariant of a pass: `B0`, `R0` are the values before. -/
structure SizeSt (n κ m : ℕ) (V : Mat ℝ) (B0 : Mat Int) (R0 : Mat ℝ) (B : Mat Int) (R : Mat ℝ) :
    Prop where
  Bc : ∀ c, c ≠ κ → B c = B0 c
  Rc : ∀ c, c ≠ κ → R c = R0 c
  tr : ∀ r < κ, R κ r = Ex.app n V κ (bv n B κ) r
  red : ∀ r, m ≤ r → r < κ → |R κ r| ≤ |R0 r r| / 2

theorem bv_axpy {n κ i l : ℕ} (B : Mat Int) (k : ℤ)
    (hl : ∀ r, l ≤ r → r < n → B i r = 0) :
    bv n (axpy B κ i (-k) l) κ = fun r => bv n B κ r + (-(k : ℝ)) * bv n B i r := by
  funext r
  simp only [bv, axpy, setCol_same]
  split
  · rename_i hr
    split
    · push_cast; ring
    · rw [hl r (by omega) hr]; simp
  · ring

theorem SizeSt.step {n κ m l : ℕ} {str : ℕ → ℤ} {V : Mat ℝ} {B0 B : Mat Int}
    {R0 R : Mat ℝ} (hq : QRv n str B0 V R0 κ) (hm : m < κ)
    (h : SizeSt n κ (m + 1) V B0 R0 B R)
    (hl : ∀ r, l ≤ r → r < n → B0 m r = 0) (k : ℤ) (hk : |R κ m / R m m - k| ≤ 1 / 2) :
    SizeSt n κ m V B0 R0 (axpy B κ m (-k) l)
      (setCol R κ fun r => if r < m + 1 then R κ r - k * R m r else R κ r) := by
  have hRm : R m = R0 m := h.Rc m (by omega)
  have hBm : B m = B0 m := h.Bc m (by omega)
  constructor
  · intro c hc; unfold axpy; rw [setCol_ne _ _ hc]; exact h.Bc c hc
  · intro c hc; rw [setCol_ne _ _ hc]; exact h.Rc c hc
  · intro r hr
    rw [setCol_same, bv_axpy B k (by rw [hBm]; exact hl), Ex.app_add, Ex.app_smul]
    have hb : bv n B m = bv n B0 m := by unfold bv; rw [hBm]
    simp only []
    rw [hb, hq.app_eq m hm, ← h.tr r hr]
    split
    · rw [if_pos (by omega), hRm]; ring
    · rw [if_neg (by omega)]; ring
  · intro r hr hrκ
    rw [setCol_same]
    by_cases hrm : r = m
    · subst hrm
      simp only [Nat.lt_succ_self, if_true]
      have hne : R0 r r ≠ 0 := hq.rdiag r hrκ
      rw [hRm] at hk ⊢
      have : R κ r - k * R0 r r = (R κ r / R0 r r - k) * R0 r r := by field_simp
      rw [this, abs_mul]
      nlinarith [abs_nonneg (R0 r r)]
    · rw [if_neg (by omega)]
      exact h.red r (by omega) hrκ

theorem SizeSt.skip {n κ m : ℕ} {str : ℕ → ℤ} {V : Mat ℝ} {B0 B : Mat Int}
    {R0 R : Mat ℝ} (hq : QRv n str B0 V R0 κ) (hm : m < κ)
    (h : SizeSt n κ (m + 1) V B0 R0 B R) (hk : |R κ m / R m m - 0| ≤ 1 / 2) :
    SizeSt n κ m V B0 R0 B R := by
  refine ⟨h.Bc, h.Rc, h.tr, fun r hr hrκ => ?_⟩
  by_cases hrm : r = m
  · subst hrm
    have hne : R0 r r ≠ 0 := hq.rdiag r hrκ
    rw [h.Rc r (by omega), sub_zero, abs_div] at hk
    rw [div_le_iff₀ (abs_pos.mpr hne)] at hk
    linarith
  · exact h.red r (by omega) hrκ

/-- Exact behaviour of the rounded quotient. -/
theorem rnd_int (ho : Exact o) (a b : ℝ) :
    ∃ k : ℤ, o.rnd (o.div a b) = k ∧ |a / b - k| ≤ 1 / 2 := by
  rw [ho.div]; exact ho.rnd _

/-- Sequential pass. -/
theorem sizeUpdateLoop_spec (ho : Exact o) {n κ : ℕ} {str : ℕ → ℤ} {V : Mat ℝ} {B0 : Mat Int}
    {R0 : Mat ℝ} (hq : QRv n str B0 V R0 κ)
    (hl : ∀ i < κ, ∀ r, nmaxOf str i ≤ r → r < n → B0 i r = 0) (m : ℕ) (hm : m ≤ κ) :
    ∀ (s : Lat ℝ) (b : Bool), s.str = str → SizeSt n κ m V B0 R0 s.B s.fp.R →
    let q := sizeUpdateLoop o κ m (s, b)
    SizeSt n κ 0 V B0 R0 q.1.B q.1.fp.R ∧
    (∃ R x, q.1.fp = { s.fp with R := R, x := x }) ∧
    (q.2 = false → b = false ∧ q.1.B = s.B ∧ q.1.fp.R = s.fp.R) ∧
    (ExactTies o → (∀ r < m, |s.fp.R κ r| ≤ |R0 r r| / 2) → q.2 = b) := by
  induction m with
  | zero =>
    intro s b hs h
    exact ⟨h, ⟨_, _, rfl⟩, fun hb => ⟨hb, rfl, rfl⟩, fun _ _ => rfl⟩
  | succ m ih =>
    intro s b hs h
    simp only [sizeUpdateLoop]
    obtain ⟨k, hk1, hk2⟩ := rnd_int ho (s.fp.R κ m) (s.fp.R m m)
    have hRm : s.fp.R m = R0 m := h.Rc m (by omega)
    unfold sizeUpdateStep
    simp only [hk1]
    by_cases hz : o.isZero (k : ℝ) = true
    · rw [if_pos hz]
      have hk0 : (k : ℝ) = 0 := (ho.isZero _).mp hz
      obtain ⟨a1, ⟨R, x, a2⟩, a3, a4⟩ := ih (by omega)
        { s with fp := { s.fp with x := (k : ℝ) } } b hs
        (h.skip hq (by omega) (by rw [hk0] at hk2; exact hk2))
      refine ⟨a1, ⟨R, x, by rw [a2]⟩, a3, fun ht hr => a4 ht (fun r hr' => hr r (by omega))⟩
    · rw [if_neg hz]
      rw [redR_exact ho, redZ_eq, multOf_exact ho]
      obtain ⟨a1, ⟨R, x, a2⟩, a3, a4⟩ := ih (by omega)
        { s with
          fp := { s.fp with
            x := (k : ℝ)
            R := setCol s.fp.R κ fun r => if r < m + 1 then s.fp.R κ r - k * s.fp.R m r
              else s.fp.R κ r }
          B := axpy s.B κ m (-k) (nmaxOf s.str m)
          U := if s.transf then redZ o s.fastLong κ m (min s.d (nmaxOf s.str m)) k k s.U else s.U
          ub := s.ub || !(decide (κ < s.d ∧ m < s.d ∧ m < s.n ∧ nmaxOf s.str m ≤ s.n)) } true hs
        (h.step hq (by omega) (by rw [hs]; exact hl m (by omega)) k hk2)
      refine ⟨a1, ⟨R, x, by rw [a2]⟩, fun hb => ?_, fun ht hr => ?_⟩
      · exact absurd (a3 hb).1 (by simp)
      · exfalso
        apply hz
        rw [ho.isZero]
        have hne : R0 m m ≠ 0 := hq.rdiag m (by omega)
        have h1 := hr m (by omega)
        rw [← hk1, ho.div]
        apply ht.tie
        rw [hRm, abs_div, div_le_iff₀ (abs_pos.mpr hne)]
        linarith

theorem sizeUpdateRLoop_vx (κ : ℕ) (m : ℕ) :
    ∀ (q : Lat ℝ × (ℕ → ℝ) × Bool) (j : ℕ), m ≤ j →
      (sizeUpdateRLoop o κ m q).2.1 j = q.2.1 j := by
  induction m with
  | zero => intro q j _; rfl
  | succ m ih =>
    intro q j hj
    simp only [sizeUpdateRLoop]
    rw [ih _ j (by omega)]
    unfold sizeUpdateRStep
    simp only []
    split <;> (simp only []; rw [setAt_ne _ _ (by omega)])

/-- Parallel pass: the multipliers are computed first, then applied. -/
theorem sizeUpdateRLoop_spec (ho : Exact o) {n κ : ℕ} {str : ℕ → ℤ} {V : Mat ℝ} {B0 : Mat Int}
    {R0 : Mat ℝ} (hq : QRv n str B0 V R0 κ) (l : ℕ)
    (hl : ∀ i < κ, ∀ r, l ≤ r → r < n → B0 i r = 0) (fl : Bool) (m : ℕ) (hm : m ≤ κ) :
    ∀ (s : Lat ℝ) (vx : ℕ → ℝ) (b : Bool) (B : Mat Int), SizeSt n κ m V B0 R0 B s.fp.R →
    let q := sizeUpdateRLoop o κ m (s, vx, b)
    SizeSt n κ 0 V B0 R0 (seqCols o fl κ q.2.1 l m B) q.1.fp.R ∧
    (∃ R x u, q.1 = { s with fp := { s.fp with R := R, x := x }, ub := u }) ∧
    (q.2.2 = false → b = false ∧ seqCols o fl κ q.2.1 l m B = B ∧ q.1.fp.R = s.fp.R) ∧
    (ExactTies o → (∀ r < m, |s.fp.R κ r| ≤ |R0 r r| / 2) → q.2.2 = b) := by
  induction m with
  | zero =>
    intro s vx b B h
    exact ⟨h, ⟨_, _, _, rfl⟩, fun hb => ⟨hb, rfl, rfl⟩, fun _ _ => rfl⟩
  | succ m ih =>
    intro s vx b B h
    simp only [sizeUpdateRLoop, seqCols]
    simp only [sizeUpdateRLoop_vx κ m _ m (le_refl _)]
    obtain ⟨k, hk1, hk2⟩ := rnd_int ho (s.fp.R κ m) (s.fp.R m m)
    have hRm : s.fp.R m = R0 m := h.Rc m (by omega)
    unfold sizeUpdateRStep
    simp only [hk1]
    by_cases hz : o.isZero (k : ℝ) = true
    · rw [if_pos hz]
      have hk0 : (k : ℝ) = 0 := (ho.isZero _).mp hz
      simp only [setAt_same, if_pos hz]
      obtain ⟨a1, ⟨R, x, u, a2⟩, a3, a4⟩ := ih (by omega)
        { s with fp := { s.fp with x := (k : ℝ) } } (setAt vx m (k : ℝ)) b B
        (h.skip hq (by omega) (by rw [hk0] at hk2; exact hk2))
      refine ⟨a1, ⟨R, x, u, by rw [a2]⟩, a3, fun ht hr => a4 ht (fun r hr' => hr r (by omega))⟩
    · rw [if_neg hz]
      simp only [setAt_same, if_neg hz]
      rw [redR_exact ho, multOf_exact ho]
      obtain ⟨a1, ⟨R, x, u, a2⟩, a3, a4⟩ := ih (by omega)
        { s with
          fp := { s.fp with
            x := (k : ℝ)
            R := setCol s.fp.R κ fun r => if r < m + 1 then s.fp.R κ r - k * s.fp.R m r
              else s.fp.R κ r }
          ub := s.ub || !(decide (κ < s.d ∧ m < s.d ∧ m < s.n)) } (setAt vx m (k : ℝ)) true
        (axpy B κ m (-k) l)
        (h.step hq (by omega) (hl m (by omega)) k hk2)
      refine ⟨a1, ⟨R, x, u, by rw [a2]⟩, fun hb => ?_, fun ht hr => ?_⟩
      · exact absurd (a3 hb).1 (by simp)
      · exfalso
        apply hz
        rw [ho.isZero]
        have hne : R0 m m ≠ 0 := hq.rdiag m (by omega)
        have h1 := hr m (by omega)
        rw [← hk1, ho.div]
        apply ht.tie
        rw [hRm, abs_div, div_le_iff₀ (abs_pos.mpr hne)]
        linarith

/-- A complete pass (all rows `κ-1..0`), sequential or parallel. -/
theorem hsizePass_spec (ho : Exact o) {n κ : ℕ} (s : Lat ℝ) (hS : 0 < s.numS)
    (hq : QRv n s.str s.B s.fp.V s.fp.R κ)
    (hl : ∀ i < κ, ∀ r, nmaxOf s.str i ≤ r → r < n → s.B i r = 0)
    (htr : ∀ r < κ, s.fp.R κ r = Ex.app n s.fp.V κ (bv n s.B κ) r) :
    let q := hsizePass o κ κ s
    SizeSt n κ 0 s.fp.V s.B s.fp.R q.1.B q.1.fp.R ∧
    (∃ R x, q.1.fp = { s.fp with R := R, x := x }) ∧
    (q.2 = false → q.1.B = s.B ∧ q.1.fp.R = s.fp.R) ∧
    (ExactTies o → (∀ r < κ, |s.fp.R κ r| ≤ |s.fp.R r r| / 2) → q.2 = false) := by
  have h0 : SizeSt n κ κ s.fp.V s.B s.fp.R s.B s.fp.R :=
    ⟨fun _ _ => rfl, fun _ _ => rfl, htr, fun r hr hr' => by omega⟩
  intro q
  simp only [q]
  unfold hsizePass
  split
  · obtain ⟨a1, a2, a3, a4⟩ := sizeUpdateLoop_spec ho hq hl κ (le_refl _) s false rfl h0
    exact ⟨a1, a2, fun h => (a3 h).2, a4⟩
  · obtain ⟨a1, ⟨R, x, u, a2⟩, a3, a4⟩ := sizeUpdateRLoop_spec ho hq (psizeNmax s.str κ)
      (fun i hi r hr hrn => hl i hi r
        (le_trans (nmaxOf_le_psizeNmax s.str κ i (by omega)) hr) hrn) s.fastLong κ (le_refl _)
      s (fun _ => o.zero) false s.B h0
    simp only [a2] at a1 a3 a4 ⊢
    rw [psizeUpdateB_eq _ _ _ _ _ _ _ _ (le_refl _) hS]
    exact ⟨a1, ⟨_, _, rfl⟩, fun h => (a3 h).2, a4⟩

end HPLLL
