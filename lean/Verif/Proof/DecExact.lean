import Verif.Proof.HhAll
import Verif.Proof.DecompAlg
import Mathlib.LinearAlgebra.Span.Basic
/-! FGAS size reduction in exact arithmetic. -/

namespace HPLLL
open Spec Finset

namespace Dec

variable {o : FPOps ℝ}

/-- Triangular factor of the first `κ` columns. -/
abbrev QR (d : ℕ) (M : Mat Int) (V R : Mat ℝ) (κ : ℕ) : Prop :=
  QRv d (fun _ => (d : ℤ) - 1) M V R κ

theorem nmax_const (d k : ℕ) : nmaxOf (fun _ => (d : ℤ) - 1) k = d := by simp [nmaxOf]

/-- Real span of the first `k` columns. -/
def Sp (d : ℕ) (M : Mat Int) (k : ℕ) : Submodule ℝ (ℕ → ℝ) :=
  Submodule.span ℝ {x | ∃ i, i < k ∧ x = bv d M i}

theorem bv_mem_Sp {d : ℕ} {M : Mat Int} {k i : ℕ} (h : i < k) : bv d M i ∈ Sp d M k :=
  Submodule.subset_span ⟨i, h, rfl⟩

theorem Sp_le {d : ℕ} {M : Mat Int} {k : ℕ} {S : Submodule ℝ (ℕ → ℝ)}
    (h : ∀ i < k, bv d M i ∈ S) : Sp d M k ≤ S := by
  unfold Sp
  rw [Submodule.span_le]
  rintro x ⟨i, hi, rfl⟩
  exact h i hi

theorem Sp_mono {d : ℕ} {M : Mat Int} {k l : ℕ} (h : k ≤ l) : Sp d M k ≤ Sp d M l :=
  Sp_le fun i hi => bv_mem_Sp (by omega)

theorem Sp_congr {d : ℕ} {M M' : Mat Int} {k : ℕ} (h : ∀ i < k, M' i = M i) :
    Sp d M' k = Sp d M k := by
  have e : ∀ i < k, bv d M' i = bv d M i := fun i hi => by unfold bv; rw [h i hi]
  apply le_antisymm
  · exact Sp_le fun i hi => by rw [e i hi]; exact bv_mem_Sp hi
  · exact Sp_le fun i hi => by rw [← e i hi]; exact bv_mem_Sp hi

theorem Sp_zero {d : ℕ} {M : Mat Int} {x : ℕ → ℝ} (h : x ∈ Sp d M 0) : x = 0 := by
  have : Sp d M 0 ≤ ⊥ := Sp_le fun i hi => by omega
  simpa using this h

theorem app_ge (n : ℕ) (V : ℕ → ℕ → ℝ) (k : ℕ) (x : ℕ → ℝ) (r : ℕ) (hr : n ≤ r) :
    Ex.app n V k x r = x r := by
  induction k with
  | zero => rfl
  | succ k ih =>
    simp only [Ex.app, Ex.refl, Ex.vv]
    rw [if_neg (by omega), ih]; ring

theorem app_of_mem {d : ℕ} {M : Mat Int} {V R : Mat ℝ} {m : ℕ} (h : QR d M V R m) (k : ℕ)
    (hk : k ≤ m) {x : ℕ → ℝ} (hx : x ∈ Sp d M k) (r : ℕ) (hr : k ≤ r) : Ex.app d V m x r = 0 := by
  unfold Sp at hx
  induction hx using Submodule.span_induction with
  | mem x hx =>
    obtain ⟨i, hi, rfl⟩ := hx
    rw [h.app_eq i (by omega), if_neg (by omega)]
  | zero =>
    have : (0 : ℕ → ℝ) = fun r => (0 : ℝ) * (0 : ℕ → ℝ) r := by funext r; simp
    rw [this, Ex.app_smul]; simp
  | add x y _ _ ihx ihy =>
    have : x + y = fun r => x r + y r := rfl
    rw [this, Ex.app_add]; simp only; rw [ihx, ihy, add_zero]
  | smul a x _ ih =>
    have : a • x = fun r => a * x r := rfl
    rw [this, Ex.app_smul]; simp only; rw [ih, mul_zero]

theorem mem_of_app {d : ℕ} {M : Mat Int} {V R : Mat ℝ} {m : ℕ} (h : QR d M V R m) (k : ℕ)
    (hk : k ≤ m) : ∀ {x : ℕ → ℝ}, (∀ r, k ≤ r → Ex.app d V m x r = 0) → x ∈ Sp d M k := by
  induction k with
  | zero =>
    intro x hx
    have h0 : x = 0 := by
      have h1 : Ex.dot d x x = 0 := by
        rw [← Ex.app_dot d V m h.vnorm]
        unfold Ex.dot
        exact sum_eq_zero fun r _ => by rw [hx r (by omega)]; ring
      funext r
      by_cases hr : r < d
      · exact Ex.dot_self_eq_zero h1 r hr
      · rw [← app_ge d V m x r (by omega)]; exact hx r (by omega)
    rw [h0]; exact Submodule.zero_mem _
  | succ k ih =>
    intro x hx
    set a := Ex.app d V m x k / R k k with ha
    have hne := h.rdiag k (by omega)
    have hy : (fun r => x r + (-a) * bv d M k r) ∈ Sp d M k := by
      apply ih (by omega)
      intro r hr
      rw [Ex.app_add, Ex.app_smul]
      simp only
      rw [h.app_eq k (by omega)]
      by_cases hrk : r = k
      · subst hrk
        rw [if_pos (le_refl _), ha]; field_simp; ring
      · rw [if_neg (by omega), hx r (by omega)]; ring
    have hx' : x = (fun r => x r + (-a) * bv d M k r) + a • bv d M k := by
      funext r; simp
    rw [hx']
    exact Submodule.add_mem _ (Sp_mono (Nat.le_succ _) hy)
      (Submodule.smul_mem _ _ (bv_mem_Sp (Nat.lt_succ_self _)))

/-! ### householder -/

theorem fgCol_spec (ho : Exact o) {d κ m : ℕ} (hm : m ≤ d) (M : Mat Int) (p : FPart ℝ) :
    (∀ i < d, (fgCol o (zX o) d M κ m p).R κ i = Ex.app d p.V m (bv d M κ) i) ∧
    (fgCol o (zX o) d M κ m p).V = p.V ∧
    (∀ c, c ≠ κ → (fgCol o (zX o) d M κ m p).R c = p.R c) := by
  unfold fgCol
  simp only
  obtain ⟨a, b, c⟩ := hhAllFold_spec ho (n := d) (κ := κ) (bv d M κ) m hm
    { p with
      R := fsetcol p.R κ (fun i => (zX o).toF (M κ i)) d
      normB2 := setAt p.normB2 κ (fpNormSq o ((fsetcol p.R κ (fun i => (zX o).toF (M κ i)) d) κ) d) }
    (by
      intro i hi
      simp only [fsetcol, setCol_same, if_pos hi, zX, ho.ofZ, bv])
  refine ⟨a, b, fun e he => (c e he).trans ?_⟩
  simp only [fsetcol]; rw [setCol_ne _ _ he]

theorem hv_frame (κ n : ℕ) (p : FPart ℝ) : HvFrame κ p (householderV o n κ p) := by
  refine ⟨?_, ?_, ?_, ⟨_, _, rfl⟩⟩
  · intro c hc
    simp only [householderV, setEntry, fdivcol]
    rw [setCol_ne _ _ hc, setCol_ne _ _ hc, setCol_ne _ _ hc]
  · intro c hc
    simp only [householderV, setEntry]
    rw [setCol_ne _ _ hc]
  · intro i hi
    simp only [householderV, setEntry, setCol_same]
    rw [setAt_ne _ _ hi]

theorem hv_diag (ho : Exact o) {κ n : ℕ} (hκ : κ < n) (p : FPart ℝ) (hp : p.nmaxkappa = n) :
    (householderV o n κ p).R κ κ * (householderV o n κ p).R κ κ = Ex.tail n κ (p.R κ) := by
  have hnrm : fpNorm o (getcol p.R κ κ) (n - κ) = Real.sqrt (Ex.tail n κ (p.R κ)) := by
    unfold fpNorm
    rw [fpNormSq_exact ho _ _ (by omega), ho.sqrt]
    rfl
  have h := Real.mul_self_sqrt (Ex.tail_nonneg n κ (p.R κ))
  simp only [householderV, setEntry, setCol_same, setAt_same, hp, hnrm]
  split
  · rw [ho.neg, neg_mul_neg]; exact h
  · exact h

theorem tail_congr {n k : ℕ} {x y : ℕ → ℝ} (h : ∀ r < n, k ≤ r → x r = y r) :
    Ex.tail n k x = Ex.tail n k y := by
  unfold Ex.tail
  refine sum_congr rfl fun i hi => ?_
  have := mem_range.mp hi
  rw [h _ (by omega) (by omega)]

/-- Outcome of `householder(kappa)`; `K` reflections are applied. -/
structure HhOut (d κ K : ℕ) (M : Mat Int) (p p' : FPart ℝ) : Prop where
  V : ∀ c, c ≠ κ → p'.V c = p.V c
  R : ∀ c, c ≠ κ → p'.R c = p.R c
  tr : ∀ r < K, p'.R κ r = Ex.app d p.V K (bv d M κ) r

/-- On the diagonal. -/
structure HhDiag (d κ : ℕ) (M : Mat Int) (p' : FPart ℝ) : Prop where
  diag : p'.R κ κ * p'.R κ κ = Ex.tail d κ (Ex.app d p'.V κ (bv d M κ))
  qr : QR d M p'.V p'.R κ → Ex.tail d κ (Ex.app d p'.V κ (bv d M κ)) ≠ 0 →
    QR d M p'.V p'.R (κ + 1)

theorem fgHhCol_left (ho : Exact o) {d ldim κ : ℕ} (hκ : κ < d - ldim) (M : Mat Int) (p : FPart ℝ) :
    HhOut d κ κ M p (fgHhCol o (zX o) d ldim M κ p) ∧
    HhDiag d κ M (fgHhCol o (zX o) d ldim M κ p) := by
  have hd : κ < d := by omega
  unfold fgHhCol
  rw [if_pos hκ]
  obtain ⟨a, b, c⟩ := fgCol_spec ho (κ := κ) hd.le M p
  set p1 := fgCol o (zX o) d M κ κ p with hp1
  set p2 : FPart ℝ := { p1 with nmaxkappa := d } with hp2
  simp only
  have f := hv_frame (o := o) κ d p2
  set p3 := householderV o d κ p2 with hp3
  have hV : ∀ c, c ≠ κ → p3.V c = p.V c := fun c hc => by
    rw [f.V c hc]; show p1.V c = _; rw [b]
  have happ : ∀ x, Ex.app d p3.V κ x = Ex.app d p.V κ x := fun x =>
    Ex.app_congrV d p3.V p.V κ (fun j hj => hV j (by omega)) x
  have hRd : ∀ i ≤ κ, setCol p3.R κ (fun i => if κ + 1 ≤ i ∧ i < d then o.zero else p3.R κ i) κ i
      = p3.R κ i := by
    intro i hi; rw [setCol_same, if_neg (by omega)]
  have hRc : ∀ c, c ≠ κ →
      setCol p3.R κ (fun i => if κ + 1 ≤ i ∧ i < d then o.zero else p3.R κ i) c = p3.R c :=
    fun c hc => setCol_ne _ _ hc
  have ht : Ex.tail d κ (p2.R κ) = Ex.tail d κ (Ex.app d p.V κ (bv d M κ)) :=
    tail_congr fun r hr _ => a r hr
  have hdg : p3.R κ κ * p3.R κ κ = Ex.tail d κ (Ex.app d p3.V κ (bv d M κ)) := by
    rw [happ, ← ht]; exact hv_diag ho hd p2 rfl
  refine ⟨⟨hV, ?_, ?_⟩, ⟨?_, ?_⟩⟩
  · intro e he
    show setCol p3.R κ _ e = _
    rw [hRc e he, f.R e he]; exact c e he
  · intro r hr
    show setCol p3.R κ _ κ r = _
    rw [hRd r (by omega), f.Rκ r (by omega)]; exact a r (by omega)
  · show setCol p3.R κ _ κ κ * setCol p3.R κ _ κ κ = _
    rw [hRd κ (le_refl _)]; exact hdg
  · intro hq hT
    have hq2 : QR d M p2.V p2.R κ := by
      refine hq.congr (fun _ _ => rfl) (fun _ _ => rfl) (fun k hk => ?_) (fun k hk => ?_)
      · show p2.V k = p3.V k
        exact (f.V k (by omega)).symm
      · show p2.R k = setCol p3.R κ _ k
        rw [hRc k (by omega)]
        exact (f.R k (by omega)).symm
    obtain ⟨e1, e2, e3⟩ := QRv.extend ho (p := p2) (κ := κ) hq2 (by rw [nmax_const]; exact hd)
      (by rw [nmax_const]) (fun k _ => by rw [nmax_const, nmax_const])
      (fun r hr hrn => by rw [nmax_const] at hr; omega) (by rw [nmax_const])
      (fun i hi => by
        rw [nmax_const] at hi
        show p1.R κ i = Ex.app d p1.V κ (bv d M κ) i
        rw [b]; exact a i hi)
      (by
        have : Ex.app d p2.V κ (bv d M κ) = Ex.app d p3.V κ (bv d M κ) := by
          rw [happ]; show Ex.app d p1.V κ _ = _; rw [b]
        rw [this]; exact hT)
    have hR : ∀ k, k < κ + 1 → ∀ i ≤ k,
        setCol p3.R κ (fun i => if κ + 1 ≤ i ∧ i < d then o.zero else p3.R κ i) k i = p3.R k i := by
      intro k hk i hi
      by_cases hkκ : k = κ
      · subst hkκ; exact hRd i hi
      · rw [hRc k hkκ]
    exact ⟨e1.vnorm, e1.vsupp, fun k hk i hi => by
      show setCol p3.R κ _ k i = _
      rw [hR k hk i hi]; exact e1.rdef k hk i hi, e1.rzero,
      fun k hk => by
        show setCol p3.R κ _ k k ≠ 0
        rw [hR k hk k (le_refl _)]; exact e1.rdiag k hk⟩

theorem fgHhCol_right (ho : Exact o) {d ldim κ : ℕ} (hκ : d - ldim ≤ κ) (M : Mat Int) (p : FPart ℝ) :
    HhOut d κ (d - ldim) M p (fgHhCol o (zX o) d ldim M κ p) ∧
    (fgHhCol o (zX o) d ldim M κ p).V = p.V := by
  unfold fgHhCol
  rw [if_neg (by omega)]
  obtain ⟨a, b, c⟩ := fgCol_spec ho (d := d) (κ := κ) (m := d - ldim) (by omega) M p
  exact ⟨⟨fun e _ => by rw [b], c, fun r hr => a r (by omega)⟩, b⟩

/-! ### One pass -/

/-- Rows `i, ..., K-1` have been treated. -/
structure Pass (d κ K i : ℕ) (V : Mat ℝ) (M0 : Mat Int) (R0 : Mat ℝ) (M : Mat Int) (R : Mat ℝ) :
    Prop where
  Mc : ∀ c, c ≠ κ → M c = M0 c
  Rc : ∀ c, c ≠ κ → R c = R0 c
  tr : ∀ r < i, R κ r = Ex.app d V K (bv d M κ) r
  red : ∀ r, i ≤ r → r < K → |Ex.app d V K (bv d M κ) r| ≤ |R0 r r| / 2
  gd : ∀ k, gd d M k = gd d M0 k
  diff : bv d M κ - bv d M0 κ ∈ Sp d M0 K

theorem Pass.step {d κ K i : ℕ} {V : Mat ℝ} {M0 M : Mat Int} {R0 R : Mat ℝ}
    (hq : QR d M0 V R0 K) (hK : K ≤ κ) (hi : i < K) (h : Pass d κ K (i + 1) V M0 R0 M R) (k : ℤ)
    (hk : |R κ i / R i i - k| ≤ 1 / 2) :
    Pass d κ K i V M0 R0 (axpy M κ i (-k) d)
      (setCol R κ fun r => if r < i then R κ r - k * R i r else R κ r) := by
  have hRi : R i = R0 i := h.Rc i (by omega)
  have hMi : M i = M0 i := h.Mc i (by omega)
  have hb : bv d M i = bv d M0 i := by unfold bv; rw [hMi]
  have hx : bv d (axpy M κ i (-k) d) κ = fun r => bv d M κ r + (-(k : ℝ)) * bv d M0 i r := by
    rw [bv_axpy M k (fun r h1 h2 => by omega), hb]
  have happ : ∀ r, Ex.app d V K (bv d (axpy M κ i (-k) d) κ) r =
      Ex.app d V K (bv d M κ) r - k * (if r ≤ i then R0 i r else 0) := by
    intro r
    rw [hx, Ex.app_add, Ex.app_smul]
    simp only
    rw [hq.app_eq i hi]; ring
  constructor
  · intro c hc; unfold axpy; rw [setCol_ne _ _ hc]; exact h.Mc c hc
  · intro c hc; rw [setCol_ne _ _ hc]; exact h.Rc c hc
  · intro r hr
    rw [setCol_same, if_pos hr, happ, if_pos (by omega), h.tr r (by omega), hRi]
  · intro r hr hrK
    rw [happ]
    by_cases hri : r = i
    · subst hri
      rw [if_pos (le_refl _), ← h.tr r (by omega)]
      have hne : R0 r r ≠ 0 := hq.rdiag r hrK
      rw [hRi] at hk
      have : R κ r - k * R0 r r = (R κ r / R0 r r - k) * R0 r r := by field_simp
      rw [this, abs_mul]
      nlinarith [abs_nonneg (R0 r r)]
    · rw [if_neg (by omega), mul_zero, sub_zero]
      exact h.red r (by omega) hrK
  · intro e
    rw [gd_axpy d M κ i (by omega) (-k) d (fun r h1 h2 => by omega)]
    exact h.gd e
  · have : bv d (axpy M κ i (-k) d) κ - bv d M0 κ =
        (bv d M κ - bv d M0 κ) + (-(k : ℝ)) • bv d M0 i := by
      rw [hx]; funext r; simp only [Pi.sub_apply, Pi.add_apply, Pi.smul_apply, smul_eq_mul]; ring
    rw [this]
    exact Submodule.add_mem _ h.diff (Submodule.smul_mem _ _ (bv_mem_Sp hi))

theorem Pass.skip {d κ K i : ℕ} {V : Mat ℝ} {M0 M : Mat Int} {R0 R : Mat ℝ}
    (hq : QR d M0 V R0 K) (hK : K ≤ κ) (hi : i < K) (h : Pass d κ K (i + 1) V M0 R0 M R)
    (hk : |R κ i / R i i - 0| ≤ 1 / 2) :
    Pass d κ K i V M0 R0 M R := by
  refine ⟨h.Mc, h.Rc, fun r hr => h.tr r (by omega), fun r hr hrK => ?_, h.gd, h.diff⟩
  by_cases hri : r = i
  · subst hri
    have hne : R0 r r ≠ 0 := hq.rdiag r hrK
    rw [h.Rc r (by omega), sub_zero, abs_div, div_le_iff₀ (abs_pos.mpr hne)] at hk
    rw [← h.tr r (by omega)]
    linarith
  · exact h.red r (by omega) hrK

theorem combine_axpy (κ i : ℕ) (x : ℝ) (s : Fg Int ℝ) :
    (s.combine o (zX o) κ i x).M = axpy s.M κ i (-(o.toZ x)) s.d := by
  rw [combine_M (zX_ring o)]
  unfold axpy
  congr 1; funext r; split
  · simp only [Int.cast_id]; ring
  · rfl

theorem combine_fp (ho : Exact o) (κ i : ℕ) (k : ℤ) (s : Fg Int ℝ) :
    (s.combine o (zX o) κ i k).fp = { s.fp with
      R := setCol s.fp.R κ fun r => if r < i then s.fp.R κ r - k * s.fp.R i r else s.fp.R κ r } := by
  unfold Fg.combine
  simp only [ho.toZ]
  by_cases h : k = -1
  · rw [if_pos h]
    subst h
    simp only [faddcol, ho.add]
    congr 2; funext r; split
    · push_cast; ring
    · rfl
  · rw [if_neg h]
    by_cases h' : k = 1
    · rw [if_pos h']
      subst h'
      simp only [fsubcol, ho.sub]
      congr 2; funext r; split
      · push_cast; ring
      · rfl
    · rw [if_neg h']
      simp only [fsubmulcol, ho.submul]

theorem combine_same (q : XOps Int ℝ) (κ i : ℕ) (x : ℝ) (s : Fg Int ℝ) :
    (s.combine o q κ i x).d = s.d ∧ (s.combine o q κ i x).n = s.n ∧
    (s.combine o q κ i x).dec = s.dec ∧ (s.combine o q κ i x).ldim = s.ldim := by
  unfold Fg.combine
  simp only
  split
  · exact ⟨rfl, rfl, rfl, rfl⟩
  · split <;> exact ⟨rfl, rfl, rfl, rfl⟩

/-- Sizes. -/
def Same (s s' : Fg Int ℝ) : Prop :=
  s'.d = s.d ∧ s'.n = s.n ∧ s'.dec = s.dec ∧ s'.ldim = s.ldim

theorem Same.trans {s s' s'' : Fg Int ℝ} (h : Same s s') (h' : Same s' s'') : Same s s'' :=
  ⟨h'.1.trans h.1, h'.2.1.trans h.2.1, h'.2.2.1.trans h.2.2.1, h'.2.2.2.trans h.2.2.2⟩

theorem Same.rfl' (s : Fg Int ℝ) : Same s s := ⟨rfl, rfl, rfl, rfl⟩

theorem sizePass_spec (ho : ExactTies o) {d κ K : ℕ} {V : Mat ℝ} {M0 : Mat Int} {R0 : Mat ℝ}
    (hq : QR d M0 V R0 K) (hK : K ≤ κ) (i : ℕ) (hi : i ≤ K) :
    ∀ (s : Fg Int ℝ) (b : Bool), s.d = d → s.fp.V = V → Pass d κ K i V M0 R0 s.M s.fp.R →
    let t := Fg.sizePass o (zX o) κ i (s, b)
    Pass d κ K 0 V M0 R0 t.1.M t.1.fp.R ∧ Same s t.1 ∧ t.1.fp.V = V ∧
    (t.2 = false → b = false ∧ t.1.M = s.M ∧ t.1.fp = s.fp) ∧
    ((∀ r < i, |s.fp.R κ r| ≤ |R0 r r| / 2) → t.2 = b) := by
  induction i with
  | zero =>
    intro s b hd hV h
    exact ⟨h, Same.rfl' s, hV, fun hb => ⟨hb, rfl, rfl⟩, fun _ => rfl⟩
  | succ i ih =>
    intro s b hd hV h
    simp only [Fg.sizePass]
    obtain ⟨k, hk1, hk2⟩ := rnd_int ho.toExact (s.fp.R κ i) (s.fp.R i i)
    have hRi : s.fp.R i = R0 i := h.Rc i (by omega)
    unfold Fg.sizeStep
    simp only [hk1]
    by_cases hz : o.isZero (k : ℝ) = true
    · rw [if_pos hz]
      have hk0 : (k : ℝ) = 0 := (ho.isZero _).mp hz
      obtain ⟨a1, a2, a3, a4, a5⟩ := ih (by omega) s b hd hV
        (h.skip hq hK (by omega) (by rw [hk0] at hk2; exact hk2))
      exact ⟨a1, a2, a3, a4, fun hr => a5 fun r hr' => hr r (by omega)⟩
    · rw [if_neg hz]
      have hst := h.step hq hK (by omega) k hk2
      have hM := combine_axpy (o := o) κ i k s
      have hF := combine_fp ho.toExact κ i k s
      have hS := combine_same (o := o) (zX o) κ i k s
      rw [ho.toZ, hd] at hM
      obtain ⟨a1, a2, a3, a4, a5⟩ := ih (by omega) (s.combine o (zX o) κ i k) true
        (hS.1.trans hd) (by rw [hF]; exact hV) (by rw [hM, hF]; exact hst)
      refine ⟨a1, Same.trans ⟨hS.1, hS.2.1, hS.2.2.1, hS.2.2.2⟩ a2, a3, fun hb => ?_, fun hr => ?_⟩
      · exact absurd (a4 hb).1 (by simp)
      · exfalso
        apply hz
        rw [ho.isZero]
        have hne : R0 i i ≠ 0 := hq.rdiag i (by omega)
        have h1 := hr i (by omega)
        rw [← hk1, ho.div]
        apply ho.tie
        rw [hRi, abs_div, div_le_iff₀ (abs_pos.mpr hne)]
        linarith

/-! ### hsizereduce -/

/-- Outcome of `hsizereduce(kappa)`, with `K = min(kappa, d - ldim)`. -/
structure Red (κ K : ℕ) (s s' : Fg Int ℝ) : Prop where
  same : Same s s'
  Mc : ∀ c, c ≠ κ → s'.M c = s.M c
  Vc : ∀ c, c ≠ κ → s'.fp.V c = s.fp.V c
  Rc : ∀ c, c ≠ κ → s'.fp.R c = s.fp.R c
  gd : ∀ k, gd s.d s'.M k = gd s.d s.M k
  diff : bv s.d s'.M κ - bv s.d s.M κ ∈ Sp s.d s.M K
  tr : ∀ r < K, s'.fp.R κ r = Ex.app s.d s.fp.V K (bv s.d s'.M κ) r
  red : ∀ r < K, |s'.fp.R κ r| ≤ |s.fp.R r r| / 2

/-- `householder(kappa)` in both cases. -/
theorem hh_spec (ho : Exact o) (κ : ℕ) (s : Fg Int ℝ) :
    HhOut s.d κ (min κ (s.d - s.ldim)) s.M s.fp (s.hh o (zX o) κ).fp ∧
    (κ < s.d - s.ldim → HhDiag s.d κ s.M (s.hh o (zX o) κ).fp) ∧
    (s.d - s.ldim ≤ κ → (s.hh o (zX o) κ).fp.V = s.fp.V) := by
  unfold Fg.hh
  simp only
  by_cases h : κ < s.d - s.ldim
  · obtain ⟨a, b⟩ := fgHhCol_left ho h s.M s.fp
    rw [min_eq_left h.le]
    exact ⟨a, fun _ => b, fun h' => by omega⟩
  · obtain ⟨a, b⟩ := fgHhCol_right (o := o) ho (d := s.d) (ldim := s.ldim) (κ := κ) (by omega) s.M s.fp
    rw [min_eq_right (by omega)]
    exact ⟨a, fun h' => absurd h' h, fun _ => b⟩

theorem app_hh {d κ K : ℕ} {M : Mat Int} {p p' : FPart ℝ} (hK : K ≤ κ) (h : HhOut d κ K M p p')
    (x : ℕ → ℝ) : Ex.app d p'.V K x = Ex.app d p.V K x :=
  Ex.app_congrV d _ _ K (fun j hj => h.V j (by omega)) x

/-- The loop, after a call of `householder(kappa)`; `s0` is the object before that call. -/
theorem sizeLoop_spec (ho : ExactTies o) {κ : ℕ} (s : Fg Int ℝ)
    (hq : QR s.d s.M s.fp.V s.fp.R (min κ (s.d - s.ldim)))
    (htr : ∀ r < min κ (s.d - s.ldim), s.fp.R κ r =
      Ex.app s.d s.fp.V (min κ (s.d - s.ldim)) (bv s.d s.M κ) r)
    (hdg : κ < s.d - s.ldim → HhDiag s.d κ s.M s.fp)
    (fuel : ℕ) (hf : 2 ≤ fuel) :
    ∃ s', Fg.sizeLoop o (zX o) κ fuel s = some s' ∧ Red κ (min κ (s.d - s.ldim)) s s' ∧
      (κ < s.d - s.ldim → HhDiag s.d κ s'.M s'.fp) ∧ (s.d - s.ldim ≤ κ → s'.fp.V = s.fp.V) := by
  obtain ⟨K, hKe⟩ : ∃ K, K = min κ (s.d - s.ldim) := ⟨_, rfl⟩
  rw [← hKe] at hq htr ⊢
  have hK : K ≤ κ := by omega
  have h0 : Pass s.d κ K K s.fp.V s.M s.fp.R s.M s.fp.R :=
    ⟨fun _ _ => rfl, fun _ _ => rfl, htr, fun r h1 h2 => by omega, fun _ => rfl, by
      rw [sub_self]; exact Submodule.zero_mem _⟩
  obtain ⟨f, rfl⟩ : ∃ f, fuel = f + 1 + 1 := ⟨fuel - 2, by omega⟩
  obtain ⟨a1, a2, a3, a4, a5⟩ := sizePass_spec ho hq hK K (le_refl _) s false rfl rfl h0
  rw [Fg.sizeLoop]
  simp only [← hKe]
  obtain ⟨t, ht⟩ : ∃ t, t = Fg.sizePass o (zX o) κ K (s, false) := ⟨_, rfl⟩
  rw [← ht] at a1 a2 a3 a4 a5 ⊢
  by_cases hb : t.2 = true
  · rw [if_pos hb]
    obtain ⟨b1, b2, b3⟩ := hh_spec ho.toExact κ t.1
    have hS1 : Same s (t.1.hh o (zX o) κ) := a2.trans ⟨rfl, rfl, rfl, rfl⟩
    rw [a2.1, a2.2.2.2, ← hKe] at b1
    rw [a2.1, a2.2.2.2] at b2 b3
    have hMh : (t.1.hh o (zX o) κ).M = t.1.M := rfl
    obtain ⟨s1, hs1⟩ : ∃ s1, s1 = t.1.hh o (zX o) κ := ⟨_, rfl⟩
    rw [← hs1] at b1 b2 b3 hS1 hMh ⊢
    have hR1 : Red κ K s s1 := by
      refine ⟨hS1, fun c hc => by rw [hMh]; exact a1.Mc c hc, fun c hc => by rw [b1.V c hc, a3],
        fun c hc => by rw [b1.R c hc]; exact a1.Rc c hc, fun k => by rw [hMh]; exact a1.gd k,
        by rw [hMh]; exact a1.diff, fun r hr => by rw [b1.tr r hr, hMh, a3], fun r hr => ?_⟩
      rw [b1.tr r hr, a3]
      exact a1.red r (by omega) hr
    have hD1 : κ < s.d - s.ldim → HhDiag s.d κ s1.M s1.fp := fun h => by rw [hMh]; exact b2 h
    have hV1 : s.d - s.ldim ≤ κ → s1.fp.V = s.fp.V := fun h => by rw [b3 h, a3]
    by_cases hl : o.lt (s1.fp.normB2 κ) (o.mul o.hundredth (t.1.fp.normB2 κ)) = true
    · rw [if_pos hl]
      rw [Fg.sizeLoop]
      simp only
      rw [hS1.1, hS1.2.2.2, ← hKe]
      -- the second pass finds nothing
      have hq1 : QR s1.d s1.M s1.fp.V s1.fp.R K := by
        rw [hS1.1]
        exact hq.congr (fun _ _ => rfl) (fun k hk => hR1.Mc k (by omega))
          (fun k hk => hR1.Vc k (by omega)) (fun k hk => hR1.Rc k (by omega))
      have happ : ∀ x, Ex.app s1.d s1.fp.V K x = Ex.app s.d s.fp.V K x := fun x => by
        rw [hS1.1]; exact Ex.app_congrV _ _ _ K (fun j hj => hR1.Vc j (by omega)) x
      have h1 : Pass s1.d κ K K s1.fp.V s1.M s1.fp.R s1.M s1.fp.R :=
        ⟨fun _ _ => rfl, fun _ _ => rfl, fun r hr => by
          rw [happ, hR1.tr r hr, hS1.1], fun r h1 h2 => by omega, fun _ => rfl, by
          rw [sub_self]; exact Submodule.zero_mem _⟩
      obtain ⟨c1, c2, c3, c4, c5⟩ := sizePass_spec ho hq1 hK K (le_refl _) s1 false rfl rfl h1
      have hc : (Fg.sizePass o (zX o) κ K (s1, false)).2 = false := c5 fun r hr => by
        rw [hR1.Rc r (by omega)]; exact hR1.red r hr
      obtain ⟨t1, ht1⟩ : ∃ t1, t1 = Fg.sizePass o (zX o) κ K (s1, false) := ⟨_, rfl⟩
      rw [← ht1] at hc c1 c2 c3 c4 c5 ⊢
      rw [if_neg (by rw [hc]; simp)]
      obtain ⟨-, c6, c7⟩ := c4 hc
      refine ⟨t1.1, rfl, ⟨hS1.trans c2, ?_, ?_, ?_, ?_, ?_, ?_, ?_⟩, ?_, ?_⟩
      · rw [c6]; exact hR1.Mc
      · rw [c7]; exact hR1.Vc
      · rw [c7]; exact hR1.Rc
      · rw [c6]; exact hR1.gd
      · rw [c6]; exact hR1.diff
      · rw [c6, c7]; exact hR1.tr
      · rw [c7]; exact hR1.red
      · rw [c6, c7]; exact hD1
      · rw [c7]; exact hV1
    · rw [if_neg hl]
      exact ⟨s1, rfl, hR1, hD1, hV1⟩
  · rw [if_neg hb]
    obtain ⟨-, c6, c7⟩ := a4 (by simpa using hb)
    refine ⟨t.1, rfl, ⟨a2, a1.Mc, fun c _ => by rw [a3], a1.Rc, a1.gd, a1.diff, ?_, ?_⟩, ?_, fun _ => a3⟩
    · rw [c6, c7]; exact htr
    · intro r hr
      have := a1.red r (by omega) hr
      rw [c6, ← htr r hr] at this
      rw [c7]; exact this
    · rw [c6, c7]; exact hdg

theorem hsizereduce_spec (ho : ExactTies o) {κ : ℕ} (s : Fg Int ℝ)
    (hq : QR s.d s.M s.fp.V s.fp.R (min κ (s.d - s.ldim))) (fuel : ℕ) (hf : 2 ≤ fuel) :
    ∃ s', s.hsizereduce o (zX o) fuel κ = some s' ∧ Red κ (min κ (s.d - s.ldim)) s s' ∧
      (κ < s.d - s.ldim → HhDiag s.d κ s'.M s'.fp) ∧ (s.d - s.ldim ≤ κ → s'.fp.V = s.fp.V) := by
  obtain ⟨b1, b2, b3⟩ := hh_spec ho.toExact κ s
  have hS1 : Same s (s.hh o (zX o) κ) := ⟨rfl, rfl, rfl, rfl⟩
  obtain ⟨K, hKe⟩ : ∃ K, K = min κ (s.d - s.ldim) := ⟨_, rfl⟩
  rw [← hKe] at hq b1 ⊢
  have hK : K ≤ κ := by omega
  have hMh : (s.hh o (zX o) κ).M = s.M := rfl
  unfold Fg.hsizereduce
  obtain ⟨s1, hs1⟩ : ∃ s1, s1 = s.hh o (zX o) κ := ⟨_, rfl⟩
  rw [← hs1] at b1 b2 b3 hS1 hMh ⊢
  have hKe1 : K = min κ (s1.d - s1.ldim) := by rw [hS1.1, hS1.2.2.2]; exact hKe
  have hq1 : QR s1.d s1.M s1.fp.V s1.fp.R K := by
    rw [hS1.1]
    exact hq.congr (fun _ _ => rfl) (fun k hk => by rw [hMh]) (fun k hk => b1.V k (by omega))
      (fun k hk => b1.R k (by omega))
  have happ : ∀ x, Ex.app s1.d s1.fp.V K x = Ex.app s.d s.fp.V K x := fun x => by
    rw [hS1.1]; exact app_hh hK b1 x
  obtain ⟨s', e1, e2, e3, e4⟩ := sizeLoop_spec ho s1 (κ := κ) (by rw [← hKe1]; exact hq1)
    (by
      rw [← hKe1]
      intro r hr
      rw [happ, b1.tr r hr, hMh, hS1.1])
    (by rw [hS1.1, hS1.2.2.2, hMh]; exact b2) fuel hf
  rw [← hKe1] at e2
  rw [hS1.1, hS1.2.2.2] at e3 e4
  refine ⟨s', e1, ⟨hS1.trans e2.same, ?_, ?_, ?_, ?_, ?_, ?_, ?_⟩, e3, fun h => (e4 h).trans (b3 h)⟩
  · intro c hc; rw [e2.Mc c hc, hMh]
  · intro c hc; rw [e2.Vc c hc, b1.V c hc]
  · intro c hc; rw [e2.Rc c hc, b1.R c hc]
  · intro k; have := e2.gd k; rw [hS1.1, hMh] at this; exact this
  · have := e2.diff; rw [hS1.1, hMh] at this; exact this
  · intro r hr; rw [e2.tr r hr, happ, hS1.1]
  · intro r hr; rw [← b1.R r (by omega)]; exact e2.red r hr

end Dec

end HPLLL
