import Verif.Proof.DecConv
/-! The exchange step of the FGAS decomposition in exact arithmetic. -/

namespace HPLLL
open Spec Finset

namespace Dec

variable {o : FPOps ℝ}

/-- Regular state, `m = d - ldim`. -/
structure Nrm (e : ℕ) (B : ℝ) (m : ℕ) (s : Fg Int ℝ) : Prop where
  dec : s.dec = e
  hm : m = s.d - s.ldim
  ldim : s.ldim ≤ s.d
  hn : s.d < s.n
  qr : QR s.d s.M s.fp.V s.fp.R m
  gdp : ∀ k ≤ m, 0 < gd s.d s.M k
  red : ∀ κ < m, ∀ r < κ, |s.fp.R κ r| ≤ |s.fp.R r r| / 2
  span : ∀ j, j < s.n - s.ldim → bv s.d s.M j ∈ Sp s.d s.M m
  bnd : ∀ i < m, |s.fp.R i i| ≤ B

/-- State after a right exchange that brings a dependent column at position `m - 1`, where
`m = d - ldim`; the independent one is at position `maxh`. -/
structure Deg (e : ℕ) (B : ℝ) (m maxh : ℕ) (s : Fg Int ℝ) : Prop where
  dec : s.dec = e
  hm : m = s.d - s.ldim
  mpos : 0 < m
  ldim : s.ldim ≤ s.d
  hn : s.d < s.n
  hlo : m ≤ maxh
  hhi : maxh < s.n - s.ldim
  diag : s.fp.R (m - 1) (m - 1) = 0
  qr : QR s.d s.M s.fp.V s.fp.R (m - 1)
  gdp : ∀ k ≤ m - 1, 0 < gd s.d s.M k
  red : ∀ κ < m - 1, ∀ r < κ, |s.fp.R κ r| ≤ |s.fp.R r r| / 2
  span : ∀ j, j < s.n - s.ldim → j ≠ maxh → bv s.d s.M j ∈ Sp s.d s.M (m - 1)
  bnd : ∀ i < m - 1, |s.fp.R i i| ≤ B

/-- Product of the Gram determinants. -/
noncomputable def Pot (d : ℕ) (M : Mat Int) (m : ℕ) : ℝ := ∏ k ∈ range m, (gd d M (k + 1) : ℝ)

theorem gd_diag {d : ℕ} {M : Mat Int} {V R : Mat ℝ} {m : ℕ} (h : QR d M V R m) (hm : m ≤ d)
    (k : ℕ) (hk : k < m) : (gd d M (k + 1) : ℝ) = gd d M k * (R k k * R k k) := by
  rw [(h.mono (by omega : k + 1 ≤ m)).gd_prod (by omega), prod_range_succ,
    (h.mono (by omega : k ≤ m)).gd_prod (by omega)]

theorem tail_eq_zero {n k : ℕ} {x : ℕ → ℝ} (h : ∀ r, k ≤ r → x r = 0) : Ex.tail n k x = 0 := by
  unfold Ex.tail
  exact sum_eq_zero fun i _ => by rw [h _ (by omega)]; ring

/-- Tail of column `h + 1` before reflection `h`. -/
theorem tail_next {d : ℕ} {M : Mat Int} {V R : Mat ℝ} {m h : ℕ} (hq : QR d M V R m) (hm : m ≤ d)
    (hh : h + 1 < m) : Ex.tail d h (Ex.app d V h (bv d M (h + 1))) =
      R (h + 1) h * R (h + 1) h + R (h + 1) (h + 1) * R (h + 1) (h + 1) := by
  have hx := fun i => (hq.mono (by omega : h + 2 ≤ m)).app_eq (h + 1) (by omega) i
  rw [← Ex.tail_app d V h (by omega) (hq.vnorm h (by omega)), Ex.tail_succ d h _ (by omega),
    ← Ex.tail_app d V (h + 1) (by omega) (hq.vnorm (h + 1) (by omega)),
    Ex.tail_succ d (h + 1) _ (by omega), ← Ex.app_succ_lt d V (h + 1) _ h (by omega), hx h, hx (h + 1),
    if_pos (by omega), if_pos (le_refl _), tail_eq_zero (fun r hr => by rw [hx r, if_neg (by omega)])]
  ring

/-- Tail, before the last reflection, of a vector of the span. -/
theorem tail_last {d : ℕ} {M : Mat Int} {V R : Mat ℝ} {m : ℕ} (hq : QR d M V R m) (hm : m ≤ d)
    (h0 : 0 < m) {x : ℕ → ℝ} (hx : x ∈ Sp d M m) : Ex.tail d (m - 1) (Ex.app d V (m - 1) x) =
      Ex.app d V m x (m - 1) * Ex.app d V m x (m - 1) := by
  obtain ⟨k, rfl⟩ : ∃ k, m = k + 1 := ⟨m - 1, by omega⟩
  simp only [Nat.add_sub_cancel]
  rw [← Ex.tail_app d V k (by omega) (hq.vnorm k (by omega)), Ex.tail_succ d k _ (by omega),
    tail_eq_zero (fun r hr => app_of_mem hq (k + 1) (le_refl _) hx r hr), add_zero]

theorem colswap_ne {M : Mat Int} {a b c : ℕ} (h1 : c ≠ a) (h2 : c ≠ b) :
    colswap M a b c = M c := by
  unfold colswap; rw [if_neg h1, if_neg h2]

theorem colswap_left (M : Mat Int) (a b : ℕ) : colswap M a b a = M b := by
  unfold colswap; rw [if_pos rfl]

theorem colswap_right (M : Mat Int) (a b : ℕ) : colswap M a b b = M a := by
  unfold colswap
  split
  · rename_i h; rw [h]
  · rw [if_pos rfl]

theorem Sp_colswap {d : ℕ} {M : Mat Int} {a b k : ℕ} (ha : a < k) (hb : b < k) :
    Sp d (colswap M a b) k = Sp d M k := by
  have e1 : bv d (colswap M a b) a = bv d M b := by unfold bv; rw [colswap_left]
  have e2 : bv d (colswap M a b) b = bv d M a := by unfold bv; rw [colswap_right]
  have e3 : ∀ c, c ≠ a → c ≠ b → bv d (colswap M a b) c = bv d M c := fun c h1 h2 => by
    unfold bv; rw [colswap_ne h1 h2]
  apply le_antisymm
  · refine Sp_le fun i hi => ?_
    by_cases h1 : i = a
    · rw [h1, e1]; exact bv_mem_Sp hb
    · by_cases h2 : i = b
      · rw [h2, e2]; exact bv_mem_Sp ha
      · rw [e3 i h1 h2]; exact bv_mem_Sp hi
  · refine Sp_le fun i hi => ?_
    by_cases h1 : i = a
    · rw [h1, ← e2]; exact bv_mem_Sp hb
    · by_cases h2 : i = b
      · rw [h2, ← e1]; exact bv_mem_Sp ha
      · rw [← e3 i h1 h2]; exact bv_mem_Sp hi

theorem abs_le_of_mul_self {x y : ℝ} (h : x * x ≤ y * y) : |x| ≤ |y| :=
  abs_le_abs_of_sq_le_sq' h
where
  abs_le_abs_of_sq_le_sq' {x y : ℝ} (h : x * x ≤ y * y) : |x| ≤ |y| := by
    rw [← sq_le_sq, pow_two, pow_two]; exact h

/-- Left exchange. -/
theorem exchange_left (ho : ExactTies o) {γ B : ℝ} (hγ : 0 < γ) (hc : 1 / 4 + 1 / γ ^ 2 ≤ 1)
    {e fuel m h : ℕ} (hf : 2 ≤ fuel) {s : Fg Int ℝ} (hN : Nrm e B m s) (hh : h + 1 < m)
    (hmax : γ * |s.fp.R (h + 1) (h + 1)| ≤ |s.fp.R h h|) :
    ∃ s', exchange o (zX o) fuel h s = some (s', h) ∧ Same s s' ∧ Nrm e B m s' ∧
      Pot s.d s'.M m ≤ (1 / 4 + 1 / γ ^ 2) * Pot s.d s.M m ∧ |s'.fp.R h h| ≤ |s.fp.R h h| := by
  obtain ⟨c, hce⟩ : ∃ c, c = 1 / 4 + 1 / γ ^ 2 := ⟨_, rfl⟩
  rw [← hce] at hc ⊢
  have hmd : m ≤ s.d := by have := hN.hm; omega
  unfold exchange
  simp only
  rw [← hN.hm, if_pos (by omega)]
  obtain ⟨s1, hs1⟩ : ∃ s1, s1 = s.swap h (h + 1) := ⟨_, rfl⟩
  have hM1 : s1.M = colswap s.M h (h + 1) := by rw [hs1]; rfl
  have hf1 : s1.fp = s.fp := by rw [hs1]; rfl
  have hS1 : Same s s1 := by rw [hs1]; exact ⟨rfl, rfl, rfl, rfl⟩
  rw [← hs1]
  have hq1 : QR s.d s1.M s1.fp.V s1.fp.R h := by
    rw [hf1]
    exact (hN.qr.mono (by omega : h ≤ m)).congr (fun _ _ => rfl)
      (fun k hk => by rw [hM1, colswap_ne (by omega) (by omega)]) (fun _ _ => rfl) (fun _ _ => rfl)
  have hgd1 : ∀ k, k ≠ h + 1 → gd s.d s1.M k = gd s.d s.M k := fun k hk => by
    rw [hM1]; exact gd_colswap s.d s.M (h + 1) k (by omega) hk
  have hb1 : bv s.d s1.M h = bv s.d s.M (h + 1) := by unfold bv; rw [hM1, colswap_left]
  have hgh : (gd s.d s1.M (h + 1) : ℝ) = gd s.d s.M h *
      (s.fp.R (h + 1) h * s.fp.R (h + 1) h + s.fp.R (h + 1) (h + 1) * s.fp.R (h + 1) (h + 1)) := by
    rw [hq1.gd_tail (by omega), hgd1 h (by omega), hb1, hf1, tail_next hN.qr hmd hh]
  have hred := hN.red (h + 1) (by omega) h (by omega)
  have hg0 : (0 : ℝ) < gd s.d s.M h := by exact_mod_cast hN.gdp h (by omega)
  have hne1 := hN.qr.rdiag (h + 1) hh
  have hd0 := gd_diag hN.qr hmd h (by omega)
  have hd1 := gd_diag hN.qr hmd (h + 1) (by omega)
  obtain ⟨a, ha⟩ : ∃ a, a = s.fp.R h h := ⟨_, rfl⟩
  obtain ⟨b, hb⟩ : ∃ b, b = s.fp.R (h + 1) (h + 1) := ⟨_, rfl⟩
  obtain ⟨e, he⟩ : ∃ e, e = s.fp.R (h + 1) h := ⟨_, rfl⟩
  obtain ⟨g, hg⟩ : ∃ g : ℝ, g = gd s.d s.M h := ⟨_, rfl⟩
  rw [← ha, ← hb] at hmax
  rw [← ha, ← he] at hred
  rw [← hg, ← hb, ← he] at hgh
  rw [← hg] at hg0
  rw [← hg, ← ha] at hd0
  rw [← hb] at hd1 hne1
  have hee : e * e ≤ a * a / 4 := by
    have : |e| * |e| ≤ (|a| / 2) * (|a| / 2) :=
      mul_le_mul hred hred (abs_nonneg _) (by positivity)
    rw [abs_mul_abs_self] at this
    nlinarith [abs_mul_abs_self a]
  have hbb : b * b ≤ a * a * (1 / γ ^ 2) := by
    have : (γ * |b|) * (γ * |b|) ≤ |a| * |a| :=
      mul_le_mul hmax hmax (by positivity) (abs_nonneg _)
    rw [abs_mul_abs_self] at this
    rw [mul_one_div, le_div_iff₀ (by positivity)]
    nlinarith [abs_mul_abs_self b]
  have hbpos : 0 < b * b := mul_self_pos.mpr hne1
  have hsum : e * e + b * b ≤ c * (a * a) := by rw [hce]; nlinarith
  have hgh' : (gd s.d s1.M (h + 1) : ℝ) ≤ c * gd s.d s.M (h + 1) := by
    rw [hgh, hd0]; nlinarith
  have hghpos : (0 : ℝ) < gd s.d s1.M (h + 1) := by
    rw [hgh]; have : 0 ≤ e * e := mul_self_nonneg e
    positivity
  have hgp1 : ∀ k ≤ m, 0 < gd s.d s1.M k := fun k hk => by
    by_cases hk' : k = h + 1
    · subst hk'; exact_mod_cast hghpos
    · rw [hgd1 k hk']; exact hN.gdp k hk
  obtain ⟨s2, e1, e2⟩ := range_left ho hf (m - h) h s1 (by rw [hS1.1, hS1.2.2.2, ← hN.hm]; omega)
    (by rw [hS1.1]; exact hq1) (fun k hk => by rw [hS1.1]; exact hgp1 k (by omega))
  rw [e1]
  rw [show h + (m - h) = m by omega] at e2
  have hS2 : Same s s2 := hS1.trans e2.same
  have hsd := hS1.1
  have hgd2 : ∀ k, gd s.d s2.M k = gd s.d s1.M k := fun k => by
    have := e2.gd k; rw [hsd] at this; exact this
  have hq2 : QR s.d s2.M s2.fp.V s2.fp.R m := by have := e2.qr; rw [hsd] at this; exact this
  have hsp2 : ∀ k, Sp s.d s2.M k = Sp s.d s1.M k := fun k => by
    have := e2.sp k; rw [hsd] at this; exact this
  -- diagonal
  have hdd : ∀ k < m, (gd s.d s1.M (k + 1) : ℝ) = gd s.d s1.M k * (s2.fp.R k k * s2.fp.R k k) :=
    fun k hk => by have := gd_diag hq2 hmd k hk; rw [hgd2, hgd2] at this; exact this
  have hdh : s2.fp.R h h * s2.fp.R h h ≤ a * a := by
    have h1 := hdd h (by omega)
    rw [hgd1 h (by omega), ← hg, hgh] at h1
    have h2 := mul_left_cancel₀ hg0.ne' h1
    have : 0 ≤ a * a := mul_self_nonneg a
    rw [← h2]; nlinarith
  have hdh1 : s2.fp.R (h + 1) (h + 1) * s2.fp.R (h + 1) (h + 1) ≤ a * a := by
    have h1 := hdd (h + 1) (by omega)
    rw [hgd1 (h + 1 + 1) (by omega), hd1, hd0, hgh] at h1
    have h2 := mul_left_cancel₀ hg0.ne' (show g * (a * a * (b * b)) =
      g * ((e * e + b * b) * (s2.fp.R (h + 1) (h + 1) * s2.fp.R (h + 1) (h + 1))) by linarith)
    have h3 : 0 ≤ e * e := mul_self_nonneg e
    by_contra hlt
    push Not at hlt
    have h4 : 0 < s2.fp.R (h + 1) (h + 1) * s2.fp.R (h + 1) (h + 1) :=
      lt_of_le_of_lt (mul_self_nonneg a) hlt
    nlinarith [mul_nonneg h3 h4.le]
  have hdk : ∀ k < m, k ≠ h → k ≠ h + 1 →
      s2.fp.R k k * s2.fp.R k k = s.fp.R k k * s.fp.R k k := by
    intro k hk h1 h2
    have h3 := hdd k hk
    rw [hgd1 (k + 1) (by omega), hgd1 k (by omega), gd_diag hN.qr hmd k hk] at h3
    have : (gd s.d s.M k : ℝ) ≠ 0 := by
      have := hN.gdp k (by omega); exact_mod_cast this.ne'
    exact (mul_left_cancel₀ this h3).symm
  refine ⟨s2, rfl, hS2, ?_, ?_, ?_⟩
  · refine ⟨by rw [hS2.2.2.1]; exact hN.dec, by rw [hS2.1, hS2.2.2.2]; exact hN.hm,
      by rw [hS2.1, hS2.2.2.2]; exact hN.ldim, by rw [hS2.1, hS2.2.1]; exact hN.hn,
      by rw [hS2.1]; exact hq2, fun k hk => by rw [hS2.1, hgd2]; exact hgp1 k hk, ?_, ?_, ?_⟩
    · intro κ hκ r hr
      by_cases hκh : h ≤ κ
      · exact e2.red κ hκh hκ r hr
      · rw [e2.Rc κ (by omega), e2.Rc r (by omega), hf1]; exact hN.red κ hκ r hr
    · rw [hS2.1, hS2.2.1, hS2.2.2.2]
      intro j hj
      rw [hsp2, hM1, Sp_colswap (by omega) (by omega)]
      by_cases hjm : j < m
      · have : bv s.d s2.M j ∈ Sp s.d s2.M m := bv_mem_Sp hjm
        rwa [hsp2, hM1, Sp_colswap (by omega) (by omega)] at this
      · have : bv s.d s2.M j = bv s.d s.M j := by
          unfold bv; rw [e2.Mc j (by omega), hM1, colswap_ne (by omega) (by omega)]
        rw [this]; exact hN.span j hj
    · intro i hi
      by_cases h1 : i = h
      · subst h1
        exact (abs_le_of_mul_self hdh).trans (by rw [ha]; exact hN.bnd i hi)
      · by_cases h2 : i = h + 1
        · subst h2
          exact (abs_le_of_mul_self hdh1).trans (by rw [ha]; exact hN.bnd h (by omega))
        · exact (abs_le_of_mul_self (hdk i hi h1 h2).le).trans (hN.bnd i hi)
  · unfold Pot
    have hmem : h ∈ range m := mem_range.mpr (by omega)
    rw [← mul_prod_erase _ _ hmem, ← mul_prod_erase _ _ hmem, ← mul_assoc]
    have e3 : ∏ k ∈ (range m).erase h, (gd s.d s2.M (k + 1) : ℝ) =
        ∏ k ∈ (range m).erase h, (gd s.d s.M (k + 1) : ℝ) := by
      refine prod_congr rfl fun k hk => ?_
      have := (mem_erase.mp hk).1
      rw [hgd2, hgd1 (k + 1) (by omega)]
    rw [e3, hgd2]
    refine mul_le_mul_of_nonneg_right hgh' (prod_nonneg fun k hk => ?_)
    exact_mod_cast gd_nonneg _ _ _
  · rw [← ha]; exact abs_le_of_mul_self hdh

/-- Right exchange. -/
theorem exchange_right (ho : ExactTies o) {B : ℝ} {e fuel m : ℕ} (hf : 2 ≤ fuel) {s : Fg Int ℝ}
    (hN : Nrm e B m s) (h0 : 0 < m) :
    ∃ s' j, exchange o (zX o) fuel (m - 1) s = some (s', j) ∧ Same s s' ∧
      ((Nrm e B m s' ∧ Pot s.d s'.M m ≤ 1 / 4 * Pot s.d s.M m ∧
        |s'.fp.R (m - 1) (m - 1)| ≤ |s.fp.R (m - 1) (m - 1)|) ∨
       (Deg e B m j s' ∧ ∀ k ≤ m - 1, gd s.d s'.M k = gd s.d s.M k)) := by
  have hmd : m ≤ s.d := by have := hN.hm; omega
  have hnm : m < s.n - s.ldim := by have := hN.hm; have := hN.hn; have := hN.ldim; omega
  unfold exchange
  simp only
  rw [← hN.hm, if_neg (by omega)]
  obtain ⟨s1, e1, e2⟩ := range_right ho hf (s.n - s.ldim - m) m s hN.hm (le_refl _) hN.qr
  rw [e1]
  simp only
  rw [show m + (s.n - s.ldim - m) = s.n - s.ldim by omega] at e2
  have hS1 := e2.same
  have hsd := hS1.1
  have hjr := rightPos_range (o := o) s1.fp.R (m - 1) m (s1.n - s1.ldim)
  have hjm := rightPos_max ho.toExact s1.fp.R (m - 1) m (s1.n - s1.ldim)
  obtain ⟨j, hj⟩ : ∃ j, j = (rightPos o s1.fp.R (m - 1) m (s1.n - s1.ldim)).1 := ⟨_, rfl⟩
  rw [← hj] at hjr hjm ⊢
  rw [hS1.2.1, hS1.2.2.2] at hjr hjm
  have hj1 := hjr.1
  have hj2 := hjr.2 hnm
  obtain ⟨s2, hs2⟩ : ∃ s2, s2 = Fg.swap (m - 1) j { s1 with ub := s1.ub || !decide (m < s1.n) } := ⟨_, rfl⟩
  have hM2 : s2.M = colswap s1.M (m - 1) j := by rw [hs2]; rfl
  have hf2 : s2.fp = s1.fp := by rw [hs2]; rfl
  have hS2 : Same s s2 := hS1.trans (by rw [hs2]; exact ⟨rfl, rfl, rfl, rfl⟩)
  rw [← hs2]
  have hsd2 := hS2.1
  -- state after the right reductions
  have hq1 : QR s.d s1.M s1.fp.V s1.fp.R m :=
    hN.qr.congr (fun _ _ => rfl) (fun k hk => e2.Mc k (by omega)) (fun k _ => by rw [e2.V])
      (fun k hk => e2.Rc k (by omega))
  have hsp1 : Sp s.d s1.M m = Sp s.d s.M m := Sp_congr fun i hi => e2.Mc i (by omega)
  have hmem1 : ∀ l, l < s.n - s.ldim → bv s.d s1.M l ∈ Sp s.d s1.M m := fun l hl => by
    by_cases hlm : l < m
    · exact bv_mem_Sp hlm
    · rw [hsp1]; exact e2.mem l (by omega) hl (hN.span l hl)
  have htr1 : ∀ l, m ≤ l → l < s.n - s.ldim →
      s1.fp.R l (m - 1) = Ex.app s.d s1.fp.V m (bv s.d s1.M l) (m - 1) := fun l h1 h2 => by
    rw [e2.V]; exact e2.tr l h1 h2 (m - 1) (by omega)
  have hq2 : QR s.d s2.M s2.fp.V s2.fp.R (m - 1) := by
    rw [hf2]
    exact (hq1.mono (by omega : m - 1 ≤ m)).congr (fun _ _ => rfl)
      (fun k hk => by rw [hM2, colswap_ne (by omega) (by omega)]) (fun _ _ => rfl) (fun _ _ => rfl)
  have hmin : min (m - 1) (s2.d - s2.ldim) = m - 1 := by
    rw [hsd2, hS2.2.2.2, ← hN.hm]; omega
  obtain ⟨s3, g1, g2, g3, -⟩ := hsizereduce_spec ho (κ := m - 1) s2
    (by rw [hmin, hsd2]; exact hq2) fuel hf
  rw [hmin] at g2
  have hD := g3 (by rw [hsd2, hS2.2.2.2, ← hN.hm]; omega)
  rw [hsd2] at hD
  rw [g1]
  have hS3 : Same s s3 := hS2.trans g2.same
  have hgd3 : ∀ k, gd s.d s3.M k = gd s.d s2.M k := fun k => by
    have := g2.gd k; rw [hsd2] at this; exact this
  have hsp3 : ∀ k, Sp s.d s3.M k = Sp s.d s2.M k := fun k =>
    Sp_update (le_refl _) g2.Mc (by have := g2.diff; rw [hsd2] at this; exact this) k
  have hq3 : QR s.d s3.M s3.fp.V s3.fp.R (m - 1) :=
    hq2.congr (fun _ _ => rfl) (fun k hk => g2.Mc k (by omega))
      (fun k hk => g2.Vc k (by omega)) (fun k hk => g2.Rc k (by omega))
  have hgd2 : ∀ k ≤ m - 1, gd s.d s2.M k = gd s.d s.M k := fun k hk => by
    apply gd_congr
    intro i hi r _
    rw [hM2, colswap_ne (by omega) (by omega), e2.Mc i (by omega)]
  have hb2 : bv s.d s2.M (m - 1) = bv s.d s1.M j := by unfold bv; rw [hM2, colswap_left]
  have hb2j : bv s.d s2.M j = bv s.d s1.M (m - 1) := by unfold bv; rw [hM2, colswap_right]
  have hb2c : ∀ l, l ≠ m - 1 → l ≠ j → bv s.d s2.M l = bv s.d s1.M l := fun l h1 h2 => by
    unfold bv; rw [hM2, colswap_ne h1 h2]
  have hb3 : ∀ l, l ≠ m - 1 → bv s.d s3.M l = bv s.d s2.M l := fun l h1 => by
    unfold bv; rw [g2.Mc l h1]
  -- the new diagonal entry
  obtain ⟨a, ha⟩ : ∃ a, a = s1.fp.R j (m - 1) := ⟨_, rfl⟩
  have hgm : (gd s.d s3.M m : ℝ) = gd s.d s.M (m - 1) * (a * a) := by
    have h1 := hq2.gd_tail (by omega)
    rw [show m - 1 + 1 = m by omega, hgd2 _ (le_refl _), hb2, hf2,
      tail_last hq1 hmd h0 (hmem1 j hj2), ← htr1 j hj1 hj2, ← ha] at h1
    rw [hgd3]; exact h1
  have hg0 : (0 : ℝ) < gd s.d s.M (m - 1) := by exact_mod_cast hN.gdp (m - 1) (by omega)
  have hdd : s3.fp.R (m - 1) (m - 1) * s3.fp.R (m - 1) (m - 1) = a * a := by
    have h1 := hq3.gd_tail (by omega)
    rw [show m - 1 + 1 = m by omega, ← hD.diag, hgm, hgd3, hgd2 _ (le_refl _)] at h1
    exact (mul_left_cancel₀ hg0.ne' h1).symm
  have haR : |a| ≤ |s.fp.R (m - 1) (m - 1)| / 2 := by
    rw [ha]; exact e2.red j hj1 hj2 (m - 1) (by omega)
  have hR3 : ∀ c < m - 1, s3.fp.R c = s.fp.R c := fun c hc => by
    rw [g2.Rc c (by omega), hf2, e2.Rc c (by omega)]
  have haR' : a * a ≤ s.fp.R (m - 1) (m - 1) * s.fp.R (m - 1) (m - 1) / 4 := by
    have := mul_le_mul haR haR (abs_nonneg _) (by positivity)
    rw [abs_mul_abs_self] at this
    nlinarith [abs_mul_abs_self (s.fp.R (m - 1) (m - 1))]
  refine ⟨s3, j, rfl, hS3, ?_⟩
  by_cases ha0 : a = 0
  · right
    have hall : ∀ l, m ≤ l → l < s.n - s.ldim → bv s.d s1.M l ∈ Sp s.d s1.M (m - 1) := by
      intro l h1 h2
      refine mem_of_app hq1 (m - 1) (by omega) fun r hr => ?_
      by_cases hrm : r = m - 1
      · subst hrm
        rw [← htr1 l h1 h2]
        have := hjm l h1 h2
        rw [← ha, ha0, abs_zero] at this
        exact abs_nonpos_iff.mp this
      · exact app_of_mem hq1 m (le_refl _) (hmem1 l h2) r (by omega)
    have hsp : Sp s.d s3.M (m - 1) = Sp s.d s1.M (m - 1) := by
      rw [hsp3, hM2]
      exact Sp_congr fun i hi => colswap_ne (by omega) (by omega)
    refine ⟨⟨by rw [hS3.2.2.1]; exact hN.dec, by rw [hS3.1, hS3.2.2.2]; exact hN.hm, h0,
      by rw [hS3.1, hS3.2.2.2]; exact hN.ldim, by rw [hS3.1, hS3.2.1]; exact hN.hn, hj1,
      by rw [hS3.2.1, hS3.2.2.2]; exact hj2, ?_, by rw [hS3.1]; exact hq3,
      fun k hk => ?_, ?_, ?_, ?_⟩, fun k hk => by rw [hgd3, hgd2 k hk]⟩
    · rw [ha0, mul_zero] at hdd; exact mul_self_eq_zero.mp hdd
    · rw [hS3.1, hgd3, hgd2 k hk]; exact hN.gdp k (by omega)
    · intro κ hκ r hr
      rw [hR3 κ hκ, hR3 r (by omega)]; exact hN.red κ (by omega) r hr
    · rw [hS3.1, hS3.2.1, hS3.2.2.2]
      intro l hl hlj
      rw [hsp]
      by_cases h1 : l < m - 1
      · rw [hb3 l (by omega), hb2c l (by omega) (by omega)]; exact bv_mem_Sp h1
      · by_cases h2 : l = m - 1
        · subst h2
          have hdf := g2.diff
          rw [hsd2] at hdf
          have h3 : Sp s.d s2.M (m - 1) = Sp s.d s1.M (m - 1) := by rw [← hsp3]; exact hsp
          rw [h3, hb2] at hdf
          have := Submodule.add_mem _ hdf (hall j hj1 hj2)
          rwa [sub_add_cancel] at this
        · rw [hb3 l h2, hb2c l h2 hlj]; exact hall l (by omega) hl
    · intro i hi
      rw [hR3 i hi]; exact hN.bnd i (by omega)
  · left
    have haa : 0 < a * a := mul_self_pos.mpr ha0
    have hqm : QR s.d s3.M s3.fp.V s3.fp.R m := by
      have := hD.qr hq3 (by rw [← hD.diag, hdd]; exact haa.ne')
      rwa [show m - 1 + 1 = m by omega] at this
    have hgmpos : 0 < gd s.d s3.M m := by
      have : (0 : ℝ) < gd s.d s3.M m := by rw [hgm]; positivity
      exact_mod_cast this
    have hgk : ∀ k ≤ m - 1, gd s.d s3.M k = gd s.d s.M k := fun k hk => by rw [hgd3, hgd2 k hk]
    have hle : s3.fp.R (m - 1) (m - 1) * s3.fp.R (m - 1) (m - 1) ≤
        s.fp.R (m - 1) (m - 1) * s.fp.R (m - 1) (m - 1) := by
      rw [hdd]; nlinarith [mul_self_nonneg (s.fp.R (m - 1) (m - 1))]
    -- the span does not change
    have hsub : Sp s.d s1.M m ≤ Sp s.d s3.M m := by
      rw [hsp3]
      have hlow : Sp s.d s1.M (m - 1) ≤ Sp s.d s2.M m := Sp_le fun i hi => by
        rw [← hb2c i (by omega) (by omega)]; exact bv_mem_Sp (by omega)
      have hjS : bv s.d s1.M j ∈ Sp s.d s2.M m := by
        rw [← hb2]; exact bv_mem_Sp (by omega)
      refine Sp_le fun i hi => ?_
      by_cases him : i = m - 1
      · subst him
        set c := s1.fp.R (m - 1) (m - 1) / a with hc
        have hy : (fun r => bv s.d s1.M (m - 1) r + (-c) * bv s.d s1.M j r) ∈ Sp s.d s1.M (m - 1) := by
          refine mem_of_app hq1 (m - 1) (by omega) fun r hr => ?_
          rw [Ex.app_add, Ex.app_smul]
          simp only
          by_cases hrm : r = m - 1
          · subst hrm
            rw [hq1.app_eq (m - 1) (by omega), if_pos (le_refl _), ← htr1 j hj1 hj2, ← ha, hc]
            field_simp; ring
          · rw [hq1.app_eq (m - 1) (by omega), if_neg (by omega),
              app_of_mem hq1 m (le_refl _) (hmem1 j hj2) r (by omega)]
            ring
        have hx' : bv s.d s1.M (m - 1) =
            (fun r => bv s.d s1.M (m - 1) r + (-c) * bv s.d s1.M j r) + c • bv s.d s1.M j := by
          funext r; simp
        rw [hx']
        exact Submodule.add_mem _ (hlow hy) (Submodule.smul_mem _ _ hjS)
      · exact hlow (bv_mem_Sp (by omega))
    refine ⟨⟨by rw [hS3.2.2.1]; exact hN.dec, by rw [hS3.1, hS3.2.2.2]; exact hN.hm,
      by rw [hS3.1, hS3.2.2.2]; exact hN.ldim, by rw [hS3.1, hS3.2.1]; exact hN.hn,
      by rw [hS3.1]; exact hqm, fun k hk => ?_, ?_, ?_, ?_⟩, ?_, abs_le_of_mul_self hle⟩
    · rw [hS3.1]
      by_cases hkm : k = m
      · subst hkm; exact hgmpos
      · rw [hgk k (by omega)]; exact hN.gdp k hk
    · intro κ hκ r hr
      by_cases h1 : κ < m - 1
      · rw [hR3 κ h1, hR3 r (by omega)]; exact hN.red κ (by omega) r hr
      · have h2 : κ = m - 1 := by omega
        subst h2
        have := g2.red r hr
        rw [hf2, e2.Rc r (by omega)] at this
        rw [hR3 r hr]; exact this
    · rw [hS3.1, hS3.2.1, hS3.2.2.2]
      intro l hl
      by_cases h1 : l = m - 1
      · subst h1; exact bv_mem_Sp (by omega)
      · rw [hb3 l h1]
        by_cases h2 : l = j
        · subst h2; rw [hb2j]; exact hsub (bv_mem_Sp (by omega))
        · rw [hb2c l h1 h2]; exact hsub (hmem1 l hl)
    · intro i hi
      by_cases h1 : i < m - 1
      · rw [hR3 i h1]; exact hN.bnd i hi
      · have h2 : i = m - 1 := by omega
        subst h2
        exact (abs_le_of_mul_self hle).trans (hN.bnd _ hi)
    · unfold Pot
      obtain ⟨k, rfl⟩ : ∃ k, m = k + 1 := ⟨m - 1, by omega⟩
      rw [prod_range_succ, prod_range_succ]
      have e3 : ∏ i ∈ range k, (gd s.d s3.M (i + 1) : ℝ) = ∏ i ∈ range k, (gd s.d s.M (i + 1) : ℝ) :=
        prod_congr rfl fun i hi => by
          have := mem_range.mp hi
          rw [hgk (i + 1) (by omega)]
      have e4 : (gd s.d s3.M (k + 1) : ℝ) ≤ 1 / 4 * gd s.d s.M (k + 1) := by
        rw [hgm, gd_diag hN.qr hmd k (by omega)]
        simp only [Nat.add_sub_cancel] at haR' hg0 ⊢
        nlinarith
      have e5 : (0 : ℝ) ≤ ∏ i ∈ range k, (gd s.d s.M (i + 1) : ℝ) :=
        prod_nonneg fun i _ => by exact_mod_cast gd_nonneg _ _ _
      rw [e3]
      nlinarith

end Dec

end HPLLL
