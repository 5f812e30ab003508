import Verif.Proof.DecStep
/-! The FGAS decomposition of an integer matrix terminates in exact arithmetic. -/

namespace HPLLL
open Spec Finset

namespace Dec

variable {o : FPOps ℝ}

theorem Pot_congr {d m : ℕ} {M M' : Mat Int} (h : ∀ k ≤ m, gd d M' k = gd d M k) :
    Pot d M' m = Pot d M m := by
  unfold Pot
  exact prod_congr rfl fun k hk => by
    have := mem_range.mp hk
    rw [h (k + 1) (by omega)]

theorem Pot_one_le {d m : ℕ} {M : Mat Int} (h : ∀ k ≤ m, 0 < gd d M k) : 1 ≤ Pot d M m := by
  unfold Pot
  refine Finset.prod_induction _ (fun x => (1 : ℝ) ≤ x) (fun a b ha hb => ?_) (le_refl _) ?_
  · nlinarith
  · intro k hk
    have := mem_range.mp hk
    have := h (k + 1) (by omega)
    exact_mod_cast this

theorem Pot_pred {d m : ℕ} {M : Mat Int} (h : ∀ k ≤ m, 0 < gd d M k) (h0 : 0 < m) :
    Pot d M (m - 1) ≤ Pot d M m := by
  obtain ⟨k, rfl⟩ : ∃ k, m = k + 1 := ⟨m - 1, by omega⟩
  simp only [Nat.add_sub_cancel]
  have h1 := Pot_one_le (d := d) (M := M) (m := k) fun i hi => h i (by omega)
  have h2 : (1 : ℝ) ≤ gd d M (k + 1) := by
    have := h (k + 1) (le_refl _)
    exact_mod_cast this
  have : Pot d M (k + 1) = Pot d M k * gd d M (k + 1) := by unfold Pot; rw [prod_range_succ]
  rw [this]
  nlinarith

/-- Lower bound on the last diagonal entry. -/
theorem Nrm.last {e : ℕ} {B : ℝ} {m : ℕ} {s : Fg Int ℝ} (h : Nrm e B m s) (h0 : 0 < m) :
    1 ≤ |s.fp.R (m - 1) (m - 1)| * B ^ (m - 1) := by
  have hmd : m ≤ s.d := by have := h.hm; omega
  have h1 := h.qr.gd_prod hmd
  obtain ⟨k, rfl⟩ : ∃ k, m = k + 1 := ⟨m - 1, by omega⟩
  simp only [Nat.add_sub_cancel]
  rw [prod_range_succ] at h1
  have h2 : ∏ j ∈ range k, s.fp.R j j * s.fp.R j j ≤ (B ^ k) * (B ^ k) := by
    have : (B ^ k) * (B ^ k) = ∏ _j ∈ range k, B * B := by
      rw [prod_const, card_range, mul_pow]
    rw [this]
    refine prod_le_prod (fun j _ => mul_self_nonneg _) fun j hj => ?_
    have := mem_range.mp hj
    rw [← abs_mul_abs_self]
    have hb := h.bnd j (by omega)
    exact mul_le_mul hb hb (abs_nonneg _) ((abs_nonneg _).trans hb)
  have h3 : (1 : ℝ) ≤ gd s.d s.M (k + 1) := by
    have := h.gdp (k + 1) (le_refl _)
    exact_mod_cast this
  rw [h1] at h3
  have hB : 0 ≤ B := (abs_nonneg _).trans (h.bnd k (by omega))
  obtain ⟨x, hx⟩ : ∃ x, x = |s.fp.R k k| := ⟨_, rfl⟩
  rw [← abs_mul_abs_self (s.fp.R k k), ← hx] at h3
  rw [← hx]
  have hx0 : 0 ≤ x := by rw [hx]; exact abs_nonneg _
  have hBk : 0 ≤ B ^ k := pow_nonneg hB k
  have h4 : 1 ≤ (x * B ^ k) * (x * B ^ k) := by
    calc (1 : ℝ) ≤ _ := h3
      _ ≤ (B ^ k * B ^ k) * (x * x) := mul_le_mul_of_nonneg_right h2 (mul_nonneg hx0 hx0)
      _ = _ := by ring
  by_contra hlt
  push Not at hlt
  have := mul_nonneg hx0 hBk
  nlinarith

/-- Invariant of the loop; `m` is the number of columns left once a zero found has been recorded. -/
structure LpInv (e : ℕ) (B : ℝ) (m : ℕ) (t : DSt Int ℝ) : Prop where
  st : (Nrm e B m t.s ∧ e < m) ∨ (Deg e B (m + 1) t.maxh t.s ∧ e ≤ m)
  dpos : 0 < t.diagold
  dle : t.diagold ≤ B
  prev : ∀ h < m, t.prevkappa = (h : ℤ) → |t.s.fp.R h h| ≤ t.prevR h

/-- The dimension test. -/
theorem gap_spec (ho : Exact o) {e : ℕ} {B gap : ℝ} {m : ℕ} {t : DSt Int ℝ} (h : LpInv e B m t) (hB : 1 ≤ B)
    (hg : 0 < gap) (hgB : gap * B ^ t.s.d ≤ 1) (s : Fg Int ℝ)
    (hs : Same t.s s ∧ s.M = t.s.M ∧ s.fp = t.s.fp) :
    let s' := if o.lt (o.abs (o.div (s.fp.R (s.d - s.ldim - 1) (s.d - s.ldim - 1)) t.diagold)) gap
      then gapDo t.maxh s else s
    Nrm e B m s' ∧ s'.fp = t.s.fp ∧ s'.d = t.s.d ∧ s'.n = t.s.n ∧ Pot t.s.d s'.M m = Pot t.s.d t.s.M m := by
  obtain ⟨hS, hM, hF⟩ := hs
  intro s'
  simp only [s']
  rw [hF, hS.1, hS.2.2.2, ho.abs, ho.div]
  rcases h.st with ⟨hN, h0⟩ | ⟨hD, hem⟩
  · have hle : gap ≤ |t.s.fp.R (m - 1) (m - 1) / t.diagold| := by
      have h1 := hN.last (by omega)
      have hmd : m ≤ t.s.d := by have := hN.hm; omega
      rw [abs_div, abs_of_pos h.dpos, le_div_iff₀ h.dpos]
      have hx := abs_nonneg (t.s.fp.R (m - 1) (m - 1))
      obtain ⟨x, hxe⟩ : ∃ x, x = |t.s.fp.R (m - 1) (m - 1)| := ⟨_, rfl⟩
      rw [← hxe] at h1 hx ⊢
      have h2 : B ^ m ≤ B ^ t.s.d := pow_le_pow_right₀ hB hmd
      have h3 : gap * B ^ m ≤ 1 := le_trans (mul_le_mul_of_nonneg_left h2 hg.le) hgB
      have h4 : B ^ m = B ^ (m - 1) * B := by rw [← pow_succ]; congr 1; omega
      have hp : 0 < B ^ (m - 1) := pow_pos (by linarith) _
      have h5 : gap * B * B ^ (m - 1) ≤ x * B ^ (m - 1) := by
        rw [h4] at h3; nlinarith
      have h6 := le_of_mul_le_mul_right h5 hp
      nlinarith [h.dle]
    rw [← hN.hm, if_neg (by
      intro hl
      have := (ho.lt _ _).mp hl
      linarith)]
    refine ⟨⟨by rw [hS.2.2.1]; exact hN.dec, by rw [hS.1, hS.2.2.2]; exact hN.hm,
      by rw [hS.1, hS.2.2.2]; exact hN.ldim, by rw [hS.1, hS.2.1]; exact hN.hn,
      by rw [hS.1, hM, hF]; exact hN.qr, by rw [hS.1, hM]; exact hN.gdp, by rw [hF]; exact hN.red,
      by rw [hS.1, hS.2.1, hS.2.2.2, hM]; exact hN.span, by rw [hF]; exact hN.bnd⟩, hF, hS.1, hS.2.1,
      by rw [hM]⟩
  · have hz : t.s.fp.R (t.s.d - t.s.ldim - 1) (t.s.d - t.s.ldim - 1) = 0 := by
      have := hD.diag; rw [hD.hm] at this; exact this
    rw [hz, zero_div, abs_zero, if_pos ((ho.lt _ _).mpr hg)]
    unfold gapDo
    simp only
    have hm := hD.hm
    have hd2 := hD.qr
    simp only [Nat.add_sub_cancel] at hd2
    have h1 := hD.gdp
    have h2 := hD.red
    have h3 := hD.span
    have h4 := hD.bnd
    have hlo := hD.hlo
    have hhi := hD.hhi
    have hln := hD.hn
    simp only [Nat.add_sub_cancel] at h1 h2 h3 h4
    obtain ⟨s1, hs1⟩ : ∃ s1, s1 = (if t.maxh < s.n - s.ldim - 1 then
      s.swap t.maxh (s.n - s.ldim - 1) else s) := ⟨_, rfl⟩
    rw [← hs1]
    have hS1 : Same t.s s1 := by
      rw [hs1]; split
      · exact hS.trans ⟨rfl, rfl, rfl, rfl⟩
      · exact hS
    have hF1 : s1.fp = t.s.fp := by rw [hs1]; split <;> exact hF
    have hM1 : ∀ c, c ≠ t.maxh → c ≠ t.s.n - t.s.ldim - 1 → s1.M c = t.s.M c := by
      intro c c1 c2
      rw [hs1]; split
      · show colswap s.M _ _ c = _
        rw [hS.2.1, hS.2.2.2, hM, colswap_ne c1 c2]
      · rw [hM]
    have hM2 : t.maxh < t.s.n - t.s.ldim - 1 → s1.M t.maxh = t.s.M (t.s.n - t.s.ldim - 1) := by
      intro hlt
      rw [hs1, hS.2.1, hS.2.2.2, if_pos hlt]
      show colswap s.M _ _ _ = _
      rw [colswap_left, hM]
    have hgd : ∀ k ≤ m, gd t.s.d s1.M k = gd t.s.d t.s.M k := fun k hk =>
      gd_congr fun i hi r _ => by rw [hM1 i (by omega) (by omega)]
    have hsp : Sp t.s.d s1.M m = Sp t.s.d t.s.M m :=
      Sp_congr fun i hi => hM1 i (by omega) (by omega)
    refine ⟨⟨by rw [hS1.2.2.1]; exact hD.dec, ?_, ?_, ?_, ?_, ?_, ?_, ?_, ?_⟩, hF1, hS1.1, hS1.2.1,
      Pot_congr hgd⟩
    · simp only; rw [hS1.1, hS1.2.2.2]; omega
    · simp only; rw [hS1.1, hS1.2.2.2]; omega
    · simp only; rw [hS1.1, hS1.2.1]; exact hln
    · simp only; rw [hS1.1, hF1]
      exact hd2.congr (fun _ _ => rfl) (fun k hk => hM1 k (by omega) (by omega)) (fun _ _ => rfl)
        (fun _ _ => rfl)
    · simp only; rw [hS1.1]; intro k hk; rw [hgd k hk]; exact h1 k hk
    · simp only; rw [hF1]; exact h2
    · simp only; rw [hS1.1, hS1.2.1, hS1.2.2.2, hsp]
      intro j hj
      by_cases hjm : j = t.maxh
      · subst hjm
        have : bv t.s.d s1.M t.maxh = bv t.s.d t.s.M (t.s.n - t.s.ldim - 1) := by
          unfold bv; rw [hM2 (by omega)]
        rw [this]
        exact h3 _ (by omega) (by omega)
      · have : bv t.s.d s1.M j = bv t.s.d t.s.M j := by
          unfold bv; rw [hM1 j hjm (by omega)]
        rw [this]
        exact h3 j (by omega) hjm
    · simp only; rw [hF1]; exact h4

/-- One iteration. -/
theorem zStep_spec (ho : ExactTies o) {γ B gap : ℝ} (hγ : 0 < γ) (hc : 1 / 4 + 1 / γ ^ 2 ≤ 1)
    (hB : 1 ≤ B) (hg : 0 < gap) {e fuel m : ℕ} {tg : ℤ} (hf : 2 ≤ fuel) {t : DSt Int ℝ} (h : LpInv e B m t)
    (hgB : gap * B ^ t.s.d ≤ 1)
    (htg : tg = (t.s.d : ℤ) - e) (hed : e ≤ t.s.d) :
    (m = e ∧ ∃ s', zStep o fuel γ gap tg t = some (.ret 0 s') ∧ s'.d = t.s.d ∧
      s'.n = t.s.n ∧ Nrm e B e s') ∨
    (e < m ∧ ∃ t', zStep o fuel γ gap tg t = some (.next t') ∧ t'.s.d = t.s.d ∧
      t'.s.n = t.s.n ∧
      ((LpInv e B m t' ∧ Pot t.s.d t'.s.M m ≤ (1 / 4 + 1 / γ ^ 2) * Pot t.s.d t.s.M m) ∨
       (LpInv e B (m - 1) t' ∧ Pot t.s.d t'.s.M (m - 1) ≤ Pot t.s.d t.s.M m))) := by
  have hγ1 : 1 ≤ γ := by
    by_contra hlt
    push Not at hlt
    have h1 : 1 ≤ 1 / γ ^ 2 := by
      rw [le_div_iff₀ (by positivity)]; nlinarith
    linarith
  unfold zStep
  simp only
  obtain ⟨g1, g2, g3, g4, g5⟩ := gap_spec ho.toExact h hB hg hgB
    { t.s with nblov := t.s.nblov + 1
               ub := t.s.ub || !decide (t.s.ldim < t.s.d ∧ t.s.d - t.s.ldim - 1 < t.s.n) }
    ⟨⟨rfl, rfl, rfl, rfl⟩, rfl, rfl⟩
  simp only at g1 g2 g3 g4 g5
  obtain ⟨s, hs⟩ : ∃ s, s = (if o.lt (o.abs (o.div (t.s.fp.R (t.s.d - t.s.ldim - 1)
      (t.s.d - t.s.ldim - 1)) t.diagold)) gap = true then gapDo t.maxh
    { t.s with nblov := t.s.nblov + 1
               ub := t.s.ub || !decide (t.s.ldim < t.s.d ∧ t.s.d - t.s.ldim - 1 < t.s.n) } else
    { t.s with nblov := t.s.nblov + 1
               ub := t.s.ub || !decide (t.s.ldim < t.s.d ∧ t.s.d - t.s.ldim - 1 < t.s.n) }) := ⟨_, rfl⟩
  rw [← hs] at g1 g2 g3 g4 g5 ⊢
  have hm := g1.hm
  have hl := g1.ldim
  have hem : e ≤ m := by
    rcases h.st with h1 | h1
    · exact h1.2.le
    · exact h1.2
  by_cases h0 : m = e
  · left
    refine ⟨h0, s, ?_, g3, g4, by rw [h0] at g1; exact g1⟩
    rw [if_pos (by omega)]
  · right
    refine ⟨by omega, ?_⟩
    rw [if_neg (by omega)]
    obtain ⟨s1, hs1⟩ : ∃ s1, s1 = { s with
      ub := s.ub || !decide (s.dec < s.d ∧ s.dec < s.n ∧ s.ldim < s.d) } := ⟨_, rfl⟩
    have hN1 : Nrm e B m s1 := by
      rw [hs1]
      exact ⟨g1.dec, g1.hm, g1.ldim, g1.hn, g1.qr, g1.gdp, g1.red, g1.span, g1.bnd⟩
    have hfp : s1.fp = t.s.fp := by rw [hs1]; exact g2
    have hd1 : s1.d = t.s.d := by rw [hs1]; exact g3
    have hn1 : s1.n = t.s.n := by rw [hs1]; exact g4
    have hP1 : Pot t.s.d s1.M m = Pot t.s.d t.s.M m := by rw [hs1]; exact g5
    have e1 : s.dec = e := g1.dec
    have e3 : s.fp = s1.fp := by rw [hs1]
    rw [← hs1, e1, ← hm, e3]
    clear hs1 e1 e3 g1 g2 g3 g4 g5 hs hm hl
    have hlt : (leftPos o (gpow o γ) s1.fp.R e m).1 < m := leftPos_lt _ _ _ _ (by omega)
    have hmx := leftPos_next ho.toExact γ hγ1 s1.fp.R e m
    obtain ⟨k, hk⟩ : ∃ k, k = (leftPos o (gpow o γ) s1.fp.R e m).1 := ⟨_, rfl⟩
    have hmx := hmx _ hk
    rw [← hk] at hlt ⊢
    have hprev := h.prev k hlt
    rw [if_neg (by
      rintro ⟨-, h2, h3⟩
      have := (ho.lt _ _).mp h3
      have h4 := hprev h2
      rw [ho.abs, hfp] at this
      linarith)]
    rw [if_pos hlt, if_pos hlt]
    have hdd : 0 < diagMin o s1.fp.R e (m - 1) ∧ diagMin o s1.fp.R e (m - 1) ≤ B :=
      diagMin_le ho.toExact s1.fp.R e (m - 1) (fun x => 0 < x ∧ x ≤ B)
        (fun i hi => ⟨abs_pos.mpr (hN1.qr.rdiag i (by omega)), hN1.bnd i (by omega)⟩)
        ⟨abs_pos.mpr (hN1.qr.rdiag e (by omega)), hN1.bnd e (by omega)⟩
    by_cases hkm : k + 1 < m
    · obtain ⟨s2, f1, f2, f3, f4, f5⟩ := exchange_left ho hγ hc hf hN1 hkm (hmx hkm)
      rw [f1]
      refine ⟨_, rfl, f2.1.trans hd1, f2.2.1.trans hn1, Or.inl ⟨⟨Or.inl ⟨f3, by omega⟩, hdd.1, hdd.2, ?_⟩,
        ?_⟩⟩
      · intro i hi hik
        simp only at hik
        have : i = k := by omega
        subst this
        simp only [setAt_same]
        rw [ho.abs]; exact f5
      · rw [hd1] at f4; rw [← hP1]; exact f4
    · have hk1 : k = m - 1 := by omega
      subst hk1
      obtain ⟨s2, j, f1, f2, f3⟩ := exchange_right ho hf hN1 (by omega)
      rw [f1]
      refine ⟨_, rfl, f2.1.trans hd1, f2.2.1.trans hn1, ?_⟩
      rcases f3 with ⟨f4, f5, f6⟩ | ⟨f4, f5⟩
      · refine Or.inl ⟨⟨Or.inl ⟨f4, by omega⟩, hdd.1, hdd.2, ?_⟩, ?_⟩
        · intro i hi hik
          simp only at hik
          have : i = m - 1 := by omega
          subst this
          simp only [setAt_same]
          rw [ho.abs]; exact f6
        · rw [hd1] at f5
          rw [← hP1]
          refine f5.trans ?_
          have hPp := Pot_one_le hN1.gdp
          rw [hd1] at hPp
          have : 0 ≤ 1 / γ ^ 2 := by positivity
          nlinarith
      · refine Or.inr ⟨⟨Or.inr ⟨?_, by omega⟩, hdd.1, hdd.2, ?_⟩, ?_⟩
        · rw [show m - 1 + 1 = m by omega]; exact f4
        · intro i hi hik
          simp only at hik
          omega
        · simp only
          rw [Pot_congr (M := s1.M) (fun k hk => by rw [← hd1]; exact f5 k hk), ← hP1]
          have := Pot_pred hN1.gdp (by omega)
          rw [hd1] at this
          exact this

theorem LpInv.pot {e : ℕ} {B : ℝ} {m : ℕ} {t : DSt Int ℝ} (h : LpInv e B m t) : 1 ≤ Pot t.s.d t.s.M m := by
  rcases h.st with ⟨h1, -⟩ | ⟨h1, -⟩
  · exact Pot_one_le h1.gdp
  · exact Pot_one_le h1.gdp

/-- The loop ends. -/
theorem zLoop_spec (ho : ExactTies o) {γ B gap : ℝ} (hγ : 0 < γ) (hc : 1 / 4 + 1 / γ ^ 2 ≤ 1)
    (hB : 1 ≤ B) (hg : 0 < gap) {e fuel d n : ℕ} {tg : ℤ} (hf : 2 ≤ fuel) (hgB : gap * B ^ d ≤ 1)
    (htg : tg = (d : ℤ) - e) (hed : e ≤ d) (k : ℕ) :
    ∀ (a m : ℕ) (t : DSt Int ℝ), t.s.d = d → t.s.n = n → LpInv e B m t →
      (1 / 4 + 1 / γ ^ 2) ^ a * Pot d t.s.M m < 1 → a + m < k →
      ∃ s', zLoop o fuel γ gap tg k t = some (0, s') ∧ s'.d = d ∧ s'.n = n ∧ Nrm e B e s' := by
  obtain ⟨c, hce⟩ : ∃ c, c = 1 / 4 + 1 / γ ^ 2 := ⟨_, rfl⟩
  have hc0 : 0 < c := by rw [hce]; positivity
  have hc1 : c ≤ 1 := by rw [hce]; exact hc
  induction k with
  | zero => intro a m t _ _ _ _ h; omega
  | succ k ih =>
    intro a m t hd hn h hP hk
    have hz := zStep_spec (tg := tg) ho hγ hc hB hg hf h (by rw [hd]; exact hgB) (by rw [hd]; exact htg) (by rw [hd]; exact hed)
    rw [← hce] at hP hz ih
    rw [hd] at hz
    have hp1 := h.pot
    rw [hd] at hp1
    rcases hz with ⟨h0, s', e1, e2, e3, e4⟩ | ⟨h0, t', e1, e2, e3, e4⟩
    · refine ⟨s', ?_, e2, e3.trans hn, e4⟩
      rw [zLoop, e1]
    · rw [zLoop, e1]
      simp only
      rcases e4 with ⟨f1, f2⟩ | ⟨f1, f2⟩
      · have ha : a ≠ 0 := by
          rintro rfl
          rw [pow_zero, one_mul] at hP; linarith
        obtain ⟨b, rfl⟩ : ∃ b, a = b + 1 := ⟨a - 1, by omega⟩
        refine ih b m t' e2 (e3.trans hn) f1 ?_ (by omega)
        have hcb : 0 < c ^ b := pow_pos hc0 b
        have : c ^ b * Pot d t'.s.M m ≤ c ^ b * (c * Pot d t.s.M m) :=
          mul_le_mul_of_nonneg_left f2 hcb.le
        rw [pow_succ] at hP
        linarith
      · refine ih a (m - 1) t' e2 (e3.trans hn) f1 ?_ (by omega)
        have hcb : 0 < c ^ a := pow_pos hc0 a
        have : c ^ a * Pot d t'.s.M (m - 1) ≤ c ^ a * Pot d t.s.M m :=
          mul_le_mul_of_nonneg_left f2 hcb.le
        linarith

/-! ### The whole decomposition -/

theorem gd_hadamard (p : FPart ℝ) {d m k : ℕ} {A : Mat Int} (hA : FullColumnRank (toMatrix d m A))
    (hm : m ≤ d) (hk : k < m) :
    (gd d A (k + 1) : ℝ) ≤ gd d A k * Ex.dot d (bv d A k) (bv d A k) := by
  have hq := hhAll_spec realOps_exact.toExact A p hA hm k hk.le
  simp only at hq
  obtain ⟨u, hu⟩ : ∃ u, u = (List.range k).foldl (fun p κ => hhAllCol realOps d m A κ p) p := ⟨_, rfl⟩
  rw [← hu] at hq
  rw [hq.gd_tail (by omega)]
  refine mul_le_mul_of_nonneg_left ?_ (by exact_mod_cast gd_nonneg _ _ _)
  rw [← Ex.app_dot d u.V k hq.vnorm, Ex.dot_split d k (by omega)]
  have := Ex.dot_self_nonneg k (Ex.app d u.V k (bv d A k))
  unfold Ex.tail
  linarith

theorem Pot_le (p : FPart ℝ) {d : ℕ} {A : Mat Int} {B : ℝ} (hA : FullColumnRank (toMatrix d d A))
    (hB : ∀ j < d, Ex.dot d (bv d A j) (bv d A j) ≤ B ^ 2) : Pot d A d ≤ B ^ (d * (d + 1)) := by
  have hgk : ∀ k ≤ d, (gd d A k : ℝ) ≤ B ^ (2 * k) := by
    intro k hk
    induction k with
    | zero => simp [gd]
    | succ k ih =>
      refine (gd_hadamard p hA (le_refl _) hk).trans ?_
      have h1 := ih (by omega)
      have h2 := hB k hk
      have h3 : (0 : ℝ) ≤ gd d A k := by exact_mod_cast gd_nonneg _ _ _
      rw [show 2 * (k + 1) = 2 * k + 2 by ring, pow_add]
      exact mul_le_mul h1 h2 (Ex.dot_self_nonneg _ _) (h3.trans h1)
  have : ∀ m ≤ d, Pot d A m ≤ B ^ (m * (m + 1)) := by
    intro m hm
    induction m with
    | zero => simp [Pot]
    | succ m ih =>
      have : Pot d A (m + 1) = Pot d A m * gd d A (m + 1) := by unfold Pot; rw [prod_range_succ]
      rw [this, show (m + 1) * (m + 1 + 1) = m * (m + 1) + 2 * (m + 1) by ring, pow_add]
      have h3 : (0 : ℝ) ≤ gd d A (m + 1) := by exact_mod_cast gd_nonneg _ _ _
      have h4 : (0 : ℝ) ≤ Pot d A m := prod_nonneg fun k _ => by exact_mod_cast gd_nonneg _ _ _
      exact mul_le_mul (ih (by omega)) (hgk _ hm) h3 (h4.trans (ih (by omega)))
  exact this d (le_refl _)

/-- `ZFgas::decomp` on a matrix whose first `d` columns are independent. -/
theorem zDecomp_exact_dec (ho : ExactTies o) {γ B gap junk : ℝ} (hγ : 0 < γ) (hc : 1 / 4 + 1 / γ ^ 2 ≤ 1)
    (hB : 1 ≤ B) (hg : 0 < gap) {e d n N fuel : ℕ} {tg : ℤ}
    (htg : tg = (d : ℤ) - e) (hd : e < d) (hn : d < n) (hgB : gap * B ^ d ≤ 1)
    (fp : FPart ℝ) (A : Mat Int) (transf : Bool) (hA : FullColumnRank (toMatrix d d A))
    (hcol : ∀ j < d, Ex.dot d (bv d A j) (bv d A j) ≤ B ^ 2)
    (hN : (1 / 4 + 1 / γ ^ 2) ^ N * B ^ (d * (d + 1)) < 1) (hf : N + d + 2 ≤ fuel) :
    ∃ s', zDecomp o junk fuel γ gap tg (newZFgas fp d n A transf e) = some (0, s') ∧
      s'.d = d ∧ s'.n = n ∧ s'.ldim = d - e ∧ Nrm e B e s' := by
  unfold zDecomp
  simp only
  obtain ⟨s, hs⟩ : ∃ s, s = { newZFgas fp d n A transf e with
    ub := (newZFgas fp d n A transf e).ub || !decide (0 < (newZFgas fp d n A transf e).d ∧
      (newZFgas fp d n A transf e).dec < (newZFgas fp d n A transf e).d ∧
      (newZFgas fp d n A transf e).d ≤ (newZFgas fp d n A transf e).n) } := ⟨_, rfl⟩
  rw [← hs]
  have hsd : s.d = d := by rw [hs]; rfl
  have hsn : s.n = n := by rw [hs]; rfl
  have hsl : s.ldim = 0 := by rw [hs]; rfl
  have hse : s.dec = e := by rw [hs]; rfl
  have hsM : s.M = A := by rw [hs]; rfl
  have hN0 : (newZFgas fp d n A transf e).n = n := rfl
  rw [hN0]
  clear hs hN0
  have hap := hsizeRange_append (o := o) (zX o) fuel (n - d) d 0 s
  rw [show d + (n - d) = n by omega] at hap
  rw [hap]
  have hgp : ∀ k ≤ d, 0 < gd s.d s.M k := fun k hk => by rw [hsd, hsM]; exact gd_pos hk hA
  obtain ⟨s1, e1, e2⟩ := range_left ho (by omega : 2 ≤ fuel) d 0 s (by rw [hsd, hsl]; omega)
    ⟨fun k hk => by omega, fun k hk => by omega, fun k hk => by omega, fun k hk => by omega,
      fun k hk => by omega⟩ (fun k hk => hgp k (by omega))
  simp only [Nat.zero_add] at e2
  have hS1 := e2.same
  have hd1 : s1.d = d := hS1.1.trans hsd
  obtain ⟨s2, f1, f2⟩ := range_right ho (by omega : 2 ≤ fuel) (m := d) (n - d) d s1
    (by rw [hd1, hS1.2.2.2, hsl]; omega) (le_refl _)
    (by rw [hS1.1]; exact e2.qr)
  rw [show d + (n - d) = n by omega] at f2
  rw [e1]
  simp only [Option.bind_some, Nat.zero_add]
  rw [f1]
  simp only
  have hS2 : Same s s2 := hS1.trans f2.same
  have hd2 : s2.d = d := hS2.1.trans hsd
  have hn2 : s2.n = n := hS2.2.1.trans hsn
  have hl2 : s2.ldim = 0 := hS2.2.2.2.trans hsl
  have he2 : s2.dec = e := hS2.2.2.1.trans hse
  have hq1 : QR d s1.M s1.fp.V s1.fp.R d := by have := e2.qr; rw [hsd] at this; exact this
  have hq2 : QR d s2.M s2.fp.V s2.fp.R d :=
    hq1.congr (fun _ _ => rfl) (fun k hk => f2.Mc k (by omega)) (fun k _ => by rw [f2.V])
      (fun k hk => f2.Rc k (by omega))
  have hgd2 : ∀ k, gd d s2.M k = gd d A k := fun k => by
    have h1 := f2.gd k
    have h2 := e2.gd k
    rw [hd1] at h1
    rw [hsd, hsM] at h2
    rw [h1, h2]
  have hNrm : Nrm e B d s2 := by
    refine ⟨he2, by rw [hd2, hl2]; omega, by omega, by omega, by rw [hd2]; exact hq2,
      fun k hk => by rw [hd2, hgd2]; exact gd_pos hk hA, ?_, ?_, ?_⟩
    · intro κ hκ r hr
      rw [f2.Rc κ (by omega), f2.Rc r (by omega)]
      exact e2.red κ (by omega) hκ r hr
    · rw [hd2]
      intro j _
      refine mem_of_app hq2 d (le_refl _) fun r hr => ?_
      rw [app_ge _ _ _ _ _ hr]
      unfold bv; rw [if_neg (by omega)]
    · intro i hi
      have h1 := gd_diag hq2 (le_refl _) i hi
      rw [hgd2, hgd2] at h1
      have h2 := gd_hadamard fp hA (le_refl _) hi
      rw [h1] at h2
      have h3 : (0 : ℝ) < gd d A i := by exact_mod_cast gd_pos hi.le hA
      have h4 := (le_of_mul_le_mul_left h2 h3).trans (hcol i hi)
      rw [pow_two] at h4
      have := abs_le_of_mul_self h4
      rwa [abs_of_nonneg (by linarith : 0 ≤ B)] at this
  have hdd : 0 < diagMin o s2.fp.R e d ∧ diagMin o s2.fp.R e d ≤ B :=
    diagMin_le ho.toExact s2.fp.R e d (fun x => 0 < x ∧ x ≤ B)
      (fun i hi => ⟨abs_pos.mpr (hNrm.qr.rdiag i (by omega)), hNrm.bnd i (by omega)⟩)
      ⟨abs_pos.mpr (hNrm.qr.rdiag e (by omega)), hNrm.bnd e (by omega)⟩
  rw [he2, hd2]
  obtain ⟨s', g1, g2, g3, g4⟩ := zLoop_spec ho hγ hc hB hg (by omega : 2 ≤ fuel) hgB htg hd.le fuel N d
    ⟨s2, e, diagMin o s2.fp.R e d, 0, -1, fun _ => junk⟩ hd2 hn2
    ⟨Or.inl ⟨hNrm, hd⟩, hdd.1, hdd.2, fun h _ hp => by simp only at hp; omega⟩
    (by
      rw [Pot_congr (fun k _ => hgd2 k)]
      have := Pot_le fp hA hcol
      have hcN : 0 ≤ (1 / 4 + 1 / γ ^ 2) ^ N := by positivity
      exact lt_of_le_of_lt (mul_le_mul_of_nonneg_left this hcN) hN) (by omega)
  refine ⟨s', g1, g2, g3, ?_, g4⟩
  have := g4.hm; have := g4.ldim; omega

/-- The same with `dec = 0`. -/
theorem zDecomp_exact (ho : ExactTies o) {γ B gap junk : ℝ} (hγ : 0 < γ) (hc : 1 / 4 + 1 / γ ^ 2 ≤ 1)
    (hB : 1 ≤ B) (hg : 0 < gap) {d n N fuel : ℕ} (hd : 0 < d) (hn : d < n) (hgB : gap * B ^ d ≤ 1)
    (fp : FPart ℝ) (A : Mat Int) (transf : Bool) (hA : FullColumnRank (toMatrix d d A))
    (hcol : ∀ j < d, Ex.dot d (bv d A j) (bv d A j) ≤ B ^ 2)
    (hN : (1 / 4 + 1 / γ ^ 2) ^ N * B ^ (d * (d + 1)) < 1) (hf : N + d + 2 ≤ fuel) :
    ∃ s', zDecomp o junk fuel γ gap (d : ℤ) (newZFgas fp d n A transf 0) = some (0, s') ∧
      s'.d = d ∧ s'.n = n ∧ s'.ldim = d ∧ ∀ j < n - d, ∀ i < d, s'.M j i = 0 := by
  obtain ⟨s', g1, g2, g3, g5, g4⟩ := zDecomp_exact_dec ho (e := 0) (junk := junk) hγ hc hB hg
    (tg := (d : ℤ)) (by simp) hd hn hgB fp A transf hA hcol hN hf
  refine ⟨s', g1, g2, g3, by omega, ?_⟩
  intro j hj i hi
  have h1 := Sp_zero (g4.span j (by rw [g3, g5]; exact hj))
  have h2 := congrFun h1 i
  unfold bv at h2
  rw [if_pos (by rw [g2]; exact hi)] at h2
  simpa using h2

end Dec

end HPLLL
