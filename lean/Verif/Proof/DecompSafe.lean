import Verif.Proof.DecompAlg
/-! FGAS decompositions: no index outside an array. -/

namespace HPLLL
namespace Dec

variable {X F : Type} {o : FPOps F} {q : XOps X F}

/-- Dimensions for which the decompositions are meant. -/
structure Dims (s : Fg X F) : Prop where
  d0 : 0 < s.d
  dn : s.d < s.n
  dec : s.dec < s.d
  y : s.trY = true → s.n ≤ s.d + s.dec

theorem Dims.mvs {lo : Nat} {s s' : Fg X F} (h : Dims s) (m : Mvs o q lo s s') : Dims s' := by
  obtain ⟨e1, e2, e3, e4, e5, e6, e7, -⟩ := m.le
  exact ⟨by rw [e1]; exact h.d0, by rw [e1, e2]; exact h.dn, by rw [e1, e3]; exact h.dec,
    by rw [e7, e1, e2, e3]; exact h.y⟩

theorem hh_safe {κ : Nat} {s : Fg X F} (h : Dims s) (hκ : κ < s.n) (hu : s.ub = false) :
    (s.hh o q κ).ub = false := by
  simp [Fg.hh, hu, hκ, h.d0]

theorem combine_safe {κ i : Nat} {x : F} {s : Fg X F} (h : Dims s) (hκ : κ < s.n) (hi : i < κ)
    (hid : i < s.d) (hu : s.ub = false) : (s.combine o q κ i x).ub = false := by
  have hY : s.trY = true → κ - s.dec < s.d := fun ht => by have := h.y ht; have := h.dec; omega
  have hin : i < s.n := by omega
  unfold Fg.combine
  simp only
  split
  · simp only [hu]; simp [hκ, hin, hid]; intro a b; exact hY a
  · split
    · simp only [hu]; simp [hκ, hin, hid]; intro a b; exact hY a
    · simp only [hu]; simp [hκ, hin, hid]; intro a b; exact hY a

theorem sizePass_safe {κ : Nat} (m : Nat) (hm : m ≤ κ) : ∀ {t : Fg X F × Bool}, Dims t.1 → κ < t.1.n →
    m ≤ t.1.d → t.1.ub = false → (Fg.sizePass o q κ m t).1.ub = false := by
  induction m with
  | zero => intro t _ _ _ h; exact h
  | succ m ih =>
    intro t hD hκ hmd hu
    unfold Fg.sizePass
    have hs : Dims (Fg.sizeStep o q κ m t).1 ∧ κ < (Fg.sizeStep o q κ m t).1.n ∧
        m ≤ (Fg.sizeStep o q κ m t).1.d ∧ (Fg.sizeStep o q κ m t).1.ub = false := by
      unfold Fg.sizeStep
      simp only
      split
      · exact ⟨hD, hκ, by omega, hu⟩
      · have mv : Mvs o q 0 t.1 (t.1.combine o q κ m (o.rnd (o.div (t.1.fp.R κ m) (t.1.fp.R m m)))) :=
          Relation.ReflTransGen.single (Mv.comb _ _ _ _ (by omega))
        have hl := mv.le
        refine ⟨hD.mvs mv, ?_, ?_, combine_safe hD hκ (by omega) (by omega) hu⟩
        · simp only; rw [hl.2.1]; exact hκ
        · simp only; rw [hl.1]; omega
    exact ih (by omega) hs.1 hs.2.1 hs.2.2.1 hs.2.2.2

theorem sizeLoop_safe {κ : Nat} (fuel : Nat) : ∀ {s s' : Fg X F}, Dims s → κ < s.n → s.ub = false →
    Fg.sizeLoop o q κ fuel s = some s' → s'.ub = false := by
  induction fuel with
  | zero => intro s s' _ _ _ h; simp [Fg.sizeLoop] at h
  | succ fuel ih =>
    intro s s' hD hκ hu h
    unfold Fg.sizeLoop at h
    simp only at h
    obtain ⟨m1, -⟩ := sizePass_mvs (o := o) (q := q) 0 κ (min κ (s.d - s.ldim)) (by omega) (s, false)
    have hu1 := sizePass_safe (o := o) (q := q) (κ := κ) (min κ (s.d - s.ldim)) (by omega) (t := (s, false))
      hD hκ (by simp only; omega) hu
    have hD1 := hD.mvs m1
    have hκ1 : κ < (Fg.sizePass o q κ (min κ (s.d - s.ldim)) (s, false)).1.n := by
      rw [m1.le.2.1]; exact hκ
    split at h
    · split at h
      · exact ih (hD1.mvs (hh_mvs (o := o) (q := q) 0 κ _)) hκ1 (hh_safe hD1 hκ1 hu1) h
      · simp only [Option.some.injEq] at h
        subst h
        exact hh_safe hD1 hκ1 hu1
    · simp only [Option.some.injEq] at h
      subst h
      exact hu1

theorem hsizereduce_safe {κ fuel : Nat} {s s' : Fg X F} (hD : Dims s) (hκ : κ < s.n) (hu : s.ub = false)
    (h : s.hsizereduce o q fuel κ = some s') : s'.ub = false :=
  sizeLoop_safe fuel (hD.mvs (hh_mvs (o := o) (q := q) 0 κ s)) hκ (hh_safe hD hκ hu) h

theorem hsizeRange_safe {fuel : Nat} (len : Nat) : ∀ {a : Nat} {s s' : Fg X F}, Dims s → a + len ≤ s.n →
    s.ub = false → Fg.hsizeRange o q fuel a len s = some s' → s'.ub = false := by
  induction len with
  | zero =>
    intro a s s' _ _ hu h
    simp only [Fg.hsizeRange, Option.some.injEq] at h; subst h; exact hu
  | succ len ih =>
    intro a s s' hD hκ hu h
    unfold Fg.hsizeRange at h
    split at h
    · simp at h
    · rename_i s1 h1
      obtain ⟨m1, -⟩ := hsizereduce_mvs (o := o) (q := q) 0 a fuel _ _ h1
      exact ih (hD.mvs m1) (by rw [m1.le.2.1]; omega) (hsizereduce_safe hD (by omega) hu h1) h

theorem swap_safe {a b : Nat} {s : Fg X F} (hD : Dims s) (ha : a < s.n) (hb : b < s.n)
    (ha' : s.dec ≤ a) (hb' : s.dec ≤ b) (hu : s.ub = false) : (s.swap a b).ub = false := by
  simp only [Fg.swap, hu]
  have := hD.dec
  simp only [ha, hb, ha', hb', and_self, decide_true, Bool.true_and, true_and, Bool.false_or,
    Bool.not_eq_false', Bool.or_eq_true, Bool.not_eq_true', decide_eq_true_eq]
  cases ht : s.trY
  · exact Or.inl rfl
  · right; have := hD.y ht; omega

theorem gapDo_safe {maxh : Nat} {s : Fg X F} (hD : Dims s) (h1 : s.dec ≤ maxh) (h2 : maxh < s.n)
    (hu : s.ub = false) : (gapDo maxh s).ub = false := by
  unfold gapDo
  simp only
  split
  · exact swap_safe hD h2 (by omega) h1 (by omega) hu
  · exact hu

theorem exchange_safe {fuel maxh maxh' : Nat} {s s' : Fg X F} (hD : Dims s) (h1 : s.dec ≤ maxh)
    (hl : s.ldim + s.dec < s.d) (h2 : maxh < s.d - s.ldim)
    (hu : s.ub = false) (he : exchange o q fuel maxh s = some (s', maxh')) :
    s'.ub = false ∧ s.dec ≤ maxh' ∧ maxh' < s.n := by
  have hdn := hD.dn
  unfold exchange at he
  simp only at he
  split at he
  · split at he
    · simp at he
    · rename_i s1 e1
      simp only [Option.some.injEq, Prod.mk.injEq] at he
      obtain ⟨rfl, rfl⟩ := he
      have m1 : Mvs o q s.dec s (s.swap maxh (maxh + 1)) :=
        Relation.ReflTransGen.single (Mv.swap s _ _ h1 (by omega))
      refine ⟨hsizeRange_safe _ (hD.mvs m1) ?_ (swap_safe hD (by omega) (by omega) h1 (by omega) hu) e1,
        h1, by omega⟩
      rw [m1.le.2.1]; omega
  · split at he
    · simp at he
    · rename_i s1 e1
      obtain ⟨m1, m1'⟩ := hsizeRange_mvs (o := o) (q := q) 0 fuel _ _ _ _ e1
      have hu1 := hsizeRange_safe _ hD (by omega) hu e1
      have hl1 := m1.le
      split at he
      · simp at he
      · rename_i s2 e2
        simp only [Option.some.injEq, Prod.mk.injEq] at he
        obtain ⟨rfl, rfl⟩ := he
        have hr := rightPos_range (o := o) s1.fp.R (s.d - s.ldim - 1) (s.d - s.ldim) (s1.n - s1.ldim)
        rw [hl1.2.1, m1'] at hr
        have hr2 := hr.2 (by omega)
        have hDc : Dims { s1 with ub := s1.ub || !decide (s.d - s.ldim < s1.n) } :=
          (hD.mvs m1).mvs (o := o) (q := q) (lo := 0) (Relation.ReflTransGen.single (Mv.chk _ _))
        have hmv := hDc.mvs (o := o) (q := q) (lo := 0) (Relation.ReflTransGen.single
          (Mv.swap _ (s.d - s.ldim - 1) (rightPos o s1.fp.R (s.d - s.ldim - 1) (s.d - s.ldim) (s1.n - s1.ldim)).1
            (Nat.zero_le _) (Nat.zero_le _)))
        refine ⟨?_, by rw [hl1.2.1, m1']; omega, by rw [hl1.2.1, m1']; omega⟩
        refine hsizereduce_safe hmv ?_ ?_ e2
        · show s.d - s.ldim - 1 < s1.n
          rw [hl1.2.1]; omega
        · refine swap_safe hDc ?_ ?_ ?_ ?_ ?_
          · show s.d - s.ldim - 1 < s1.n
            rw [hl1.2.1]; omega
          · show (rightPos o s1.fp.R (s.d - s.ldim - 1) (s.d - s.ldim) (s1.n - s1.ldim)).1 < s1.n
            rw [hl1.2.1, m1']; omega
          · show s1.dec ≤ _
            rw [hl1.2.2.1]; omega
          · show s1.dec ≤ _
            rw [hl1.2.2.1, hl1.2.1, m1']; omega
          · simp only [hu1, hl1.2.1]
            simp; omega

/-- Loop invariant. -/
structure Safe (t : DSt X F) : Prop where
  dims : Dims t.s
  ub : t.s.ub = false
  ldim : t.s.ldim < t.s.d
  lo : t.s.dec ≤ t.maxh
  hi : t.maxh < t.s.n

def StepSafe : DStep X F → Prop
  | .ret _ s' => s'.ub = false
  | .next t' => Safe t'

theorem finish_safe {fuel maxh maxh' : Nat} {s s' : Fg X F} {targetdim : Int} (hD : Dims s)
    (hmaxh : s.dec < s.d - s.ldim → s.dec ≤ maxh ∧ maxh < s.d - s.ldim)
    (htd : (s.ldim : Int) < targetdim) (ht : targetdim ≤ (s.d : Int) - s.dec)
    (hu : s.ub = false) (he : exchange o q fuel maxh s = some (s', maxh'))
    (dg : F) (my : X) (pk : Int) (pr : Nat → F) : Safe ⟨s', maxh', dg, my, pk, pr⟩ := by
  have hd := hD.dec
  obtain ⟨h1, h2⟩ := hmaxh (by omega)
  obtain ⟨e1, e2, e3⟩ := exchange_safe hD h1 (by omega) h2 hu he
  obtain ⟨m, m', -⟩ := exchange_mvs (o := o) (q := q) 0 fuel maxh s s' maxh' (Nat.zero_le _) (Nat.zero_le _) he
  have hl := m.le
  exact ⟨hD.mvs m, e1, by simp only; rw [hl.1, m']; omega, by simp only; rw [hl.2.2.1]; exact e2,
    by simp only; rw [hl.2.1]; exact e3⟩

theorem gapDo_ldim {maxh : Nat} (s : Fg X F) : (gapDo maxh s).ldim = s.ldim + 1 := by
  unfold gapDo; simp only; split <;> rfl

theorem zStep_safe {F : Type} {o : FPOps F} {fuel : Nat} {gamma gap : F} {targetdim : Int}
    {t : DSt Int F} {r : DStep Int F} (hS : Safe t) (ht : targetdim ≤ (t.s.d : Int) - t.s.dec)
    (h : zStep o fuel gamma gap targetdim t = some r) : StepSafe r := by
  have hdn := hS.dims.dn
  have hdec := hS.dims.dec
  unfold zStep at h
  simp only at h
  have hc : (t.s.ub || !decide (t.s.ldim < t.s.d ∧ t.s.d - t.s.ldim - 1 < t.s.n)) = false := by
    have := hS.ldim
    simp [hS.ub, this]; omega
  rw [hc] at h
  set s1 : Fg Int F := { t.s with nblov := t.s.nblov + 1, ub := false } with hs1
  have m1 : Mvs o (zX o) 0 t.s s1 := by
    have : s1 = { { t.s with ldim := t.s.ldim, nblov := t.s.nblov + 1 } with ub := t.s.ub || false } := by
      rw [hs1, hS.ub]; rfl
    rw [this]
    exact (Relation.ReflTransGen.single (Mv.ctr t.s t.s.ldim (t.s.nblov + 1))).trans
      (Relation.ReflTransGen.single (Mv.chk _ _))
  have hD1 : Dims s1 := hS.dims.mvs m1
  set b := o.lt (o.abs (o.div (t.s.fp.R (t.s.d - t.s.ldim - 1) (t.s.d - t.s.ldim - 1)) t.diagold)) gap
  have h2 : Mvs o (zX o) 0 t.s (if b = true then gapDo t.maxh s1 else s1) ∧
      (if b = true then gapDo t.maxh s1 else s1).ub = false := by
    split
    · exact ⟨m1.trans (gapDo_mvs 0 _ _ (Nat.zero_le _)), gapDo_safe hD1 hS.lo hS.hi rfl⟩
    · exact ⟨m1, rfl⟩
  set s2 := (if b = true then gapDo t.maxh s1 else s1) with hs2
  obtain ⟨m2, hu2⟩ := h2
  have hl := m2.le
  split at h
  · simp only [Option.some.injEq] at h
    subst h
    exact hu2
  · rename_i htd
    have hc3 : (s2.ub || !decide (s2.dec < s2.d ∧ s2.dec < s2.n ∧ s2.ldim < s2.d)) = false := by
      rw [hu2, hl.1, hl.2.1, hl.2.2.1]
      simp
      omega
    rw [hc3] at h
    split at h
    · simp only [Option.some.injEq] at h
      subst h
      rfl
    · split at h
      · simp at h
      · rename_i s' maxh' he
        simp only [Option.some.injEq] at h
        subst h
        have hD3 : Dims { s2 with ub := false } := by
          have := hS.dims.mvs m2
          exact ⟨this.d0, this.dn, this.dec, this.y⟩
        refine finish_safe (targetdim := targetdim) hD3 (fun hh => ?_) (by simp only; omega)
          (by simp only; rw [hl.1, hl.2.2.1]; exact ht) rfl he _ _ _ _
        exact ⟨leftPos_ge _ _ _ _, leftPos_lt _ _ _ _ hh⟩

theorem zLoop_safe {F : Type} {o : FPOps F} {fuel : Nat} {gamma gap : F} {targetdim : Int} (k : Nat) :
    ∀ {t : DSt Int F} {c : Int} {s' : Fg Int F}, Safe t → targetdim ≤ (t.s.d : Int) - t.s.dec →
    zLoop o fuel gamma gap targetdim k t = some (c, s') → s'.ub = false := by
  induction k with
  | zero => intro t c s' _ _ h; simp [zLoop] at h
  | succ k ih =>
    intro t c s' hS ht h
    unfold zLoop at h
    split at h
    · simp at h
    · rename_i c' s1 h1
      simp only [Option.some.injEq, Prod.mk.injEq] at h
      obtain ⟨-, rfl⟩ := h
      exact zStep_safe hS ht h1
    · rename_i t1 h1
      have h2 := zStep_safe hS ht h1
      have hl := (zStep_ok (lo := 0) (Or.inl rfl) (Nat.zero_le _) h1).1.le
      exact ih h2 (by rw [hl.1, hl.2.2.1]; exact ht) h

/-- `ZFgas::decomp` uses no index outside an array. -/
theorem zDecomp_safe {F : Type} {o : FPOps F} {fuel : Nat} {junk gamma gap : F} {targetdim : Int}
    {s s' : Fg Int F} {c : Int} (hD : Dims s) (hu : s.ub = false) (hl : s.ldim < s.d)
    (ht : targetdim ≤ (s.d : Int) - s.dec)
    (h : zDecomp o junk fuel gamma gap targetdim s = some (c, s')) : s'.ub = false := by
  unfold zDecomp at h
  simp only at h
  have hdn := hD.dn
  have hdec := hD.dec
  have hc : (s.ub || !decide (0 < s.d ∧ s.dec < s.d ∧ s.d ≤ s.n)) = false := by
    simp [hu, hD.d0, hD.dec]; omega
  rw [hc] at h
  have hD' : Dims { s with ub := false } := ⟨hD.d0, hD.dn, hD.dec, hD.y⟩
  split at h
  · simp at h
  · rename_i s1 h1
    obtain ⟨m1, m1'⟩ := hsizeRange_mvs (o := o) (q := zX o) 0 fuel _ _ _ _ h1
    have hu1 := hsizeRange_safe _ hD' (by simp) rfl h1
    have hle := m1.le
    refine zLoop_safe fuel ⟨hD'.mvs m1, hu1, ?_, le_refl _, ?_⟩ ?_ h
    · show s1.ldim < s1.d
      rw [hle.1, m1']; exact hl
    · show s1.dec < s1.n
      rw [hle.2.1, hle.2.2.1]; simp only; omega
    · show targetdim ≤ (s1.d : Int) - s1.dec
      rw [hle.1, hle.2.2.1]; exact ht

theorem fStep_safe {fuel : Nat} {p : FgPar X F} {t : DSt X F} {r : DStep X F} (hS : Safe t)
    (ht : p.targetdim ≤ (t.s.d : Int) - t.s.dec)
    (h : fStep o q fuel p t = some r) : StepSafe r := by
  have hdn := hS.dims.dn
  have hdec := hS.dims.dec
  unfold fStep at h
  simp only at h
  have hc : (t.s.ub || !decide (t.s.ldim < t.s.d ∧ t.s.d - t.s.ldim - 1 < t.s.n)) = false := by
    have := hS.ldim
    simp [hS.ub, this]; omega
  rw [hc] at h
  set s1 : Fg X F := { t.s with nblov := t.s.nblov + 1, ub := false } with hs1
  have m1 : Mvs o q 0 t.s s1 := by
    have : s1 = { { t.s with ldim := t.s.ldim, nblov := t.s.nblov + 1 } with ub := t.s.ub || false } := by
      rw [hs1, hS.ub]; rfl
    rw [this]
    exact (Relation.ReflTransGen.single (Mv.ctr t.s t.s.ldim (t.s.nblov + 1))).trans
      (Relation.ReflTransGen.single (Mv.chk _ _))
  have hD1 : Dims s1 := hS.dims.mvs m1
  generalize hb : (if t.s.trY = true then _ else _ : Bool) = b at h
  have h2 : Mvs o q 0 t.s (if b = true then gapDo t.maxh s1 else s1) ∧
      (if b = true then gapDo t.maxh s1 else s1).ub = false := by
    split
    · exact ⟨m1.trans (gapDo_mvs 0 _ _ (Nat.zero_le _)), gapDo_safe hD1 hS.lo hS.hi rfl⟩
    · exact ⟨m1, rfl⟩
  set s2 := (if b = true then gapDo t.maxh s1 else s1) with hs2
  obtain ⟨m2, hu2⟩ := h2
  have hl := m2.le
  split at h
  · simp only [Option.some.injEq] at h
    subst h
    exact hu2
  · rename_i htd
    have hc3 : (s2.ub || !(decide (s2.dec < s2.d ∧ s2.dec < s2.n ∧ s2.ldim < s2.d) &&
        (!s2.trU || decide (2 ≤ s2.n)))) = false := by
      rw [hu2, hl.1, hl.2.1, hl.2.2.1]
      simp
      refine ⟨by omega, fun _ => by omega⟩
    rw [hc3] at h
    split at h
    · simp only [Option.some.injEq] at h
      subst h
      rfl
    · split at h
      · simp at h
      · rename_i s' maxh' he
        simp only [Option.some.injEq] at h
        subst h
        have hD3 : Dims { s2 with ub := false } := by
          have := hS.dims.mvs m2
          exact ⟨this.d0, this.dn, this.dec, this.y⟩
        refine finish_safe (targetdim := p.targetdim) hD3 (fun hh => ?_) (by simp only; omega)
          (by simp only; rw [hl.1, hl.2.2.1]; exact ht) rfl he _ _ _ _
        exact ⟨leftPos_ge _ _ _ _, leftPos_lt _ _ _ _ hh⟩

theorem fLoop_safe {fuel : Nat} {p : FgPar X F} (k : Nat) :
    ∀ {t : DSt X F} {c : Int} {s' : Fg X F}, Safe t → p.targetdim ≤ (t.s.d : Int) - t.s.dec →
    fLoop o q fuel p k t = some (c, s') → s'.ub = false := by
  induction k with
  | zero => intro t c s' _ _ h; simp [fLoop] at h
  | succ k ih =>
    intro t c s' hS ht h
    unfold fLoop at h
    split at h
    · simp at h
    · rename_i c' s1 h1
      simp only [Option.some.injEq, Prod.mk.injEq] at h
      obtain ⟨-, rfl⟩ := h
      exact fStep_safe hS ht h1
    · rename_i t1 h1
      have h2 := fStep_safe hS ht h1
      have hl := (fStep_ok (lo := 0) (Or.inl rfl) (Nat.zero_le _) h1).1.le
      exact ih h2 (by rw [hl.1, hl.2.2.1]; exact ht) h

/-- `Fgas::decomp` uses no index outside an array. -/
theorem fDecomp_safe {fuel : Nat} {p : FgPar X F} {s s' : Fg X F} {c : Int} (hD : Dims s)
    (hu : s.ub = false) (hl : s.ldim < s.d) (ht : p.targetdim ≤ (s.d : Int) - s.dec)
    (h : fDecomp o q fuel p s = some (c, s')) : s'.ub = false := by
  unfold fDecomp at h
  simp only at h
  have hdn := hD.dn
  have hdec := hD.dec
  have hc : (s.ub || !decide (0 < s.d ∧ s.dec < s.d ∧ s.d ≤ s.n)) = false := by
    simp [hu, hD.d0, hD.dec]; omega
  rw [hc] at h
  have hD' : Dims { s with ub := false } := ⟨hD.d0, hD.dn, hD.dec, hD.y⟩
  split at h
  · simp at h
  · rename_i s1 h1
    obtain ⟨m1, m1'⟩ := hsizeRange_mvs (o := o) (q := q) 0 fuel _ _ _ _ h1
    have hu1 := hsizeRange_safe _ hD' (by simp) rfl h1
    have hle := m1.le
    split at h
    · simp only [Option.some.injEq, Prod.mk.injEq] at h
      rw [← h.2]; exact hu1
    · refine fLoop_safe fuel ⟨hD'.mvs m1, hu1, ?_, le_refl _, ?_⟩ ?_ h
      · show s1.ldim < s1.d
        rw [hle.1, m1']; exact hl
      · show s1.dec < s1.n
        rw [hle.2.1, hle.2.2.1]; simp only; omega
      · show p.targetdim ≤ (s1.d : Int) - s1.dec
        rw [hle.1, hle.2.2.1]; exact ht

end Dec
end HPLLL
