import Verif.Model.Decomp
import Verif.Proof.IntOps
import Mathlib.Logic.Relation
import Mathlib.LinearAlgebra.Matrix.Block
/-! FGAS decompositions: the elementary moves, and the transformation matrices. -/

namespace HPLLL
open Spec Matrix

namespace Dec

variable {X F : Type} (o : FPOps F) (q : XOps X F)

/-- Elementary changes of the object.  Columns below `lo` are not exchanged. -/
inductive Mv (lo : Nat) : Fg X F → Fg X F → Prop
  | fp (s : Fg X F) (p : FPart F) : Mv lo s { s with fp := p }
  | comb (s : Fg X F) (κ i : Nat) (x : F) (h : i < κ) : Mv lo s (s.combine o q κ i x)
  | swap (s : Fg X F) (a b : Nat) (ha : lo ≤ a) (hb : lo ≤ b) : Mv lo s (s.swap a b)
  | ctr (s : Fg X F) (l k : Nat) : Mv lo s { s with ldim := l, nblov := k }
  | chk (s : Fg X F) (b : Bool) : Mv lo s { s with ub := s.ub || b }

/-- Several elementary changes. -/
abbrev Mvs (lo : Nat) : Fg X F → Fg X F → Prop := Relation.ReflTransGen (Mv o q lo)

variable {o q}

theorem Mv.le {lo : Nat} {s s' : Fg X F} (h : Mv o q lo s s') :
    s'.d = s.d ∧ s'.n = s.n ∧ s'.dec = s.dec ∧ s'.transf = s.transf ∧ s'.trU = s.trU ∧
      s'.trW = s.trW ∧ s'.trY = s.trY ∧ (s'.ub = false → s.ub = false) := by
  cases h with
  | fp p => simp
  | comb κ i x h =>
    unfold Fg.combine
    simp only
    split
    · simp +contextual
    · split <;> simp +contextual
  | swap a b ha hb => simp +contextual [Fg.swap]
  | ctr l k => simp
  | chk b => simp +contextual

theorem Mvs.le {lo : Nat} {s s' : Fg X F} (h : Mvs o q lo s s') :
    s'.d = s.d ∧ s'.n = s.n ∧ s'.dec = s.dec ∧ s'.transf = s.transf ∧ s'.trU = s.trU ∧
      s'.trW = s.trW ∧ s'.trY = s.trY ∧ (s'.ub = false → s.ub = false) := by
  induction h with
  | refl => exact ⟨rfl, rfl, rfl, rfl, rfl, rfl, rfl, id⟩
  | tail _ b ih =>
    obtain ⟨a1, a2, a3, a4, a5, a6, a7, a8⟩ := ih
    obtain ⟨b1, b2, b3, b4, b5, b6, b7, b8⟩ := b.le
    exact ⟨b1.trans a1, b2.trans a2, b3.trans a3, b4.trans a4, b5.trans a5, b6.trans a6,
      b7.trans a7, fun h => a8 (b8 h)⟩

/-! ## Every function is made of elementary moves -/

theorem hh_mvs (lo κ : Nat) (s : Fg X F) : Mvs o q lo s (s.hh o q κ) :=
  (Relation.ReflTransGen.single (Mv.fp s (fgHhCol o q s.d s.ldim s.M κ s.fp))).trans
    (Relation.ReflTransGen.single (Mv.chk _ _))

theorem sizePass_mvs (lo κ : Nat) (m : Nat) (hm : m ≤ κ) : ∀ (t : Fg X F × Bool),
    Mvs o q lo t.1 (Fg.sizePass o q κ m t).1 ∧ (Fg.sizePass o q κ m t).1.ldim = t.1.ldim := by
  induction m with
  | zero => intro t; exact ⟨.refl, rfl⟩
  | succ m ih =>
    intro t
    obtain ⟨h1, h2⟩ := ih (by omega) (Fg.sizeStep o q κ m t)
    have h : Mvs o q lo t.1 (Fg.sizeStep o q κ m t).1 ∧
        (Fg.sizeStep o q κ m t).1.ldim = t.1.ldim := by
      unfold Fg.sizeStep
      simp only
      split
      · exact ⟨.refl, rfl⟩
      · refine ⟨Relation.ReflTransGen.single (Mv.comb _ _ _ _ (by omega)), ?_⟩
        unfold Fg.combine
        simp only
        split
        · rfl
        · split <;> rfl
    exact ⟨h.1.trans h1, h2.trans h.2⟩

theorem sizeLoop_mvs (lo κ fuel : Nat) : ∀ (s s' : Fg X F), Fg.sizeLoop o q κ fuel s = some s' →
    Mvs o q lo s s' ∧ s'.ldim = s.ldim := by
  induction fuel with
  | zero => intro s s' h; simp [Fg.sizeLoop] at h
  | succ fuel ih =>
    intro s s' h
    unfold Fg.sizeLoop at h
    simp only at h
    obtain ⟨h1, h1'⟩ := sizePass_mvs (o := o) (q := q) lo κ (min κ (s.d - s.ldim)) (by omega) (s, false)
    split at h
    · split at h
      · obtain ⟨h2, h2'⟩ := ih _ _ h
        exact ⟨(h1.trans (hh_mvs lo κ _)).trans h2, h2'.trans h1'⟩
      · simp only [Option.some.injEq] at h
        subst h
        exact ⟨h1.trans (hh_mvs lo κ _), h1'⟩
    · simp only [Option.some.injEq] at h
      subst h
      exact ⟨h1, h1'⟩

theorem hsizereduce_mvs (lo κ fuel : Nat) (s s' : Fg X F)
    (h : s.hsizereduce o q fuel κ = some s') : Mvs o q lo s s' ∧ s'.ldim = s.ldim := by
  obtain ⟨h1, h2⟩ := sizeLoop_mvs (o := o) (q := q) lo κ fuel _ _ h
  exact ⟨(hh_mvs lo κ s).trans h1, h2⟩

theorem hsizeRange_mvs (lo fuel : Nat) : ∀ (len a : Nat) (s s' : Fg X F),
    Fg.hsizeRange o q fuel a len s = some s' → Mvs o q lo s s' ∧ s'.ldim = s.ldim := by
  intro len
  induction len with
  | zero => intro a s s' h; simp only [Fg.hsizeRange, Option.some.injEq] at h; subst h; exact ⟨.refl, rfl⟩
  | succ len ih =>
    intro a s s' h
    unfold Fg.hsizeRange at h
    split at h
    · simp at h
    · rename_i s1 h1
      obtain ⟨a1, a2⟩ := hsizereduce_mvs (o := o) (q := q) lo a fuel _ _ h1
      obtain ⟨b1, b2⟩ := ih _ _ _ h
      exact ⟨a1.trans b1, b2.trans a2⟩

theorem gapDo_mvs (lo maxh : Nat) (s : Fg X F) (h : lo ≤ maxh) : Mvs o q lo s (gapDo maxh s) := by
  unfold gapDo
  simp only
  split
  · rename_i h'
    exact (Relation.ReflTransGen.single (Mv.swap s _ _ h (by omega))).trans
      (Relation.ReflTransGen.single (Mv.ctr _ _ _))
  · exact Relation.ReflTransGen.single (Mv.ctr _ _ _)

theorem leftPos_ge (g : Nat → F) (R : Mat F) (dec hi : Nat) :
    dec ≤ (leftPos o g R dec hi).1 := by
  unfold leftPos
  have : ∀ (l : List Nat) (t : Nat × F), (∀ j ∈ l, dec ≤ j) → dec ≤ t.1 →
      dec ≤ (l.foldl (fun t j => if o.lt t.2 (o.abs (o.mul (g j) (R j j))) then
        (j, o.abs (o.mul (g j) (R j j))) else t) t).1 := by
    intro l
    induction l with
    | nil => intro t _ h; exact h
    | cons j l ih =>
      intro t h1 h2
      rw [List.foldl_cons]
      refine ih _ (fun k hk => h1 k (List.mem_cons_of_mem _ hk)) ?_
      split
      · exact h1 j List.mem_cons_self
      · exact h2
  refine this _ _ ?_ (le_refl _)
  intro j hj
  rw [List.mem_range'_1] at hj
  omega

theorem leftPos_lt (g : Nat → F) (R : Mat F) (dec hi : Nat) (h : dec < hi) :
    (leftPos o g R dec hi).1 < hi := by
  unfold leftPos
  have : ∀ (l : List Nat) (t : Nat × F), (∀ j ∈ l, j < hi) → t.1 < hi →
      (l.foldl (fun t j => if o.lt t.2 (o.abs (o.mul (g j) (R j j))) then
        (j, o.abs (o.mul (g j) (R j j))) else t) t).1 < hi := by
    intro l
    induction l with
    | nil => intro t _ h; exact h
    | cons j l ih =>
      intro t h1 h2
      rw [List.foldl_cons]
      refine ih _ (fun k hk => h1 k (List.mem_cons_of_mem _ hk)) ?_
      split
      · exact h1 j List.mem_cons_self
      · exact h2
  refine this _ _ ?_ h
  intro j hj
  rw [List.mem_range'_1] at hj
  omega

theorem rightPos_range (R : Mat F) (r a b : Nat) :
    a ≤ (rightPos o R r a b).1 ∧ (a < b → (rightPos o R r a b).1 < b) := by
  unfold rightPos
  have : ∀ (l : List Nat) (t : Nat × F), (∀ j ∈ l, a ≤ j ∧ j < b) → a ≤ t.1 ∧ (a < b → t.1 < b) →
      a ≤ (l.foldl (fun t j => if o.lt t.2 (o.abs (R j r)) then (j, o.abs (R j r)) else t) t).1 ∧
      (a < b → (l.foldl (fun t j => if o.lt t.2 (o.abs (R j r)) then (j, o.abs (R j r)) else t) t).1 < b)
      := by
    intro l
    induction l with
    | nil => intro t _ h; exact h
    | cons j l ih =>
      intro t h1 h2
      rw [List.foldl_cons]
      refine ih _ (fun k hk => h1 k (List.mem_cons_of_mem _ hk)) ?_
      split
      · have := h1 j List.mem_cons_self
        exact ⟨this.1, fun _ => this.2⟩
      · exact h2
  refine this _ _ ?_ ⟨le_refl _, id⟩
  intro j hj
  rw [List.mem_range'_1] at hj
  omega

theorem exchange_mvs (lo fuel maxh : Nat) (s s' : Fg X F) (maxh' : Nat) (h : lo ≤ maxh)
    (hlo : lo ≤ s.d - s.ldim - 1)
    (he : exchange o q fuel maxh s = some (s', maxh')) :
    Mvs o q lo s s' ∧ s'.ldim = s.ldim ∧ lo ≤ maxh' := by
  unfold exchange at he
  simp only at he
  split at he
  · split at he
    · simp at he
    · rename_i s1 h1
      simp only [Option.some.injEq, Prod.mk.injEq] at he
      obtain ⟨rfl, rfl⟩ := he
      obtain ⟨a1, a2⟩ := hsizeRange_mvs (o := o) (q := q) lo fuel _ _ _ _ h1
      exact ⟨(Relation.ReflTransGen.single (Mv.swap s _ _ h (by omega))).trans a1, a2, h⟩
  · split at he
    · simp at he
    · rename_i s1 h1
      obtain ⟨a1, a2⟩ := hsizeRange_mvs (o := o) (q := q) lo fuel _ _ _ _ h1
      split at he
      · simp at he
      · rename_i s2 h2
        simp only [Option.some.injEq, Prod.mk.injEq] at he
        obtain ⟨rfl, rfl⟩ := he
        obtain ⟨b1, b2⟩ := hsizereduce_mvs (o := o) (q := q) lo _ fuel _ _ h2
        have hr := rightPos_range (o := o) s1.fp.R (s.d - s.ldim - 1) (s.d - s.ldim) (s1.n - s1.ldim)
        refine ⟨?_, b2.trans a2, by omega⟩
        refine Relation.ReflTransGen.trans ?_ b1
        refine Relation.ReflTransGen.trans ?_ (Relation.ReflTransGen.single
          (Mv.swap _ _ _ hlo (by omega)))
        exact a1.trans (Relation.ReflTransGen.single (Mv.chk _ _))

/-- What a step guarantees. -/
def StepOK (o : FPOps F) (q : XOps X F) (lo : Nat) (s : Fg X F) : DStep X F → Prop
  | .ret _ s' => Mvs o q lo s s'
  | .next t' => Mvs o q lo s t'.s ∧ lo ≤ t'.maxh

/-- Condition under which columns below `lo` are never exchanged. -/
def LoOK (lo d dec : Nat) (targetdim : Int) : Prop :=
  lo = 0 ∨ lo ≤ dec ∧ targetdim ≤ (d : Int) - dec

theorem zStep_ok {F : Type} {o : FPOps F} {lo fuel : Nat} {gamma gap : F} {targetdim : Int}
    {t : DSt Int F} {r : DStep Int F} (hlo : LoOK lo t.s.d t.s.dec targetdim) (hmax : lo ≤ t.maxh)
    (h : zStep o fuel gamma gap targetdim t = some r) : StepOK o (zX o) lo t.s r := by
  unfold zStep at h
  simp only at h
  set s1 : Fg Int F := { t.s with nblov := t.s.nblov + 1, ub := t.s.ub || !decide (t.s.ldim < t.s.d ∧ t.s.d - t.s.ldim - 1 < t.s.n) } with hs1
  have m1 : Mvs o (zX o) lo t.s s1 :=
    (Relation.ReflTransGen.single (Mv.ctr t.s t.s.ldim (t.s.nblov + 1))).trans
      (Relation.ReflTransGen.single (Mv.chk _ _))
  set b := o.lt (o.abs (o.div (t.s.fp.R (t.s.d - t.s.ldim - 1) (t.s.d - t.s.ldim - 1)) t.diagold)) gap
  have m2 : Mvs o (zX o) lo t.s (if b = true then gapDo t.maxh s1 else s1) := by
    split
    · exact m1.trans (gapDo_mvs lo _ _ hmax)
    · exact m1
  set s2 := (if b = true then gapDo t.maxh s1 else s1) with hs2
  split at h
  · simp only [Option.some.injEq] at h
    subst h
    exact m2
  · rename_i htd
    set s3 : Fg Int F := { s2 with ub := s2.ub || !decide (s2.dec < s2.d ∧ s2.dec < s2.n ∧ s2.ldim < s2.d) } with hs3
    have m3 : Mvs o (zX o) lo t.s s3 := m2.trans (Relation.ReflTransGen.single (Mv.chk _ _))
    split at h
    · simp only [Option.some.injEq] at h
      subst h
      exact m3
    · split at h
      · simp at h
      · rename_i s' maxh' he
        simp only [Option.some.injEq] at h
        subst h
        have hl := m2.le
        have hlt := m2.le.2.2.1
        have hmaxh := leftPos_ge (o := o) (gpow o gamma) s2.fp.R s2.dec (s2.d - s2.ldim)
        rcases Nat.eq_zero_or_pos lo with h0 | h0
        · subst h0
          obtain ⟨e1, -, e3⟩ := exchange_mvs 0 fuel _ s3 s' maxh' (Nat.zero_le _) (Nat.zero_le _) he
          exact ⟨m3.trans e1, e3⟩
        · rcases hlo with hlo | ⟨hlo1, hlo2⟩
          · omega
          · obtain ⟨e1, -, e3⟩ := exchange_mvs lo fuel _ s3 s' maxh'
              (by show lo ≤ (leftPos o (gpow o gamma) s2.fp.R s2.dec (s2.d - s2.ldim)).1; omega)
              (by show lo ≤ s2.d - s2.ldim - 1; rw [hl.1]; omega) he
            exact ⟨m3.trans e1, e3⟩

theorem zLoop_mvs {F : Type} {o : FPOps F} {lo fuel : Nat} {gamma gap : F} {targetdim : Int} (k : Nat) :
    ∀ {t : DSt Int F} {c : Int} {s' : Fg Int F}, LoOK lo t.s.d t.s.dec targetdim → lo ≤ t.maxh →
    zLoop o fuel gamma gap targetdim k t = some (c, s') → Mvs o (zX o) lo t.s s' := by
  induction k with
  | zero => intro t c s' _ _ h; simp [zLoop] at h
  | succ k ih =>
    intro t c s' hlo hmax h
    unfold zLoop at h
    split at h
    · simp at h
    · rename_i c' s1 h1
      simp only [Option.some.injEq, Prod.mk.injEq] at h
      obtain ⟨-, rfl⟩ := h
      exact zStep_ok hlo hmax h1
    · rename_i t1 h1
      obtain ⟨a1, a2⟩ := zStep_ok hlo hmax h1
      have hl := a1.le
      exact a1.trans (ih (by rw [hl.1, hl.2.2.1]; exact hlo) a2 h)

/-- `ZFgas::decomp` is made of elementary moves. -/
theorem zDecomp_mvs {F : Type} {o : FPOps F} {lo fuel : Nat} {junk gamma gap : F} {targetdim : Int}
    {s s' : Fg Int F} {c : Int} (hlo : LoOK lo s.d s.dec targetdim)
    (h : zDecomp o junk fuel gamma gap targetdim s = some (c, s')) : Mvs o (zX o) lo s s' := by
  unfold zDecomp at h
  simp only at h
  split at h
  · simp at h
  · rename_i s1 h1
    obtain ⟨a1, -⟩ := hsizeRange_mvs (o := o) (q := zX o) lo fuel _ _ _ _ h1
    have hl := a1.le
    refine Relation.ReflTransGen.trans ?_ (zLoop_mvs fuel ?_ ?_ h)
    · exact Relation.ReflTransGen.trans (Relation.ReflTransGen.single (Mv.chk s _)) a1
    · show LoOK lo s1.d s1.dec targetdim
      rw [hl.1, hl.2.2.1]; exact hlo
    · show lo ≤ s1.dec
      rw [hl.2.2.1]
      rcases hlo with h | h
      · omega
      · exact h.1

theorem fStep_ok {lo fuel : Nat} {p : FgPar X F}
    {t : DSt X F} {r : DStep X F} (hlo : LoOK lo t.s.d t.s.dec p.targetdim) (hmax : lo ≤ t.maxh)
    (h : fStep o q fuel p t = some r) : StepOK o q lo t.s r := by
  unfold fStep at h
  simp only at h
  set s1 : Fg X F := { t.s with nblov := t.s.nblov + 1, ub := t.s.ub || !decide (t.s.ldim < t.s.d ∧ t.s.d - t.s.ldim - 1 < t.s.n) } with hs1
  have m1 : Mvs o q lo t.s s1 :=
    (Relation.ReflTransGen.single (Mv.ctr t.s t.s.ldim (t.s.nblov + 1))).trans
      (Relation.ReflTransGen.single (Mv.chk _ _))
  generalize hb : (if t.s.trY = true then _ else _ : Bool) = b at h
  have m2 : Mvs o q lo t.s (if b = true then gapDo t.maxh s1 else s1) := by
    split
    · exact m1.trans (gapDo_mvs lo _ _ hmax)
    · exact m1
  set s2 := (if b = true then gapDo t.maxh s1 else s1) with hs2
  split at h
  · simp only [Option.some.injEq] at h
    subst h
    exact m2
  · rename_i htd
    generalize hc : (s2.ub || _ : Bool) = c at h
    set s3 : Fg X F := { s2 with ub := c } with hs3
    have m3 : Mvs o q lo t.s s3 := by
      rw [hs3, ← hc]; exact m2.trans (Relation.ReflTransGen.single (Mv.chk _ _))
    split at h
    · simp only [Option.some.injEq] at h
      subst h
      exact m3
    · split at h
      · simp at h
      · rename_i s' maxh' he
        simp only [Option.some.injEq] at h
        subst h
        have hl := m2.le
        have hmaxh := leftPos_ge (o := o) (gpow o p.gamma) s2.fp.R s2.dec (s2.d - s2.ldim)
        rcases hlo with h0 | ⟨hlo1, hlo2⟩
        · subst h0
          obtain ⟨e1, -, e3⟩ := exchange_mvs 0 fuel _ s3 s' maxh' (Nat.zero_le _) (Nat.zero_le _) he
          exact ⟨m3.trans e1, e3⟩
        · obtain ⟨e1, -, e3⟩ := exchange_mvs lo fuel _ s3 s' maxh'
            (by show lo ≤ (leftPos o (gpow o p.gamma) s2.fp.R s2.dec (s2.d - s2.ldim)).1; omega)
            (by show lo ≤ s2.d - s2.ldim - 1; rw [hl.1]; omega) he
          exact ⟨m3.trans e1, e3⟩

theorem fLoop_mvs {lo fuel : Nat} {p : FgPar X F} (k : Nat) :
    ∀ {t : DSt X F} {c : Int} {s' : Fg X F}, LoOK lo t.s.d t.s.dec p.targetdim → lo ≤ t.maxh →
    fLoop o q fuel p k t = some (c, s') → Mvs o q lo t.s s' := by
  induction k with
  | zero => intro t c s' _ _ h; simp [fLoop] at h
  | succ k ih =>
    intro t c s' hlo hmax h
    unfold fLoop at h
    split at h
    · simp at h
    · rename_i c' s1 h1
      simp only [Option.some.injEq, Prod.mk.injEq] at h
      obtain ⟨-, rfl⟩ := h
      exact fStep_ok hlo hmax h1
    · rename_i t1 h1
      obtain ⟨a1, a2⟩ := fStep_ok hlo hmax h1
      have hl := a1.le
      exact a1.trans (ih (by rw [hl.1, hl.2.2.1]; exact hlo) a2 h)

/-- `Fgas::decomp` is made of elementary moves. -/
theorem fDecomp_mvs {lo fuel : Nat} {p : FgPar X F} {s s' : Fg X F} {c : Int}
    (hlo : LoOK lo s.d s.dec p.targetdim)
    (h : fDecomp o q fuel p s = some (c, s')) : Mvs o q lo s s' := by
  unfold fDecomp at h
  simp only at h
  split at h
  · simp at h
  · rename_i s1 h1
    obtain ⟨a1, -⟩ := hsizeRange_mvs (o := o) (q := q) lo fuel _ _ _ _ h1
    have hl := a1.le
    have m1 : Mvs o q lo s s1 :=
      Relation.ReflTransGen.trans (Relation.ReflTransGen.single (Mv.chk s _)) a1
    split at h
    · simp only [Option.some.injEq, Prod.mk.injEq] at h
      rw [← h.2]; exact m1
    · refine Relation.ReflTransGen.trans m1 (fLoop_mvs fuel ?_ ?_ h)
      · show LoOK lo s1.d s1.dec p.targetdim
        rw [hl.1, hl.2.2.1]; exact hlo
      · show lo ≤ s1.dec
        rw [hl.2.2.1]
        rcases hlo with h | h
        · omega
        · exact h.1

end Dec
end HPLLL
