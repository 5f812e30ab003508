import Verif.Model.Mach
import Verif.Proof.IntOps
/-! Simulation of the machine run by the model on unbounded integers. -/

namespace HPLLL

variable {F : Type} (o : FPOps F)

/-- The operations that see the integers through `f`. -/
def FPOps.via (f : Int → Int) : FPOps F := { o with ofZ := fun z => o.ofZ (f z) }

/-- `f` applied to all the integer entries. -/
def Lat.fmap (f : Int → Int) (s : Lat F) : Lat F :=
  { s with B := fun j i => f (s.B j i), U := fun j i => f (s.U j i) }

/-- Condition on `f`: a defined machine update is `f` of the exact one. -/
def EntOK (c : EntF F) (f : Int → Int) : Prop :=
  ∀ (fl : Bool) (x xz : F) (a b : Int), (c fl x xz (f a) (f b)).2 = true →
    (c fl x xz (f a) (f b)).1 = f (a + multOf o fl x xz * b)

variable {o} {c : EntF F} {f : Int → Int}

theorem mred_ok (hf : EntOK o c f) (fl : Bool) (κ i ibeg nloc : Nat) (x xz : F)
    (M : Mat Int) (h : (mred c fl κ i ibeg nloc x xz (fun j r => f (M j r))).2 = true) :
    (mred c fl κ i ibeg nloc x xz (fun j r => f (M j r))).1 = fun j r => f
      (setCol M κ (fun r => if ibeg ≤ r ∧ r < nloc + ibeg then M κ r + multOf o fl x xz * M i r
        else M κ r) j r) := by
  simp only [mred, List.all_eq_true, List.mem_range'_1] at h ⊢
  funext j r
  unfold setCol
  split
  · dsimp only
    split
    · rename_i hr
      exact hf fl x xz _ _ (h r ⟨hr.1, by omega⟩)
    · rfl
  · rfl

theorem mred_red (hf : EntOK o c f) (fl : Bool) (κ i l : Nat) (x xz : F)
    (M : Mat Int) (h : (mred c fl κ i 0 l x xz (fun j r => f (M j r))).2 = true) :
    (mred c fl κ i 0 l x xz (fun j r => f (M j r))).1 = fun j r => f (redZ o fl κ i l x xz M j r) := by
  rw [mred_ok hf _ _ _ _ _ _ _ _ h, redZ_eq]
  unfold axpy
  funext j r
  unfold setCol
  simp

theorem hhR_fmap (κ : Nat) (s : Lat F) : (s.fmap f).hhR o κ = (s.hhR (o.via f) κ).fmap f := rfl

theorem hhV_fmap (κ : Nat) (s : Lat F) : (s.fmap f).hhV o κ = (s.hhV (o.via f) κ).fmap f := rfl

/-! ### size reduction -/

theorem mSizeUpdateStep_ub (κ i : Nat) (q : Lat F × Bool) (h : (mSizeUpdateStep o c κ i q).1.ub = false) :
    q.1.ub = false := by
  unfold mSizeUpdateStep at h
  simp only [] at h
  split at h
  · exact h
  · simp only [Bool.or_eq_false_iff] at h
    exact h.1.1

theorem mSizeUpdateLoop_ub (κ m : Nat) (q : Lat F × Bool) (h : (mSizeUpdateLoop o c κ m q).1.ub = false) :
    q.1.ub = false := by
  induction m generalizing q with
  | zero => exact h
  | succ m ih => exact mSizeUpdateStep_ub κ m q (ih _ h)

theorem mSizeUpdateStep_sim (hf : EntOK o c f) (κ i : Nat) (s : Lat F) (b : Bool)
    (h : (mSizeUpdateStep o c κ i (s.fmap f, b)).1.ub = false) :
    mSizeUpdateStep o c κ i (s.fmap f, b) =
      ((sizeUpdateStep (o.via f) κ i (s, b)).1.fmap f, (sizeUpdateStep (o.via f) κ i (s, b)).2) := by
  unfold mSizeUpdateStep sizeUpdateStep at *
  simp only [] at h ⊢
  by_cases hz : o.isZero (o.rnd (o.div (s.fp.R κ i) (s.fp.R i i))) = true
  · have e : (s.fmap f).fp = s.fp := rfl
    have e2 : (o.via f).isZero ((o.via f).rnd ((o.via f).div (s.fp.R κ i) (s.fp.R i i))) = true := hz
    rw [e, if_pos hz, if_pos e2]
    rfl
  · have e : (s.fmap f).fp = s.fp := rfl
    have e2 : ¬ (o.via f).isZero ((o.via f).rnd ((o.via f).div (s.fp.R κ i) (s.fp.R i i))) = true := hz
    rw [e, if_neg hz] at h
    rw [e, if_neg hz, if_neg e2]
    simp only [Bool.or_eq_false_iff, Bool.not_eq_false', Bool.and_eq_true] at h
    obtain ⟨⟨h0, h1⟩, h2, h3⟩ := h
    have hB := mred_red hf s.fastLong κ i (nmaxOf s.str i) _ _ s.B h2
    simp only [Prod.mk.injEq, and_true]
    have hU : (if s.transf = true then mred c s.fastLong κ i 0 (min s.d (nmaxOf s.str i))
        (o.rnd (o.div (s.fp.R κ i) (s.fp.R i i))) (o.rnd (o.div (s.fp.R κ i) (s.fp.R i i)))
        (fun j r => f (s.U j r)) else ((fun j r => f (s.U j r)), true)).1 =
        fun j r => f ((if s.transf = true then redZ o s.fastLong κ i (min s.d (nmaxOf s.str i))
          (o.rnd (o.div (s.fp.R κ i) (s.fp.R i i))) (o.rnd (o.div (s.fp.R κ i) (s.fp.R i i))) s.U
          else s.U) j r) := by
      by_cases ht : s.transf = true
      · simp only [Lat.fmap, ht, if_true] at h3 ⊢
        exact mred_red hf s.fastLong κ i _ _ _ s.U h3
      · simp only [ht]; rfl
    unfold Lat.fmap at *
    simp only [] at *
    rw [hB, hU]
    simp only [Lat.mk.injEq, true_and]
    simp only [h2, h3, Bool.and_self, Bool.not_true, Bool.or_false]
    exact ⟨rfl, rfl, rfl, trivial⟩

theorem mSizeUpdateLoop_sim (hf : EntOK o c f) (κ m : Nat) (s : Lat F) (b : Bool)
    (h : (mSizeUpdateLoop o c κ m (s.fmap f, b)).1.ub = false) :
    mSizeUpdateLoop o c κ m (s.fmap f, b) =
      ((sizeUpdateLoop (o.via f) κ m (s, b)).1.fmap f, (sizeUpdateLoop (o.via f) κ m (s, b)).2) := by
  induction m generalizing s b with
  | zero => rfl
  | succ m ih =>
    simp only [mSizeUpdateLoop, sizeUpdateLoop] at h ⊢
    have h0 := mSizeUpdateLoop_ub κ m _ h
    rw [mSizeUpdateStep_sim hf κ m s b h0] at h ⊢
    exact ih _ _ h

theorem mPsizeThread_ub (fl : Bool) (κ : Nat) (vx : Nat → F) (ibeg nloc m : Nat) (q : Mat Int × Bool)
    (h : (mPsizeThread o c fl κ vx ibeg nloc m q).2 = true) : q.2 = true := by
  induction m generalizing q with
  | zero => exact h
  | succ m ih =>
    simp only [mPsizeThread] at h
    have h1 := ih _ h
    split at h1
    · exact h1
    · simp only [Bool.and_eq_true] at h1; exact h1.1

theorem mPsizeThread_sim (hf : EntOK o c f) (fl : Bool) (κ : Nat) (vx : Nat → F) (ibeg nloc m : Nat)
    (M : Mat Int) (b : Bool)
    (h : (mPsizeThread o c fl κ vx ibeg nloc m ((fun j r => f (M j r)), b)).2 = true) :
    mPsizeThread o c fl κ vx ibeg nloc m ((fun j r => f (M j r)), b) =
      ((fun j r => f (psizeThread o fl κ vx ibeg nloc m M j r)), true) := by
  induction m generalizing M b with
  | zero => simp only [mPsizeThread] at h ⊢; rw [h]; rfl
  | succ m ih =>
    simp only [mPsizeThread, psizeThread] at h ⊢
    have h1 := mPsizeThread_ub _ _ _ _ _ _ _ h
    by_cases hz : o.isZero (vx m) = true
    · rw [if_pos hz] at h ⊢
      rw [show predZ o fl κ m ibeg nloc (vx m) M = M by unfold predZ; rw [if_pos hz]]
      exact ih _ _ h
    · rw [if_neg hz] at h h1 ⊢
      simp only [Bool.and_eq_true] at h1
      simp only [h1.1, h1.2, Bool.and_self] at h ⊢
      rw [predZ_eq _ _ _ _ _ _ _ _ (by simpa using hz)]
      rw [mred_ok hf _ _ _ _ _ _ _ _ h1.2] at h ⊢
      exact ih _ _ h

theorem mPsizeUpdateB_sim (hf : EntOK o c f) (fl : Bool) (κ m : Nat) (str : Nat → Int) (vx : Nat → F)
    (S : Nat) (M : Mat Int)
    (h : (mPsizeUpdateB o c fl κ m str vx S ((fun j r => f (M j r)), true)).2 = true) :
    mPsizeUpdateB o c fl κ m str vx S ((fun j r => f (M j r)), true) =
      ((fun j r => f (psizeUpdateB o fl κ m str vx S M j r)), true) := by
  unfold mPsizeUpdateB psizeUpdateB at *
  simp only [] at h ⊢
  have hmono : ∀ (l : List Nat) (q : Mat Int × Bool),
      (l.foldl (fun q l => mPsizeThread o c fl κ vx (sliceBeg (psizeNmax str m) S l)
        (sliceLen (psizeNmax str m) S l) m q) q).2 = true → q.2 = true := by
    intro l
    induction l with
    | nil => intro q h; exact h
    | cons a l ih => intro q h; exact mPsizeThread_ub _ _ _ _ _ _ _ (ih _ h)
  generalize List.range S = l at h ⊢
  induction l generalizing M with
  | nil => rfl
  | cons a l ih =>
    simp only [List.foldl_cons] at h ⊢
    have h1 := hmono _ _ h
    rw [mPsizeThread_sim hf _ _ _ _ _ _ _ _ h1] at h ⊢
    exact ih _ h

theorem sizeUpdateRLoop_fmap (κ m : Nat) (s : Lat F) (vx : Nat → F) (b : Bool) :
    sizeUpdateRLoop o κ m (s.fmap f, vx, b) =
      ((sizeUpdateRLoop (o.via f) κ m (s, vx, b)).1.fmap f,
        (sizeUpdateRLoop (o.via f) κ m (s, vx, b)).2) := by
  induction m generalizing s vx b with
  | zero => rfl
  | succ m ih =>
    simp only [sizeUpdateRLoop]
    rw [show sizeUpdateRStep o κ m (s.fmap f, vx, b) =
      ((sizeUpdateRStep (o.via f) κ m (s, vx, b)).1.fmap f,
        (sizeUpdateRStep (o.via f) κ m (s, vx, b)).2) from ?_]
    · exact ih _ _ _
    · unfold sizeUpdateRStep
      simp only []
      by_cases hz : o.isZero (o.rnd (o.div (s.fp.R κ m) (s.fp.R m m))) = true
      · have e : (s.fmap f).fp = s.fp := rfl
        have e2 : (o.via f).isZero ((o.via f).rnd ((o.via f).div (s.fp.R κ m) (s.fp.R m m))) = true := hz
        rw [e, if_pos hz, if_pos e2]
        rfl
      · have e : (s.fmap f).fp = s.fp := rfl
        have e2 : ¬ (o.via f).isZero ((o.via f).rnd ((o.via f).div (s.fp.R κ m) (s.fp.R m m))) = true := hz
        rw [e, if_neg hz, if_neg e2]
        rfl

theorem sizeUpdateRLoop_ub (κ m : Nat) (q : Lat F × (Nat → F) × Bool)
    (h : (sizeUpdateRLoop o κ m q).1.ub = false) : q.1.ub = false := by
  induction m generalizing q with
  | zero => exact h
  | succ m ih =>
    have h1 := ih _ h
    unfold sizeUpdateRStep at h1
    simp only [] at h1
    split at h1
    · exact h1
    · simp only [Bool.or_eq_false_iff] at h1; exact h1.1

theorem mHsizePass_ub (κ m : Nat) (s : Lat F) (h : (mHsizePass o c κ m s).1.ub = false) :
    s.ub = false := by
  unfold mHsizePass at h
  split at h
  · exact mSizeUpdateLoop_ub κ m _ h
  · simp only [Bool.or_eq_false_iff] at h
    exact sizeUpdateRLoop_ub κ m _ h.1.1

theorem psizeUpdateB_via (fl : Bool) (κ m : Nat) (str : Nat → Int) (vx : Nat → F) (S : Nat) (M : Mat Int) :
    psizeUpdateB (o.via f) fl κ m str vx S M = psizeUpdateB o fl κ m str vx S M := by
  have : ∀ (ibeg nloc m : Nat) (M : Mat Int), psizeThread (o.via f) fl κ vx ibeg nloc m M =
      psizeThread o fl κ vx ibeg nloc m M := by
    intro ibeg nloc m
    induction m with
    | zero => intro M; rfl
    | succ m ih => intro M; simp only [psizeThread]; rw [ih]; rfl
  unfold psizeUpdateB
  simp only [this]

theorem mHsizePass_sim (hf : EntOK o c f) (κ m : Nat) (s : Lat F)
    (h : (mHsizePass o c κ m (s.fmap f)).1.ub = false) :
    mHsizePass o c κ m (s.fmap f) =
      ((hsizePass (o.via f) κ m s).1.fmap f, (hsizePass (o.via f) κ m s).2) := by
  unfold mHsizePass hsizePass at *
  by_cases hc : s.numS = 1 ∨ (κ : Int) - 1 < s.parThr
  · have e : (s.fmap f).numS = 1 ∨ (κ : Int) - 1 < (s.fmap f).parThr := hc
    rw [if_pos e] at h ⊢
    rw [if_pos hc]
    exact mSizeUpdateLoop_sim hf κ m s false h
  · have e : ¬ ((s.fmap f).numS = 1 ∨ (κ : Int) - 1 < (s.fmap f).parThr) := hc
    rw [if_neg e] at h ⊢
    rw [if_neg hc]
    simp only [] at h ⊢
    rw [sizeUpdateRLoop_fmap] at h ⊢
    have ez : (fun _ => (o.via f).zero : Nat → F) = fun _ => o.zero := rfl
    rw [ez]
    generalize sizeUpdateRLoop (o.via f) κ m (s, fun _ => o.zero, false) = q at h ⊢
    simp only [Bool.or_eq_false_iff, Bool.not_eq_false'] at h
    obtain ⟨⟨h0, h1⟩, h2⟩ := h
    have hB := mPsizeUpdateB_sim hf q.1.fastLong κ m q.1.str q.2.1 q.1.numS q.1.B h2
    unfold Lat.fmap at *
    simp only [] at *
    rw [hB, psizeUpdateB_via]
    simp only [Bool.not_true, Bool.or_false]

theorem mHsizeLoop_ub (κ m fuel : Nat) (p : Bool) (s : Lat F) (st : Int) (t : Lat F)
    (h : mHsizeLoop o c κ m fuel p s = some (st, t)) (ht : t.ub = false) : s.ub = false := by
  induction fuel generalizing p s with
  | zero => simp [mHsizeLoop] at h
  | succ fuel ih =>
    simp only [mHsizeLoop] at h
    refine mHsizePass_ub (o := o) (c := c) κ m s ?_
    have hr : ∀ q : Lat F, (({ q with fp := { q.fp with colKept := setAt q.fp.colKept κ false } } :
        Lat F).hhR o κ).ub = false → q.ub = false := by
      intro q hq
      simp only [Lat.hhR, Bool.or_eq_false_iff] at hq
      exact hq.1
    split at h
    · split at h
      · split at h
        · simp only [Option.some.injEq, Prod.mk.injEq] at h
          rw [← h.2] at ht; exact hr _ ht
        · simp only [Option.some.injEq, Prod.mk.injEq] at h
          rw [← h.2] at ht; exact hr _ ht
      · exact hr _ (ih _ _ h)
    · simp only [Option.some.injEq, Prod.mk.injEq] at h
      rw [← h.2] at ht; exact ht

theorem mHsizeLoop_sim (hf : EntOK o c f) (κ m fuel : Nat) (p : Bool) (s : Lat F) (st : Int) (t : Lat F)
    (h : mHsizeLoop o c κ m fuel p (s.fmap f) = some (st, t)) (ht : t.ub = false) :
    ∃ t', hsizeLoop (o.via f) κ m fuel p s = some (st, t') ∧ t = t'.fmap f := by
  induction fuel generalizing p s with
  | zero => simp [mHsizeLoop] at h
  | succ fuel ih =>
    have hub : (mHsizePass o c κ m (s.fmap f)).1.ub = false := by
      have hr : ∀ q : Lat F, (({ q with fp := { q.fp with colKept := setAt q.fp.colKept κ false } } :
          Lat F).hhR o κ).ub = false → q.ub = false := by
        intro q hq
        simp only [Lat.hhR, Bool.or_eq_false_iff] at hq
        exact hq.1
      simp only [mHsizeLoop] at h
      split at h
      · split at h
        · split at h
          · simp only [Option.some.injEq, Prod.mk.injEq] at h
            rw [← h.2] at ht; exact hr _ ht
          · simp only [Option.some.injEq, Prod.mk.injEq] at h
            rw [← h.2] at ht; exact hr _ ht
        · exact hr _ (mHsizeLoop_ub _ _ _ _ _ _ _ h ht)
      · simp only [Option.some.injEq, Prod.mk.injEq] at h
        rw [← h.2] at ht; exact ht
    have h' := h
    simp only [mHsizeLoop] at h'
    rw [mHsizePass_sim hf κ m s hub] at h'
    simp only [hsizeLoop]
    generalize hsizePass (o.via f) κ m s = q at h' ⊢
    let s1 : Lat F := Lat.hhR (o.via f) κ
      { q.1 with fp := { q.1.fp with colKept := setAt q.1.fp.colKept κ false } }
    let ns : Bool := o.lt (s1.fp.normB2 κ) (o.mul o.tenth (q.1.fp.normB2 κ))
    have h1 : (if q.2 = true then
        if (!p && !ns) = true then
          if sizeAnomaly o κ s1.fp = true then some (-1, s1.fmap f) else some (0, s1.fmap f)
        else mHsizeLoop o c κ m fuel ns (s1.fmap f)
      else some (0, q.1.fmap f)) = some (st, t) := h'
    show ∃ t', (if q.2 = true then
        if (!p && !ns) = true then
          if sizeAnomaly o κ s1.fp = true then some (-1, s1) else some (0, s1)
        else hsizeLoop (o.via f) κ m fuel ns s1
      else some (0, q.1)) = some (st, t') ∧ t = t'.fmap f
    clear_value s1 ns
    by_cases hq : q.2 = true
    · rw [if_pos hq] at h1 ⊢
      by_cases hc : (!p && !ns) = true
      · rw [if_pos hc] at h1 ⊢
        by_cases ha : sizeAnomaly o κ s1.fp = true
        · rw [if_pos ha] at h1 ⊢
          simp only [Option.some.injEq, Prod.mk.injEq] at h1 ⊢
          exact ⟨_, ⟨h1.1, rfl⟩, h1.2.symm⟩
        · rw [if_neg ha] at h1 ⊢
          simp only [Option.some.injEq, Prod.mk.injEq] at h1 ⊢
          exact ⟨_, ⟨h1.1, rfl⟩, h1.2.symm⟩
      · rw [if_neg hc] at h1 ⊢
        exact ih _ _ h1
    · rw [if_neg hq] at h1 ⊢
      simp only [Option.some.injEq, Prod.mk.injEq] at h1 ⊢
      exact ⟨_, ⟨h1.1, rfl⟩, h1.2.symm⟩

/-! ### Seysen reduction -/

theorem mSeysenUpdateStep_ub (κ rd i : Nat) (q : Lat F × (Nat → F) × Bool)
    (h : (mSeysenUpdateStep o c κ rd i q).1.ub = false) : q.1.ub = false := by
  unfold mSeysenUpdateStep at h
  simp only [] at h
  split at h
  · exact h
  · simp only [Bool.or_eq_false_iff] at h
    exact h.1.1

theorem mSeysenUpdateLoop_ub (κ rd m : Nat) (q : Lat F × (Nat → F) × Bool)
    (h : (mSeysenUpdateLoop o c κ rd m q).1.ub = false) : q.1.ub = false := by
  induction m generalizing q with
  | zero => exact h
  | succ m ih => exact mSeysenUpdateStep_ub κ rd _ q (ih _ h)

theorem mSeysenUpdateStep_sim (hf : EntOK o c f) (κ rd i : Nat) (s : Lat F) (q : (Nat → F) × Bool)
    (h : (mSeysenUpdateStep o c κ rd i (s.fmap f, q)).1.ub = false) :
    mSeysenUpdateStep o c κ rd i (s.fmap f, q) =
      ((seysenUpdateStep (o.via f) κ rd i (s, q)).1.fmap f,
        (seysenUpdateStep (o.via f) κ rd i (s, q)).2) := by
  unfold mSeysenUpdateStep seysenUpdateStep at *
  simp only [] at h ⊢
  by_cases hz : o.isZero (o.rnd (q.1 i)) = true
  · have e2 : (o.via f).isZero ((o.via f).rnd (q.1 i)) = true := hz
    rw [if_pos hz, if_pos e2]
    rfl
  · have e2 : ¬ (o.via f).isZero ((o.via f).rnd (q.1 i)) = true := hz
    rw [if_neg hz] at h
    rw [if_neg hz, if_neg e2]
    simp only [Bool.or_eq_false_iff, Bool.not_eq_false', Bool.and_eq_true] at h
    obtain ⟨⟨h0, h1⟩, h2, h3⟩ := h
    have hB := mred_red hf s.fastLong κ i (nmaxOf s.str i) _ _ s.B h2
    simp only [Prod.mk.injEq, and_true]
    have hU : (if s.transf = true then mred c s.fastLong κ i 0 (min s.d (nmaxOf s.str i))
        (o.rnd (q.1 i)) s.fp.x
        (fun j r => f (s.U j r)) else ((fun j r => f (s.U j r)), true)).1 =
        fun j r => f ((if s.transf = true then redZ o s.fastLong κ i (min s.d (nmaxOf s.str i))
          (o.rnd (q.1 i)) s.fp.x s.U
          else s.U) j r) := by
      by_cases ht : s.transf = true
      · simp only [Lat.fmap, ht, if_true] at h3 ⊢
        exact mred_red hf s.fastLong κ i _ _ _ s.U h3
      · simp only [ht]; rfl
    unfold Lat.fmap at *
    simp only [] at *
    rw [hB, hU]
    simp only [Lat.mk.injEq, true_and]
    simp only [h2, h3, Bool.and_self, Bool.not_true, Bool.or_false]
    exact ⟨⟨rfl, rfl, rfl, trivial⟩, rfl⟩

theorem mSeysenUpdateLoop_sim (hf : EntOK o c f) (κ rd m : Nat) (s : Lat F) (q : (Nat → F) × Bool)
    (h : (mSeysenUpdateLoop o c κ rd m (s.fmap f, q)).1.ub = false) :
    mSeysenUpdateLoop o c κ rd m (s.fmap f, q) =
      ((seysenUpdateLoop (o.via f) κ rd m (s, q)).1.fmap f,
        (seysenUpdateLoop (o.via f) κ rd m (s, q)).2) := by
  induction m generalizing s q with
  | zero => rfl
  | succ m ih =>
    simp only [mSeysenUpdateLoop, seysenUpdateLoop] at h ⊢
    have h0 := mSeysenUpdateLoop_ub κ rd m _ h
    rw [mSeysenUpdateStep_sim hf κ rd _ s q h0] at h ⊢
    exact ih _ _ h

theorem seysenSolve_via (R : Mat F) (rd m : Nat) (q : (Nat → F) × (Nat → F)) :
    seysenSolve (o.via f) R rd m q = seysenSolve o R rd m q := by
  induction m generalizing q with
  | zero => rfl
  | succ m ih => simp only [seysenSolve]; rw [ih]; rfl

/-- `f` applied to the integers of the state of the loop on the blocks. -/
def SeyState.fmap (f : Int → Int) (q : SeyState F) : SeyState F := { q with s := q.s.fmap f }

theorem mSeysenBlock_ub (κ ld idx : Nat) (q : SeyState F) (h : (mSeysenBlock o c κ ld idx q).s.ub = false) :
    q.s.ub = false := by
  unfold mSeysenBlock at h
  simp only [] at h
  generalize (if κ / ld % 2 = 0 then 0 else ld) = bd at h
  split at h
  · exact mSeysenUpdateLoop_ub _ _ _ _ h
  · exact h

theorem mSeysenBlock_sim (hf : EntOK o c f) (κ ld idx : Nat) (q : SeyState F)
    (h : (mSeysenBlock o c κ ld idx (q.fmap f)).s.ub = false) :
    mSeysenBlock o c κ ld idx (q.fmap f) = (seysenBlock (o.via f) κ ld idx q).fmap f := by
  unfold mSeysenBlock seysenBlock at *
  simp only [seysenSolve_via] at h ⊢
  by_cases hc : q.s.numS = 1 ∨ ((if κ / ld % 2 = 0 then 0 else ld : Nat) : Int) < q.s.parThr
  · rw [if_pos (show (q.fmap f).s.numS = 1 ∨ _ < (q.fmap f).s.parThr from hc)] at h ⊢
    rw [if_pos hc]
    have e := mSeysenUpdateLoop_sim hf κ _ _ q.s _ h
    have e' := e
    unfold SeyState.fmap at *
    simp only [] at *
    rw [show (q.s.fmap f).fp = q.s.fp from rfl] at *
    rw [e]
  · rw [if_neg (show ¬ ((q.fmap f).s.numS = 1 ∨ _ < (q.fmap f).s.parThr) from hc), if_neg hc]
    rfl

theorem mSeysenBlocks_ub (κ fuel ld idx : Nat) (q : SeyState F)
    (h : (mSeysenBlocks o c κ fuel ld idx q).s.ub = false) : q.s.ub = false := by
  induction fuel generalizing ld idx q with
  | zero => exact h
  | succ fuel ih =>
    simp only [mSeysenBlocks] at h
    split at h
    · exact mSeysenBlock_ub _ _ _ _ (ih _ _ _ h)
    · exact h

theorem mSeysenBlocks_sim (hf : EntOK o c f) (κ fuel ld idx : Nat) (q : SeyState F)
    (h : (mSeysenBlocks o c κ fuel ld idx (q.fmap f)).s.ub = false) :
    mSeysenBlocks o c κ fuel ld idx (q.fmap f) = (seysenBlocks (o.via f) κ fuel ld idx q).fmap f := by
  induction fuel generalizing ld idx q with
  | zero => rfl
  | succ fuel ih =>
    simp only [mSeysenBlocks, seysenBlocks] at h ⊢
    split
    · rename_i hl
      rw [if_pos hl] at h
      have h0 := mSeysenBlocks_ub _ _ _ _ _ h
      rw [mSeysenBlock_sim hf _ _ _ _ h0] at h ⊢
      exact ih _ _ _ h
    · rfl

theorem mSeysenLoop_ub (κ fuel : Nat) (n0 n1 : Bool) (tmp vx : Nat → F) (s : Lat F) (st : Int)
    (t : Lat F) (h : mSeysenLoop o c κ fuel n0 n1 tmp vx s = some (st, t)) (ht : t.ub = false) :
    s.ub = false ∧ (mSeysenBlocks o c κ (κ + 1) 1 0
      { s := s, tmpcol := tmp, vectx := vx, somedone := false }).s.ub = false := by
  induction fuel generalizing n0 n1 tmp vx s with
  | zero => simp [mSeysenLoop] at h
  | succ fuel ih =>
    simp only [mSeysenLoop] at h
    suffices hs : (mSeysenBlocks o c κ (κ + 1) 1 0
      { s := s, tmpcol := tmp, vectx := vx, somedone := false }).s.ub = false from
      ⟨mSeysenBlocks_ub _ _ _ _ _ hs, hs⟩
    have hr : ∀ q : Lat F, (({ q with fp := { q.fp with colKept := setAt q.fp.colKept κ false } } :
        Lat F).hhR o κ).ub = false → q.ub = false := by
      intro q hq
      simp only [Lat.hhR, Bool.or_eq_false_iff] at hq
      exact hq.1
    split at h
    · split at h
      · exact hr _ (ih _ _ _ _ _ h).1
      · simp only [Option.some.injEq, Prod.mk.injEq] at h
        rw [← h.2] at ht; exact hr _ ht
    · simp only [Option.some.injEq, Prod.mk.injEq] at h
      rw [← h.2] at ht; exact ht

theorem mSeysenLoop_sim (hf : EntOK o c f) (κ fuel : Nat) (n0 n1 : Bool) (tmp vx : Nat → F) (s : Lat F)
    (st : Int) (t : Lat F) (h : mSeysenLoop o c κ fuel n0 n1 tmp vx (s.fmap f) = some (st, t))
    (ht : t.ub = false) :
    ∃ t', seysenLoop (o.via f) κ fuel n0 n1 tmp vx s = some (st, t') ∧ t = t'.fmap f := by
  induction fuel generalizing n0 n1 tmp vx s with
  | zero => simp [mSeysenLoop] at h
  | succ fuel ih =>
    have hub := (mSeysenLoop_ub κ _ _ _ _ _ _ _ _ h ht).2
    have h' := h
    simp only [mSeysenLoop] at h'
    have e := mSeysenBlocks_sim hf κ (κ + 1) 1 0
      { s := s, tmpcol := tmp, vectx := vx, somedone := false } hub
    change mSeysenBlocks o c κ (κ + 1) 1 0
      { s := s.fmap f, tmpcol := tmp, vectx := vx, somedone := false } = _ at e
    rw [e] at h'
    simp only [seysenLoop]
    generalize seysenBlocks (o.via f) κ (κ + 1) 1 0
      { s := s, tmpcol := tmp, vectx := vx, somedone := false } = q at h' ⊢
    let s1 : Lat F := Lat.hhR (o.via f) κ
      { q.s with fp := { q.s.fp with colKept := setAt q.s.fp.colKept κ false } }
    let ns : Bool := o.lt (s1.fp.normB2 κ) (o.mul o.hundredth (q.s.fp.normB2 κ))
    have h1 : (if q.somedone = true then
        if (n0 || n1 || ns) = true then mSeysenLoop o c κ fuel n1 ns q.tmpcol q.vectx (s1.fmap f)
        else some (0, s1.fmap f)
      else some (0, q.s.fmap f)) = some (st, t) := h'
    show ∃ t', (if q.somedone = true then
        if (n0 || n1 || ns) = true then seysenLoop (o.via f) κ fuel n1 ns q.tmpcol q.vectx s1
        else some (0, s1)
      else some (0, q.s)) = some (st, t') ∧ t = t'.fmap f
    clear_value s1 ns
    by_cases hq : q.somedone = true
    · rw [if_pos hq] at h1 ⊢
      by_cases hc : (n0 || n1 || ns) = true
      · rw [if_pos hc] at h1 ⊢
        exact ih _ _ _ _ _ h1
      · rw [if_neg hc] at h1 ⊢
        simp only [Option.some.injEq, Prod.mk.injEq] at h1 ⊢
        exact ⟨_, ⟨h1.1, rfl⟩, h1.2.symm⟩
    · rw [if_neg hq] at h1 ⊢
      simp only [Option.some.injEq, Prod.mk.injEq] at h1 ⊢
      exact ⟨_, ⟨h1.1, rfl⟩, h1.2.symm⟩

/-! ### the main loop -/

theorem mHlllReduce_ub (fuel κ : Nat) (s : Lat F) (st : Int) (t : Lat F)
    (h : mHlllReduce o c fuel κ s = some (st, t)) (ht : t.ub = false) : s.ub = false := by
  have hr : ∀ q : Lat F, (q.hhR o κ).ub = false → q.ub = false := by
    intro q hq
    simp only [Lat.hhR, Bool.or_eq_false_iff] at hq
    exact hq.1
  unfold mHlllReduce at h
  split at h
  · exact hr _ (mHsizeLoop_ub _ _ _ _ _ _ _ h ht)
  · exact hr _ (mSeysenLoop_ub _ _ _ _ _ _ _ _ _ h ht).1

theorem mHlllReduce_sim (hf : EntOK o c f) (fuel κ : Nat) (s : Lat F) (st : Int) (t : Lat F)
    (h : mHlllReduce o c fuel κ (s.fmap f) = some (st, t)) (ht : t.ub = false) :
    ∃ t', hlllReduce (o.via f) fuel κ s = some (st, t') ∧ t = t'.fmap f := by
  unfold mHlllReduce at h
  unfold hlllReduce
  by_cases hc : s.seysenFlag < 1
  · rw [if_pos (show (s.fmap f).seysenFlag < 1 from hc)] at h
    rw [if_pos hc]
    unfold mHsizereduce at h
    unfold hsizereduce
    exact mHsizeLoop_sim hf _ _ _ _ _ _ _ h ht
  · rw [if_neg (show ¬ (s.fmap f).seysenFlag < 1 from hc)] at h
    rw [if_neg hc]
    unfold mSeysenreduce at h
    unfold seysenreduce
    exact mSeysenLoop_sim hf _ _ _ _ _ _ _ _ _ h ht

theorem hlllPrep_fmap (κ : Nat) (s : Lat F) :
    hlllPrep o κ (s.fmap f) = (hlllPrep (o.via f) κ s).fmap f := by
  unfold hlllPrep
  split <;> rfl

theorem hlllPrep_ub (κ : Nat) (s : Lat F) (h : (hlllPrep o κ s).ub = false) : s.ub = false := by
  unfold hlllPrep at h
  split at h
  · simp only [Lat.hhR, Lat.hhV, Bool.or_eq_false_iff] at h
    exact h.1.1
  · exact h

/-- The end of an iteration, given the reduced state. -/
def stepEnd (o : FPOps F) (δ : F) (h : HState F) (st : Int) (s : Lat F) : HStep F :=
  let κ := h.kappa
  if st = -1 then .fail s
  else
    let lov := lovtest o δ κ s.fp
    let s := { s with nblov := s.nblov + 1
                      ub := s.ub || !(decide (κ < s.d ∧ κ < s.n ∧ nmaxOf s.str κ ≤ s.n)) }
    if o.le lov (newt o s.str κ s.fp) then
      let s := s.hhV o κ
      if h.prevkappa = κ + 1 ∧ o.lt (h.prevR κ) (o.abs (s.fp.R κ κ)) then .fail s
      else
        .next { s := hlllUp κ s
                kappa := κ + 1
                prevkappa := κ
                prevR := setAt h.prevR κ (o.abs (s.fp.R κ κ)) }
    else
      .next { s := hlllDown κ s
              kappa := max (κ - 1) 1
              prevkappa := κ
              prevR := h.prevR }

theorem hlllStep_end (fuel : Nat) (δ : F) (h : HState F) :
    hlllStep o fuel δ h = match hlllReduce o fuel h.kappa (hlllPrep o h.kappa h.s) with
      | none => .diverge
      | some (st, s) => stepEnd o δ h st s := by
  unfold hlllStep stepEnd
  rfl

theorem mHlllStep_end (fuel : Nat) (δ : F) (h : HState F) :
    mHlllStep o c fuel δ h = match mHlllReduce o c fuel h.kappa (hlllPrep o h.kappa h.s) with
      | none => .diverge
      | some (st, s) => stepEnd o δ h st s := by
  unfold mHlllStep stepEnd
  rfl

def HState.fmap (f : Int → Int) (h : HState F) : HState F := { h with s := h.s.fmap f }

def HStep.fmap (f : Int → Int) : HStep F → HStep F
  | .diverge => .diverge
  | .fail s => .fail (s.fmap f)
  | .next h => .next (h.fmap f)

theorem down_fmap (κ : Nat) (s : Lat F) : hlllDown κ (s.fmap f) = (hlllDown κ s).fmap f := by
  have e : ∀ M : Mat Int, colswap (fun j i => f (M j i)) (κ - 1) κ =
      fun j i => f (colswap M (κ - 1) κ j i) := by
    intro M
    unfold colswap
    funext j i
    split
    · rfl
    · split <;> rfl
  unfold hlllDown Lat.fmap
  simp only [e, Lat.mk.injEq, true_and, and_true]
  split <;> rfl

theorem stepEnd_fmap (δ : F) (h : HState F) (st : Int) (s : Lat F) :
    stepEnd o δ (h.fmap f) st (s.fmap f) = (stepEnd (o.via f) δ h st s).fmap f := by
  unfold stepEnd
  simp only []
  by_cases h1 : st = -1
  · rw [if_pos h1, if_pos h1]; rfl
  · rw [if_neg h1, if_neg h1]
    let s1 : Lat F := { s with
      nblov := s.nblov + 1
      ub := s.ub || !(decide (h.kappa < s.d ∧ h.kappa < s.n ∧ nmaxOf s.str h.kappa ≤ s.n)) }
    let s2 : Lat F := s1.hhV (o.via f) h.kappa
    let g : HStep F := .next
      { s := hlllUp h.kappa s2, kappa := h.kappa + 1, prevkappa := h.kappa
        prevR := setAt h.prevR h.kappa (o.abs (s2.fp.R h.kappa h.kappa)) }
    show (if o.le (lovtest o δ h.kappa s.fp) (newt o s.str h.kappa s.fp) = true then
        if h.prevkappa = h.kappa + 1 ∧
            o.lt (h.prevR h.kappa) (o.abs (s2.fp.R h.kappa h.kappa)) = true then
          HStep.fail (s2.fmap f) else g.fmap f
      else HStep.next ⟨hlllDown h.kappa (s1.fmap f), max (h.kappa - 1) 1, h.kappa, h.prevR⟩) =
      HStep.fmap f (if o.le (lovtest o δ h.kappa s.fp) (newt o s.str h.kappa s.fp) = true then
        if h.prevkappa = h.kappa + 1 ∧
            o.lt (h.prevR h.kappa) (o.abs (s2.fp.R h.kappa h.kappa)) = true then
          HStep.fail s2 else g
      else HStep.next ⟨hlllDown h.kappa s1, max (h.kappa - 1) 1, h.kappa, h.prevR⟩)
    rw [down_fmap]
    split
    · split <;> rfl
    · rfl

/-- The flag of an outcome. -/
def HStep.ub : HStep F → Bool
  | .diverge => false
  | .fail s => s.ub
  | .next h => h.s.ub

theorem stepEnd_ub (δ : F) (h : HState F) (st : Int) (s : Lat F)
    (hu : (stepEnd o δ h st s).ub = false) : s.ub = false := by
  unfold stepEnd at hu
  simp only [] at hu
  split at hu
  · exact hu
  · split at hu
    · split at hu
      · simp only [HStep.ub, Lat.hhV, Bool.or_eq_false_iff] at hu; exact hu.1.1
      · simp only [HStep.ub, hlllUp, Lat.hhV, Bool.or_eq_false_iff] at hu; exact hu.1.1
    · simp only [HStep.ub, hlllDown, Bool.or_eq_false_iff] at hu; exact hu.1.1

theorem mHlllStep_ub (fuel : Nat) (δ : F) (h : HState F) (hne : mHlllStep o c fuel δ h ≠ .diverge)
    (hu : (mHlllStep o c fuel δ h).ub = false) : h.s.ub = false := by
  rw [mHlllStep_end] at hu hne
  cases e : mHlllReduce o c fuel h.kappa (hlllPrep o h.kappa h.s) with
  | none => rw [e] at hne; exact absurd rfl hne
  | some r =>
    rw [e] at hu
    exact hlllPrep_ub _ _ (mHlllReduce_ub _ _ _ _ _ e (stepEnd_ub _ _ _ _ hu))

theorem mHlllStep_sim (hf : EntOK o c f) (fuel : Nat) (δ : F) (h : HState F)
    (hne : mHlllStep o c fuel δ (h.fmap f) ≠ .diverge)
    (hu : (mHlllStep o c fuel δ (h.fmap f)).ub = false) :
    mHlllStep o c fuel δ (h.fmap f) = (hlllStep (o.via f) fuel δ h).fmap f := by
  rw [mHlllStep_end] at hu hne ⊢
  rw [hlllStep_end]
  have e0 : hlllPrep o (h.fmap f).kappa (h.fmap f).s = (hlllPrep (o.via f) h.kappa h.s).fmap f :=
    hlllPrep_fmap _ _
  rw [e0] at hu hne ⊢
  cases e : mHlllReduce o c fuel (h.fmap f).kappa ((hlllPrep (o.via f) h.kappa h.s).fmap f) with
  | none => rw [e] at hne; exact absurd rfl hne
  | some r =>
    obtain ⟨st, t⟩ := r
    rw [e] at hu
    obtain ⟨t', e1, rfl⟩ := mHlllReduce_sim hf _ _ _ _ _ e (stepEnd_ub _ _ _ _ hu)
    rw [show hlllReduce (o.via f) fuel h.kappa (hlllPrep (o.via f) h.kappa h.s) = some (st, t') from e1]
    exact stepEnd_fmap _ _ _ _

theorem mHlllLoop_ub (δ : F) (fuel : Nat) (h : HState F) (st : Int) (t : Lat F)
    (hr : mHlllLoop o c δ fuel h = some (st, t)) (ht : t.ub = false) : h.s.ub = false := by
  induction fuel generalizing h with
  | zero => simp [mHlllLoop] at hr
  | succ fuel ih =>
    simp only [mHlllLoop] at hr
    split at hr
    · refine mHlllStep_ub (o := o) (c := c) (fuel + 1) δ h ?_ ?_
      · intro hd; rw [hd] at hr; simp at hr
      · cases hs : mHlllStep o c (fuel + 1) δ h with
        | diverge => rfl
        | fail s =>
          rw [hs] at hr
          simp only [Option.some.injEq, Prod.mk.injEq] at hr
          rw [← hr.2] at ht; exact ht
        | next h1 => rw [hs] at hr; exact ih _ hr
    · simp only [Option.some.injEq, Prod.mk.injEq] at hr
      rw [← hr.2] at ht; exact ht

theorem mHlllLoop_sim (hf : EntOK o c f) (δ : F) (fuel : Nat) (h : HState F) (st : Int) (t : Lat F)
    (hr : mHlllLoop o c δ fuel (h.fmap f) = some (st, t)) (ht : t.ub = false) :
    ∃ t', hlllLoop (o.via f) δ fuel h = some (st, t') ∧ t = t'.fmap f := by
  induction fuel generalizing h with
  | zero => simp [mHlllLoop] at hr
  | succ fuel ih =>
    simp only [mHlllLoop, hlllLoop] at hr ⊢
    by_cases hc : h.kappa < h.s.kappaMax ∧ h.s.nblov < h.s.nblovMax
    · rw [if_pos (show (h.fmap f).kappa < (h.fmap f).s.kappaMax ∧
        (h.fmap f).s.nblov < (h.fmap f).s.nblovMax from hc)] at hr
      rw [if_pos hc]
      have hs := mHlllStep_sim hf (fuel + 1) δ h (by intro hd; rw [hd] at hr; simp at hr) (by
        cases hs : mHlllStep o c (fuel + 1) δ (h.fmap f) with
        | diverge => rfl
        | fail s =>
          rw [hs] at hr
          simp only [Option.some.injEq, Prod.mk.injEq] at hr
          rw [← hr.2] at ht; exact ht
        | next h1 => rw [hs] at hr; exact mHlllLoop_ub _ _ _ _ _ hr ht)
      rw [hs] at hr
      cases e : hlllStep (o.via f) (fuel + 1) δ h with
      | diverge => rw [e] at hr; simp [HStep.fmap] at hr
      | fail s =>
        rw [e] at hr
        simp only [HStep.fmap, Option.some.injEq, Prod.mk.injEq] at hr ⊢
        exact ⟨_, ⟨hr.1, rfl⟩, hr.2.symm⟩
      | next h1 =>
        rw [e] at hr
        exact ih _ hr
    · rw [if_neg (show ¬ ((h.fmap f).kappa < (h.fmap f).s.kappaMax ∧
        (h.fmap f).s.nblov < (h.fmap f).s.nblovMax) from hc)] at hr
      rw [if_neg hc]
      simp only [Option.some.injEq, Prod.mk.injEq] at hr ⊢
      exact ⟨_, ⟨hr.1, rfl⟩, hr.2.symm⟩

/-- A machine run without undefined operation is the run on unbounded integers seen through `f`. -/
theorem gHlll_sim (hf : EntOK o c f) (fuel : Nat) (δ : F) (v : Bool) (s : Lat F) (st : Int) (t : Lat F)
    (hr : gHlll o c fuel δ v (s.fmap f) = some (st, t)) (ht : t.ub = false) :
    ∃ t', hlll (o.via f) fuel δ v s = some (st, t') ∧ t = t'.fmap f := by
  unfold gHlll at hr
  unfold hlll
  simp only [] at hr ⊢
  cases v
  · simp only [Bool.false_eq_true, if_false] at hr ⊢
    cases e : mHlllLoop o c δ fuel (hlllInit o (s.fmap f)) with
    | none => rw [e] at hr; simp at hr
    | some r =>
      obtain ⟨a, b⟩ := r
      rw [e] at hr
      simp only [Option.some.injEq, Prod.mk.injEq] at hr
      obtain ⟨rfl, rfl⟩ := hr
      obtain ⟨t', h1, h2⟩ := mHlllLoop_sim hf δ fuel (hlllInit (o.via f) s) a b e ht
      rw [h1]
      exact ⟨t', rfl, h2⟩
  · simp only [if_true] at hr ⊢
    cases e : mHlllLoop o c δ fuel (hlllInit o { s.fmap f with
        verboseDepth := (s.fmap f).verboseDepth - 1 }) with
    | none => rw [e] at hr; simp at hr
    | some r =>
      obtain ⟨a, b⟩ := r
      rw [e] at hr
      simp only [Option.some.injEq, Prod.mk.injEq] at hr
      obtain ⟨rfl, rfl⟩ := hr
      obtain ⟨t', h1, h2⟩ := mHlllLoop_sim hf δ fuel (hlllInit (o.via f)
        { s with verboseDepth := s.verboseDepth - 1 }) a b e ht
      rw [h1]
      exact ⟨_, rfl, by rw [h2]; rfl⟩

end HPLLL
