import Verif.Model.Lattice
/-! The counter of swaps has no effect on the rest. -/

namespace HPLLL

variable {F : Type} (o : FPOps F)

/-- The same object with `k` more swaps counted. -/
def Lat.sw (k : Nat) (s : Lat F) : Lat F := { s with nbswaps := s.nbswaps + k }

theorem sizeUpdateStep_sw (k κ i : Nat) (s : Lat F) (b : Bool) :
    sizeUpdateStep o κ i (s.sw k, b) =
      ((sizeUpdateStep o κ i (s, b)).1.sw k, (sizeUpdateStep o κ i (s, b)).2) := by
  unfold sizeUpdateStep
  by_cases h : o.isZero (o.rnd (o.div (s.fp.R κ i) (s.fp.R i i))) = true
  · have h' : o.isZero (o.rnd (o.div ((s.sw k).fp.R κ i) ((s.sw k).fp.R i i))) = true := h
    simp only [h, h', if_true]; rfl
  · have h' : ¬ o.isZero (o.rnd (o.div ((s.sw k).fp.R κ i) ((s.sw k).fp.R i i))) = true := h
    simp only [if_neg h, if_neg h']; rfl

theorem sizeUpdateLoop_sw (k κ m : Nat) : ∀ (s : Lat F) (b : Bool),
    sizeUpdateLoop o κ m (s.sw k, b) =
      ((sizeUpdateLoop o κ m (s, b)).1.sw k, (sizeUpdateLoop o κ m (s, b)).2) := by
  induction m with
  | zero => intro s b; rfl
  | succ m ih => intro s b; simp only [sizeUpdateLoop]; rw [sizeUpdateStep_sw, ih]

theorem sizeUpdateRStep_sw (k κ i : Nat) (s : Lat F) (b : (Nat → F) × Bool) :
    sizeUpdateRStep o κ i (s.sw k, b) =
      ((sizeUpdateRStep o κ i (s, b)).1.sw k, (sizeUpdateRStep o κ i (s, b)).2) := by
  unfold sizeUpdateRStep
  by_cases h : o.isZero (o.rnd (o.div (s.fp.R κ i) (s.fp.R i i))) = true
  · have h' : o.isZero (o.rnd (o.div ((s.sw k).fp.R κ i) ((s.sw k).fp.R i i))) = true := h
    simp only [h, h', if_true]; rfl
  · have h' : ¬ o.isZero (o.rnd (o.div ((s.sw k).fp.R κ i) ((s.sw k).fp.R i i))) = true := h
    simp only [if_neg h, if_neg h']; rfl

theorem sizeUpdateRLoop_sw (k κ m : Nat) : ∀ (s : Lat F) (b : (Nat → F) × Bool),
    sizeUpdateRLoop o κ m (s.sw k, b) =
      ((sizeUpdateRLoop o κ m (s, b)).1.sw k, (sizeUpdateRLoop o κ m (s, b)).2) := by
  induction m with
  | zero => intro s b; rfl
  | succ m ih => intro s b; simp only [sizeUpdateRLoop]; rw [sizeUpdateRStep_sw, ih]

theorem hsizePass_sw (k κ m : Nat) (s : Lat F) :
    hsizePass o κ m (s.sw k) = ((hsizePass o κ m s).1.sw k, (hsizePass o κ m s).2) := by
  unfold hsizePass
  have e : ((s.sw k).numS = 1 ∨ (κ : Int) - 1 < (s.sw k).parThr) =
    (s.numS = 1 ∨ (κ : Int) - 1 < s.parThr) := rfl
  simp only [e]
  split
  · exact sizeUpdateLoop_sw o k κ m s false
  · rw [sizeUpdateRLoop_sw]; rfl

/-- Result of a reduction. -/
def swO (k : Nat) (r : Option (Int × Lat F)) : Option (Int × Lat F) := r.map fun q => (q.1, q.2.sw k)

theorem hsizeLoop_sw (k κ m fuel : Nat) : ∀ (b : Bool) (s : Lat F),
    hsizeLoop o κ m fuel b (s.sw k) = swO k (hsizeLoop o κ m fuel b s) := by
  induction fuel with
  | zero => intro b s; rfl
  | succ fuel ih =>
    intro b s
    simp only [hsizeLoop]
    rw [hsizePass_sw]
    generalize hsizePass o κ m s = q
    obtain ⟨q, b'⟩ := q
    cases b'
    · rfl
    · have e : ({ q.sw k with fp := { (q.sw k).fp with colKept := setAt (q.sw k).fp.colKept κ false } } : Lat F).hhR o κ =
        (({ q with fp := { q.fp with colKept := setAt q.fp.colKept κ false } } : Lat F).hhR o κ).sw k := rfl
      simp only [if_true, e]
      generalize ({ q with fp := { q.fp with colKept := setAt q.fp.colKept κ false } } : Lat F).hhR o κ = w
      have e1 : (w.sw k).fp = w.fp := rfl
      have e2 : (q.sw k).fp = q.fp := rfl
      rw [e1, e2]
      cases (!b && !o.lt (w.fp.normB2 κ) (o.mul o.tenth (q.fp.normB2 κ)))
      · exact ih _ _
      · cases sizeAnomaly o κ w.fp <;> rfl

theorem hsizereduce_sw (k fuel κ fromk : Nat) (s : Lat F) :
    hsizereduce o fuel κ fromk (s.sw k) = swO k (hsizereduce o fuel κ fromk s) :=
  hsizeLoop_sw o k κ _ fuel true (s.hhR o κ)

theorem seysenUpdateStep_sw (k κ rd i : Nat) (s : Lat F) (b : (Nat → F) × Bool) :
    seysenUpdateStep o κ rd i (s.sw k, b) =
      ((seysenUpdateStep o κ rd i (s, b)).1.sw k, (seysenUpdateStep o κ rd i (s, b)).2) := by
  unfold seysenUpdateStep
  simp only [Lat.sw]
  cases o.isZero (o.rnd (b.1 i)) <;> rfl

theorem seysenUpdateLoop_sw (k κ rd m : Nat) : ∀ (s : Lat F) (b : (Nat → F) × Bool),
    seysenUpdateLoop o κ rd m (s.sw k, b) =
      ((seysenUpdateLoop o κ rd m (s, b)).1.sw k, (seysenUpdateLoop o κ rd m (s, b)).2) := by
  induction m with
  | zero => intro s b; rfl
  | succ m ih => intro s b; simp only [seysenUpdateLoop]; rw [seysenUpdateStep_sw, ih]

/-- The same for the state of the loop on the blocks. -/
def SeyState.sw (k : Nat) (q : SeyState F) : SeyState F := { q with s := q.s.sw k }

theorem seysenBlock_sw (k κ ld i : Nat) (q : SeyState F) :
    seysenBlock o κ ld i (q.sw k) = (seysenBlock o κ ld i q).sw k := by
  unfold seysenBlock
  simp only [SeyState.sw]
  have e : ∀ a : Int, ((q.s.sw k).numS = 1 ∨ a < (q.s.sw k).parThr) =
    (q.s.numS = 1 ∨ a < q.s.parThr) := fun _ => rfl
  simp only [e, seysenUpdateLoop_sw]
  split <;> split <;> rfl

theorem seysenBlocks_sw (k κ fuel : Nat) : ∀ (ld i : Nat) (q : SeyState F),
    seysenBlocks o κ fuel ld i (q.sw k) = (seysenBlocks o κ fuel ld i q).sw k := by
  induction fuel with
  | zero => intro ld i q; rfl
  | succ fuel ih =>
    intro ld i q
    simp only [seysenBlocks]
    split
    · rw [seysenBlock_sw, ih]
    · rfl

theorem seysenLoop_sw (k κ fuel : Nat) : ∀ (a b : Bool) (t v : Nat → F) (s : Lat F),
    seysenLoop o κ fuel a b t v (s.sw k) = swO k (seysenLoop o κ fuel a b t v s) := by
  induction fuel with
  | zero => intro a b t v s; rfl
  | succ fuel ih =>
    intro a b t v s
    simp only [seysenLoop]
    have e := seysenBlocks_sw o k κ (κ + 1) 1 0
      { s := s, tmpcol := t, vectx := v, somedone := false }
    simp only [SeyState.sw] at e
    rw [e]
    generalize seysenBlocks o κ (κ + 1) 1 0 { s := s, tmpcol := t, vectx := v, somedone := false } = q
    obtain ⟨q, t', v', b'⟩ := q
    cases b'
    · rfl
    · have e : ({ q.sw k with fp := { (q.sw k).fp with colKept := setAt (q.sw k).fp.colKept κ false } } : Lat F).hhR o κ =
        (({ q with fp := { q.fp with colKept := setAt q.fp.colKept κ false } } : Lat F).hhR o κ).sw k := rfl
      simp only [if_true, e]
      generalize ({ q with fp := { q.fp with colKept := setAt q.fp.colKept κ false } } : Lat F).hhR o κ = w
      have e1 : (w.sw k).fp = w.fp := rfl
      have e2 : (q.sw k).fp = q.fp := rfl
      rw [e1, e2]
      cases (a || b || o.lt (w.fp.normB2 κ) (o.mul o.hundredth (q.fp.normB2 κ)))
      · rfl
      · exact ih _ _ _ _ _

theorem hlllReduce_sw (k fuel κ : Nat) (s : Lat F) :
    hlllReduce o fuel κ (s.sw k) = swO k (hlllReduce o fuel κ s) := by
  unfold hlllReduce
  have e : ((s.sw k).seysenFlag < 1) = (s.seysenFlag < 1) := rfl
  simp only [e]
  split
  · exact hsizereduce_sw o k fuel κ 0 s
  · exact seysenLoop_sw o k κ fuel true true _ _ (s.hhR o κ)

theorem hlllPrep_sw (k κ : Nat) (s : Lat F) : hlllPrep o κ (s.sw k) = (hlllPrep o κ s).sw k := by
  unfold hlllPrep
  split <;> rfl

theorem hlllDown_sw (k κ : Nat) (s : Lat F) : hlllDown κ (s.sw k) = (hlllDown κ s).sw k := by
  unfold hlllDown Lat.sw
  simp only []
  congr 1
  omega

/-- The same for the state of the main loop. -/
def HState.sw (k : Nat) (h : HState F) : HState F := { h with s := h.s.sw k }

/-- The same for the outcome of a step. -/
def HStep.sw (k : Nat) : HStep F → HStep F
  | .diverge => .diverge
  | .fail s => .fail (s.sw k)
  | .next h => .next (h.sw k)

/-- The part of an iteration after the reduction of the column. -/
def stepRest (δ : F) (κ : Nat) (pk : Int) (pR : Nat → F) (s w : Lat F) : HStep F :=
  if o.le (lovtest o δ κ s.fp) (newt o w.str κ w.fp) then
    if pk = κ + 1 ∧ o.lt (pR κ) (o.abs ((w.hhV o κ).fp.R κ κ)) then .fail (w.hhV o κ)
    else .next { s := hlllUp κ (w.hhV o κ)
                 kappa := κ + 1
                 prevkappa := κ
                 prevR := setAt pR κ (o.abs ((w.hhV o κ).fp.R κ κ)) }
  else .next { s := hlllDown κ w
               kappa := max (κ - 1) 1
               prevkappa := κ
               prevR := pR }

/-- The update of the test counter. -/
def stepCount (κ : Nat) (s : Lat F) : Lat F :=
  { s with nblov := s.nblov + 1
           ub := s.ub || !(decide (κ < s.d ∧ κ < s.n ∧ nmaxOf s.str κ ≤ s.n)) }

theorem hlllStep_rest (fuel : Nat) (δ : F) (h : HState F) :
    hlllStep o fuel δ h = match hlllReduce o fuel h.kappa (hlllPrep o h.kappa h.s) with
      | none => .diverge
      | some (flag, s) =>
        if flag = -1 then .fail s
        else stepRest o δ h.kappa h.prevkappa h.prevR s (stepCount h.kappa s) := rfl

theorem stepRest_sw (k : Nat) (δ : F) (κ : Nat) (pk : Int) (pR : Nat → F) (s w : Lat F) :
    stepRest o δ κ pk pR (s.sw k) (w.sw k) = (stepRest o δ κ pk pR s w).sw k := by
  have e1 : newt o (w.sw k).str κ (w.sw k).fp = newt o w.str κ w.fp := rfl
  have e2 : lovtest o δ κ (s.sw k).fp = lovtest o δ κ s.fp := rfl
  have e4 : (w.sw k).hhV o κ = (w.hhV o κ).sw k := rfl
  have e5 : ((w.hhV o κ).sw k).fp = (w.hhV o κ).fp := rfl
  unfold stepRest
  rw [e1, e2, e4, e5]
  split
  · split <;> rfl
  · rw [hlllDown_sw]; rfl

theorem hlllStep_sw (k fuel : Nat) (δ : F) (h : HState F) :
    hlllStep o fuel δ (h.sw k) = (hlllStep o fuel δ h).sw k := by
  rw [hlllStep_rest, hlllStep_rest]
  have e : hlllReduce o fuel (h.sw k).kappa (hlllPrep o (h.sw k).kappa (h.sw k).s) =
      swO k (hlllReduce o fuel h.kappa (hlllPrep o h.kappa h.s)) := by
    rw [← hlllReduce_sw, ← hlllPrep_sw]; rfl
  rw [e]
  cases hlllReduce o fuel h.kappa (hlllPrep o h.kappa h.s) with
  | none => rfl
  | some r =>
    obtain ⟨fl, s⟩ := r
    simp only [swO, Option.map_some]
    split
    · rfl
    · exact stepRest_sw o k δ h.kappa h.prevkappa h.prevR s (stepCount h.kappa s)

theorem hlllLoop_sw (k : Nat) (δ : F) (fuel : Nat) : ∀ h : HState F,
    hlllLoop o δ fuel (h.sw k) = swO k (hlllLoop o δ fuel h) := by
  induction fuel with
  | zero => intro h; rfl
  | succ fuel ih =>
    intro h
    simp only [hlllLoop]
    rw [hlllStep_sw]
    have e : ((h.sw k).kappa < (h.sw k).s.kappaMax ∧ (h.sw k).s.nblov < (h.sw k).s.nblovMax) =
      (h.kappa < h.s.kappaMax ∧ h.s.nblov < h.s.nblovMax) := rfl
    simp only [e]
    split
    · cases hlllStep o (fuel + 1) δ h with
      | diverge => rfl
      | fail s => rfl
      | next h => exact ih h
    · rfl

theorem hlll_sw (k fuel : Nat) (δ : F) (v : Bool) (s : Lat F) :
    hlll o fuel δ v (s.sw k) = swO k (hlll o fuel δ v s) := by
  unfold hlll
  have e : hlllInit o (if v then { s.sw k with verboseDepth := (s.sw k).verboseDepth - 1 } else s.sw k) =
    (hlllInit o (if v then { s with verboseDepth := s.verboseDepth - 1 } else s)).sw k := by
    cases v <;> rfl
  simp only [e]
  rw [hlllLoop_sw]
  cases hlllLoop o δ fuel (hlllInit o (if v then { s with verboseDepth := s.verboseDepth - 1 } else s)) with
  | none => rfl
  | some r => cases v <;> rfl

end HPLLL
