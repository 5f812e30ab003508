import Verif.Proof.Slll
/-! `SLattice::hlll`: neither the schedule of the parallel regions nor the value left in the racy
counter `nbswaps` has any influence on the rest of the object. -/

namespace HPLLL

variable {F : Type} (o : FPOps F) (c : SCst F)

/-- The object with another value of `nbswaps`. -/
def Lat.cnt (k : Nat) (s : Lat F) : Lat F := { s with nbswaps := k }

def SLat.cnt (k : Nat) (L : SLat F) : SLat F := { L with lat := L.lat.cnt k }

@[simp] theorem Lat.cnt_cnt (j k : Nat) (s : Lat F) : (s.cnt j).cnt k = s.cnt k := rfl

theorem Lat.cnt_self (s : Lat F) : s.cnt s.nbswaps = s := rfl

theorem sizeUpdateLoop_cnt (κ k m : Nat) (s : Lat F) (b : Bool) :
    sizeUpdateLoop o κ m (s.cnt k, b) =
      ((sizeUpdateLoop o κ m (s, b)).1.cnt k, (sizeUpdateLoop o κ m (s, b)).2) := by
  induction m generalizing s b with
  | zero => rfl
  | succ m ih =>
    simp only [sizeUpdateLoop]
    have : sizeUpdateStep o κ m (s.cnt k, b) =
        ((sizeUpdateStep o κ m (s, b)).1.cnt k, (sizeUpdateStep o κ m (s, b)).2) := by
      unfold sizeUpdateStep
      simp only []
      have e : (s.cnt k).fp = s.fp := rfl
      rw [e]
      cases o.isZero (o.rnd (o.div (s.fp.R κ m) (s.fp.R m m))) <;> rfl
    rw [this, ih]

theorem sizeUpdateRLoop_cnt (κ k m : Nat) (s : Lat F) (q : (Nat → F) × Bool) :
    sizeUpdateRLoop o κ m (s.cnt k, q) =
      ((sizeUpdateRLoop o κ m (s, q)).1.cnt k, (sizeUpdateRLoop o κ m (s, q)).2) := by
  induction m generalizing s q with
  | zero => rfl
  | succ m ih =>
    simp only [sizeUpdateRLoop]
    have : sizeUpdateRStep o κ m (s.cnt k, q) =
        ((sizeUpdateRStep o κ m (s, q)).1.cnt k, (sizeUpdateRStep o κ m (s, q)).2) := by
      unfold sizeUpdateRStep
      simp only []
      split <;> rename_i h
      · rw [if_pos (by exact h)]; rfl
      · rw [if_neg (by exact h)]; rfl
    rw [this, ih]

theorem hsizePass_cnt (κ m k : Nat) (s : Lat F) :
    hsizePass o κ m (s.cnt k) = ((hsizePass o κ m s).1.cnt k, (hsizePass o κ m s).2) := by
  unfold hsizePass
  simp only []
  by_cases h : s.numS = 1 ∨ (κ : Int) - 1 < s.parThr
  · rw [if_pos (by exact h), if_pos h]; exact sizeUpdateLoop_cnt o κ k m s false
  · rw [if_neg (by exact h), if_neg h, sizeUpdateRLoop_cnt]; rfl

theorem hsizeLoop_cnt (κ m k : Nat) (fuel : Nat) (b : Bool) (s : Lat F) :
    hsizeLoop o κ m fuel b (s.cnt k) = (hsizeLoop o κ m fuel b s).map fun r => (r.1, r.2.cnt k) := by
  induction fuel generalizing b s with
  | zero => rfl
  | succ fuel ih =>
    simp only [hsizeLoop, hsizePass_cnt]
    generalize hsizePass o κ m s = q
    by_cases h1 : q.2 = true
    · rw [if_pos h1, if_pos h1]
      set t : Lat F := ({ q.1 with fp := { q.1.fp with colKept := setAt q.1.fp.colKept κ false } } : Lat F).hhR o κ
        with ht
      set t' : Lat F := ({ q.1.cnt k with fp := { (q.1.cnt k).fp with colKept := setAt (q.1.cnt k).fp.colKept κ false } } : Lat F).hhR o κ
        with ht'
      have e : t' = t.cnt k := rfl
      have e2 : t'.fp = t.fp := rfl
      have e3 : (q.1.cnt k).fp = q.1.fp := rfl
      rw [e2, e3]
      split
      · split <;> simp [e]
      · rw [e]; exact ih _ _
    · rw [if_neg h1, if_neg h1]; rfl

theorem hsizereduce_cnt (fuel κ fromk k : Nat) (s : Lat F) :
    hsizereduce o fuel κ fromk (s.cnt k) =
      (hsizereduce o fuel κ fromk s).map fun r => (r.1, r.2.cnt k) :=
  hsizeLoop_cnt o κ _ k fuel true (s.hhR o κ)

/-! ### Seysen -/

def SSey.cnt (k : Nat) (q : SSey F) : SSey F := { q with s := q.s.cnt k }

theorem sseySolve_cnt (R : Mat F) (restdim m k : Nat) (q : SSey F) :
    sseySolve o c R restdim m (q.cnt k) = (sseySolve o c R restdim m q).cnt k := by
  induction m generalizing q with
  | zero => rfl
  | succ m ih =>
    simp only [sseySolve]
    rw [← ih]; rfl

theorem sseyUpdate_cnt (κ restdim : Nat) (vx : Nat → F) (bd : Nat → Bool) (m k : Nat) (s : Lat F) :
    sseyUpdate o κ restdim vx bd m (s.cnt k) = (sseyUpdate o κ restdim vx bd m s).cnt k := by
  induction m generalizing s with
  | zero => rfl
  | succ m ih =>
    simp only [sseyUpdate]
    rw [← ih]
    congr 1
    unfold sseyUpdateStep
    split <;> rfl

theorem sseyUpdateR_cnt (κ restdim : Nat) (vx : Nat → F) (bd : Nat → Bool) (m k : Nat) (s : Lat F) :
    sseyUpdateR o κ restdim vx bd m (s.cnt k) = (sseyUpdateR o κ restdim vx bd m s).cnt k := by
  induction m generalizing s with
  | zero => rfl
  | succ m ih =>
    simp only [sseyUpdateR]
    rw [← ih]
    congr 1
    split <;> rfl

section sched
variable {σ τ : Sched} (hσ : σ.Ok) (hτ : τ.Ok)
include hσ hτ

theorem psseyUpdateB_sched (key : List Nat) (κ restdim m S : Nat) (hm : restdim + m ≤ κ) (vx : Nat → F)
    (bd : Nat → Bool) (k : Nat) (s : Lat F) :
    psseyUpdateB o σ key κ restdim m S vx bd (s.cnt k) =
      (psseyUpdateB o τ key κ restdim m S vx bd s).cnt k := by
  unfold psseyUpdateB
  simp only [pssey_sched o hσ key _ κ restdim m S _ hm, pssey_sched o hτ key _ κ restdim m S _ hm]
  rfl

theorem sseyBlock_sched (key : List Nat) (κ ld ind k : Nat) (q : SSey F) :
    sseyBlock o c σ key κ ld ind (q.cnt k) = (sseyBlock o c τ key κ ld ind q).cnt k := by
  unfold sseyBlock
  simp only []
  generalize (if κ / ld % 2 = 0 then 0 else ld) = bdim
  set q1 : SSey F := { q with tmpcol := fun i => if κ - ind - bdim ≤ i ∧ i < κ - ind then q.s.fp.R κ i else q.tmpcol i } with hq1
  have e : ({ q.cnt k with tmpcol := fun i => if κ - ind - bdim ≤ i ∧ i < κ - ind then (q.cnt k).s.fp.R κ i else (q.cnt k).tmpcol i } : SSey F) = q1.cnt k := rfl
  rw [e, sseySolve_cnt]
  have e1 : (q.cnt k).s.fp = q.s.fp := rfl
  rw [e1]
  generalize sseySolve o c q.s.fp.R (κ - ind - bdim) (κ - ind - (κ - ind - bdim)) q1 = q2
  split
  · show SSey.mk (sseyUpdate o κ _ _ _ _ (q2.s.cnt k)) _ _ _ _ = _
    rw [sseyUpdate_cnt]; rfl
  · show SSey.mk (psseyUpdateB o σ _ κ _ _ 2 _ _ (sseyUpdateR o κ _ _ _ _ (q2.s.cnt k))) _ _ _ _ = _
    rw [sseyUpdateR_cnt, psseyUpdateB_sched o hσ hτ _ κ _ _ 2 (by omega)]; rfl

theorem sseyBlocks_sched (key : List Nat) (κ fuel ld ind k : Nat) (q : SSey F) :
    sseyBlocks o c σ key κ fuel ld ind (q.cnt k) = (sseyBlocks o c τ key κ fuel ld ind q).cnt k := by
  induction fuel generalizing ld ind q with
  | zero => rfl
  | succ fuel ih =>
    simp only [sseyBlocks]
    split
    · rw [sseyBlock_sched o c hσ hτ, ih]
    · rfl

theorem sseyLoop_sched (key : List Nat) (κ fuel k : Nat) (q : SSey F) :
    sseyLoop o c σ key κ fuel (q.cnt k) = (sseyLoop o c τ key κ fuel q).map (·.cnt k) := by
  induction fuel generalizing q with
  | zero => rfl
  | succ fuel ih =>
    simp only [sseyLoop]
    have := sseyBlocks_sched o c hσ hτ (fuel :: key) κ (κ + 1) 1 0 k { q with somedone := false }
    have e : ({ q.cnt k with somedone := false } : SSey F) = SSey.cnt k { q with somedone := false } := rfl
    rw [e, this]
    generalize sseyBlocks o c τ (fuel :: key) κ (κ + 1) 1 0 { q with somedone := false } = q2
    have e2 : (q2.cnt k).somedone = q2.somedone := rfl
    rw [e2]
    split
    · rw [← ih]; rfl
    · rfl

theorem sreduceCol_sched (key : List Nat) (fuel i k : Nat) (s : Lat F) :
    sreduceCol o c σ key fuel i (s.cnt k) = (sreduceCol o c τ key fuel i s).map (·.cnt k) := by
  unfold sreduceCol
  by_cases h : s.seysenFlag < 1
  · rw [if_pos (by exact h), if_pos h, hsizereduce_cnt, Option.map_map, Option.map_map]; rfl
  · rw [if_neg (by exact h), if_neg h]
    exact sseyLoop_sched o c hσ hτ (i :: key) i fuel k
      { s := s.hhR o i, tmpcol := fun _ => o.zero, vectx := fun _ => o.zero
        bounded := fun _ => false, somedone := false }

theorem gapLoop_sched (key : List Nat) (fuel dorigin m i k : Nat) (s : Lat F) :
    gapLoop o c σ key fuel dorigin m i (s.cnt k) =
      (gapLoop o c τ key fuel dorigin m i s).map fun r => (r.1, r.2.cnt k) := by
  induction m generalizing i s with
  | zero => rfl
  | succ m ih =>
    simp only [gapLoop, sreduceCol_sched o c hσ hτ]
    cases sreduceCol o c τ key fuel i s with
    | none => rfl
    | some s1 =>
      simp only [Option.map_some]
      have e : (s1.cnt k).hhV o i = (s1.hhV o i).cnt k := rfl
      rw [e]
      have e2 : ((s1.hhV o i).cnt k).fp = (s1.hhV o i).fp := rfl
      rw [e2]
      split
      · rfl
      · exact ih _ _

theorem reduceAndGap_sched (key : List Nat) (fuel k : Nat) (L : SLat F) :
    reduceAndGap o c σ key fuel (L.cnt k) =
      (reduceAndGap o c τ key fuel L).map fun r => (r.1, r.2.cnt k) := by
  unfold reduceAndGap
  simp only []
  have := gapLoop_sched o c hσ hτ key fuel L.dorigin (L.dorigin - 1) 1 k
    ((({ L.lat with fp := { L.lat.fp with
      colKept := fun i => if i < L.dorigin then false else L.lat.fp.colKept i
      descendu := fun i => if i < L.dorigin then 0 else L.lat.fp.descendu i } } : Lat F).hhR o 0).hhV o 0)
  refine (congrArg (Option.map fun r => (r.1, { L with lat := r.2 })) this).trans ?_
  rw [Option.map_map, Option.map_map]
  rfl

theorem sphase_sched (junk : F) (key : List Nat) (fuel : Nat) (δ : F) (S lovmax : Nat) (odd : Bool)
    (k : Nat) (L : SLat F) :
    (sphase o c σ junk key fuel δ S lovmax odd (L.cnt k)).map (fun r => (r.1, r.2.1, r.2.2.cnt 0)) =
      (sphase o c τ junk key fuel δ S lovmax odd L).map (fun r => (r.1, r.2.1, r.2.2.cnt 0)) := by
  unfold sphase
  simp only []
  have e1 : (L.cnt k).lat.d = L.lat.d := rfl
  have e2 : (L.cnt k).lat.fp = L.lat.fp := rfl
  have e3 : (L.cnt k).lat.n = L.lat.n := rfl
  have e4 : (L.cnt k).lat.seysenFlag = L.lat.seysenFlag := rfl
  have e5 : (L.cnt k).lat.verboseDepth = L.lat.verboseDepth := rfl
  have e6 : (L.cnt k).lat.B = L.lat.B := rfl
  rw [e1, e2, e3, e4, e5, e6]
  split
  · rfl
  rename_i BRs hBR
  rw [sput_sched hσ, sput_sched hτ, spmatprod_sched hσ, spmatprod_sched hτ]
  generalize hUs : blockUs BRs = Us
  generalize sput Sched.seq key L.lat.d S _ _ Us _ = U
  generalize spmatprod Sched.seq key L.lat.n _ _ odd U L.lat.B = B'
  set L1 : SLat F := { L with
      swapstab := addSwaps odd BRs L.swapstab
      lat := { L.lat with
        nbswaps := τ.race key L.lat.nbswaps (BRs.map (·.nbswaps))
        nblov := L.lat.nblov + (BRs.map (·.nblov)).sum
        U := U
        B := B'
        ub := L.lat.ub || BRs.any (·.ub) ||
          !sphaseIdx L.lat.n L.lat.d S (if odd = true then S - 1 else S) (if odd = true then L.lat.d / (2 * S) else 0)
            L.swapLen odd } } with hL1
  have key' := reduceAndGap_sched o c hσ hτ key fuel (σ.race key k (BRs.map (·.nbswaps))) L1
  have hP : ∀ t : Bool, Option.map (fun r : Bool × Nat × SLat F => (r.1, r.2.1, r.2.2.cnt 0))
      (match reduceAndGap o c σ key fuel (L1.cnt (σ.race key k (BRs.map (·.nbswaps)))) with
        | none => none
        | some (gap, L) => some (t, gap, if 2 ≤ gap then L else L.padR o)) =
      Option.map (fun r : Bool × Nat × SLat F => (r.1, r.2.1, r.2.2.cnt 0))
      (match reduceAndGap o c τ key fuel L1 with
        | none => none
        | some (gap, L) => some (t, gap, if 2 ≤ gap then L else L.padR o)) := by
    intro t
    rw [key']
    cases reduceAndGap o c τ key fuel L1 with
    | none => rfl
    | some r =>
      simp only [Option.map_some]
      split <;> rfl
  exact hP _

theorem sphases_sched (junk δ : F) (S lovmax fuel k : Nat) (L : SLat F) :
    (sphases o c σ junk δ S lovmax fuel (L.cnt k)).map (fun r => (r.1, r.2.cnt 0)) =
      (sphases o c τ junk δ S lovmax fuel L).map (fun r => (r.1, r.2.cnt 0)) := by
  induction fuel generalizing k L with
  | zero => rfl
  | succ fuel ih =>
    simp only [sphases]
    have h0 := sphase_sched o c hσ hτ junk [0, fuel] (fuel + 1) δ S lovmax false k L
    cases e1 : sphase o c σ junk [0, fuel] (fuel + 1) δ S lovmax false (L.cnt k) with
    | none =>
      cases e2 : sphase o c τ junk [0, fuel] (fuel + 1) δ S lovmax false L with
      | none => rfl
      | some r => rw [e1, e2] at h0; simp at h0
    | some r =>
      cases e2 : sphase o c τ junk [0, fuel] (fuel + 1) δ S lovmax false L with
      | none => rw [e1, e2] at h0; simp at h0
      | some r' =>
        rw [e1, e2] at h0
        obtain ⟨st, g, L1⟩ := r
        obtain ⟨st', g', L1'⟩ := r'
        simp only [Option.map_some, Option.some.injEq, Prod.mk.injEq] at h0
        obtain ⟨rfl, rfl, h0⟩ := h0
        simp only []
        split
        · simp only [Option.map_some, h0]
        · have eL : L1 = L1'.cnt L1.lat.nbswaps := by
            have : L1 = (L1.cnt 0).cnt L1.lat.nbswaps := rfl
            rw [this, h0]; rfl
          have h1 := sphase_sched o c hσ hτ junk [1, fuel] (fuel + 1) δ S lovmax true L1.lat.nbswaps L1'
          rw [← eL] at h1
          cases e3 : sphase o c σ junk [1, fuel] (fuel + 1) δ S lovmax true L1 with
          | none =>
            cases e4 : sphase o c τ junk [1, fuel] (fuel + 1) δ S lovmax true L1' with
            | none => rfl
            | some r => rw [e3, e4] at h1; simp at h1
          | some r =>
            cases e4 : sphase o c τ junk [1, fuel] (fuel + 1) δ S lovmax true L1' with
            | none => rw [e3, e4] at h1; simp at h1
            | some r' =>
              rw [e3, e4] at h1
              obtain ⟨st1, g1, L2⟩ := r
              obtain ⟨st1', g1', L2'⟩ := r'
              simp only [Option.map_some, Option.some.injEq, Prod.mk.injEq] at h1
              obtain ⟨rfl, rfl, h1⟩ := h1
              simp only []
              split
              · simp only [Option.map_some, h1]
              · split
                · simp only [Option.map_some, h1]
                · have eL2 : L2 = L2'.cnt L2.lat.nbswaps := by
                    have : L2 = (L2.cnt 0).cnt L2.lat.nbswaps := rfl
                    rw [this, h1]; rfl
                  rw [eL2]; exact ih _ _

/-- The result of `hlll`, up to the counter `nbswaps`, depends neither on the schedules nor on the race. -/
theorem slll_sched (junk : F) (fuel : Nat) (δ : F) (S lovmax : Nat) (L : SLat F) :
    (L.hlll o c σ junk fuel δ S lovmax).map (fun r => (r.1, r.2.cnt 0)) =
      (L.hlll o c τ junk fuel δ S lovmax).map (fun r => (r.1, r.2.cnt 0)) := by
  unfold SLat.hlll
  simp only []
  set L1 : SLat F := { L with lat := { L.lat with verboseDepth := L.lat.verboseDepth - 1 } } with hL1
  have h := sphases_sched o c hσ hτ junk δ S lovmax fuel L1.lat.nbswaps ((L1.householder o).padR o)
  have e : ((L1.householder o).padR o).cnt L1.lat.nbswaps = (L1.householder o).padR o := rfl
  rw [e] at h
  cases e1 : sphases o c σ junk δ S lovmax fuel ((L1.householder o).padR o) with
  | none =>
    cases e2 : sphases o c τ junk δ S lovmax fuel ((L1.householder o).padR o) with
    | none => rfl
    | some r => rw [e1, e2] at h; simp at h
  | some r =>
    cases e2 : sphases o c τ junk δ S lovmax fuel ((L1.householder o).padR o) with
    | none => rw [e1, e2] at h; simp at h
    | some r' =>
      rw [e1, e2] at h
      obtain ⟨g, L2⟩ := r
      obtain ⟨g', L2'⟩ := r'
      simp only [Option.map_some, Option.some.injEq, Prod.mk.injEq] at h ⊢
      obtain ⟨rfl, h⟩ := h
      refine ⟨rfl, ?_⟩
      have := congrArg (fun L : SLat F => ({ L with lat := { L.lat with verboseDepth := L.lat.verboseDepth + 1 } } : SLat F)) h
      exact this

end sched
end HPLLL
