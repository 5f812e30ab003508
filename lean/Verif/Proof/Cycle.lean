import Lean.Elab.Tactic.Basic
import Verif.Model.Near
import Verif.Proof.Plain
import Mathlib.LinearAlgebra.Matrix.Block
import Mathlib.Data.Fintype.Basic
/-! A size reduction which never ends: the basis is a fixpoint of two passes (see `Props/Returns`). -/

namespace HPLLL

open Lean Elab Tactic Meta in
/-- Closes `a = b` with `Eq.refl a`, left to the kernel to check. -/
elab "kernel_rfl" : tactic => do
  let g ← getMainGoal
  let t ← instantiateMVars (← g.getType)
  match t.eq? with
  | some (_, a, _) => g.assign (← mkEqRefl a)
  | none => throwError "not an equality"

variable {F : Type}

theorem plain_eq_lawful (o : FPOps F) (n : Nat) : Nonempty ((plain o).Lawful o n (fun _ a b => a = b)) :=
  ⟨plain_lawful o n (fun _ a b => a = b) (fun _ _ h => h) (fun _ _ h => h) (fun _ => rfl)⟩

/-- The loop does not see what `Post` does not relate. -/
theorem hsizeLoop_none_congr (o : FPOps F) {n d κ : Nat} {A : Mat Int} {track : Prop} (hκ : 0 < κ)
    (hκd : κ < d) (hA : Spec.FullColumnRank (Spec.toMatrix n d A)) (fuel : Nat) (b : Bool)
    (s t : Lat F) (hs : LInv n d A track s) (ht : LInv n d A track t)
    (h1 : Sim.Post (plain o) (fun _ a b => a = b) n d κ t.gen s)
    (h2 : Sim.Post (plain o) (fun _ a b => a = b) n d κ t.gen t)
    (h : hsizeLoop o κ κ fuel b s = none) : hsizeLoop o κ κ fuel b t = none := by
  obtain ⟨hc⟩ := plain_eq_lawful o n
  have r1 := Sim.hsizeLoop_sim hc hκ hκd hA fuel b t.gen s hs h1
  have r2 := Sim.hsizeLoop_sim hc hκ hκd hA fuel b t.gen t ht h2
  rw [h] at r1
  cases hg : Gen.hsizeLoop o (plain o) κ κ fuel b t.gen with
  | some X => rw [hg] at r1; exact r1.elim
  | none =>
    rw [hg] at r2
    cases ht : hsizeLoop o κ κ fuel b t with
    | none => rfl
    | some x => rw [ht] at r2; exact r2.elim

theorem hsizeLoop_cycle (o : FPOps F) {n d κ : Nat} {A : Mat Int} {track : Prop} (hκ : 0 < κ)
    (hκd : κ < d) (hA : Spec.FullColumnRank (Spec.toMatrix n d A))
    (s t : Lat F) (hs : LInv n d A track s) (ht : LInv n d A track t)
    (h1 : Sim.Post (plain o) (fun _ a b => a = b) n d κ t.gen s)
    (h2 : Sim.Post (plain o) (fun _ a b => a = b) n d κ t.gen t)
    (hcyc : ∀ f, hsizeLoop o κ κ (f + 2) true s = hsizeLoop o κ κ f true t) :
    ∀ f, hsizeLoop o κ κ f true s = none := by
  intro f
  induction f using Nat.strong_induction_on with
  | _ f ih =>
    match f with
    | 0 => rfl
    | 1 =>
      cases h : hsizeLoop o κ κ 1 true s with
      | none => rfl
      | some r =>
        have := hsizeLoop_mono o κ κ 1 1 true s r h
        rw [show 1 + 1 = 0 + 2 from rfl, hcyc 0] at this
        simp [hsizeLoop] at this
    | f + 2 =>
      rw [hcyc f]
      exact hsizeLoop_none_congr o hκ hκd hA f true s t hs ht h1 h2 (ih f (by omega))

/-- One pass of the loop of `hsizereduce` that is not the last. -/
def nextPass (o : FPOps F) (κ : Nat) (s : Lat F) : Lat F :=
  let s := (hsizePass o κ κ s).1
  Lat.hhR o κ { s with fp := { s.fp with colKept := setAt s.fp.colKept κ false } }

theorem hsizeLoop_unfold2 (o : FPOps F) (κ : Nat) (s : Lat F)
    (p1 : (hsizePass o κ κ s).2 = true) (p2 : (hsizePass o κ κ (nextPass o κ s)).2 = true)
    (hn : o.lt ((nextPass o κ (nextPass o κ s)).fp.normB2 κ)
      (o.mul o.tenth ((hsizePass o κ κ (nextPass o κ s)).1.fp.normB2 κ)) = true) (f : Nat) :
    hsizeLoop o κ κ (f + 2) true s = hsizeLoop o κ κ f true (nextPass o κ (nextPass o κ s)) := by
  rw [hsizeLoop]
  simp only [p1, if_true, Bool.not_true, Bool.false_and, Bool.false_eq_true, if_false]
  rw [hsizeLoop]
  have e : Lat.hhR o κ { (hsizePass o κ κ s).1 with fp := { (hsizePass o κ κ s).1.fp with
      colKept := setAt (hsizePass o κ κ s).1.fp.colKept κ false } } = nextPass o κ s := rfl
  rw [e]
  simp only [p2, if_true]
  have e2 : Lat.hhR o κ { (hsizePass o κ κ (nextPass o κ s)).1 with
      fp := { (hsizePass o κ κ (nextPass o κ s)).1.fp with
        colKept := setAt (hsizePass o κ κ (nextPass o κ s)).1.fp.colKept κ false } } =
      nextPass o κ (nextPass o κ s) := rfl
  rw [e2]
  simp only [hn, Bool.not_true, Bool.and_false, Bool.false_eq_true, if_false]

theorem add_sub_col (M : Mat Int) (j k l : Nat) (h : j ≠ k) : addcol (subcol M j k l) j k l = M := by
  funext c r
  unfold addcol subcol setCol
  by_cases hc : c = j
  · subst hc
    by_cases hr : r < l <;> simp [hr, Ne.symm h]
  · simp [hc]

/-! ## the run -/

/-- Columns (2 × 20, ...): LLL-reduced with parameter 0.99 but for the last vector. -/
def loopBasis : Mat Int := ofCols
  [[40, 0, 0, 0, 0, 0, 0], [19, 35, 0, 0, 0, 0, 0], [19, 17, 31, 0, 0, 0, 0],
   [19, 17, 15, 27, 0, 0, 0], [19, 17, 15, 13, 24, 0, 0], [19, 17, 15, 13, 11, 22, 0],
   [0, 0, 0, 0, 0, 11, 1]]

namespace Loop7

abbrev o7 := nearOps 53
/-- `0.99` -/
def d7 : Rat := rnQ 53 (mkRat 99 100)
def L7 : Lat Rat := newLattice o7 0 7 7 loopBasis false 0 true 0

/-- States at the beginning of the iterations. -/
def H : Nat → HState Rat
  | 0 => hlllInit o7 L7
  | k + 1 => match hlllStep o7 2 d7 (H k) with
    | .next h => h
    | _ => H k

def isNext : HStep F → Bool
  | .next _ => true
  | _ => false

theorem steps : (List.range 5).all (fun k => isNext (hlllStep o7 2 d7 (H k)) &&
    (H k).kappa == k + 1 && (H k).s.nblov == k && (H k).s.kappaMax == 7 &&
    (H k).s.nblovMax == 4294967295) = true := by decide +kernel

theorem last : (H 5).kappa = 6 ∧ (H 5).s.nblov = 5 ∧ (H 5).s.kappaMax = 7 ∧
    (H 5).s.nblovMax = 4294967295 ∧ (H 5).s.seysenFlag = 0 := by decide +kernel

def s1 : Lat Rat := (hlllPrep o7 6 (H 5).s).hhR o7 6
def s2 : Lat Rat := nextPass o7 6 s1
def s3 : Lat Rat := nextPass o7 6 s2

def z1 : ZPart :=
  { n := 7, d := 7, transf := false, B := loopBasis, U := idMat, kappaMax := 7
    nblovMax := 4294967295, str := matrixStructure 7 loopBasis, nblov := 5, nbswaps := 0, numS := 1
    parThr := 1000000, seysenFlag := 0, fastLong := true, verboseDepth := 0, ub := false }

theorem s1_z : s1.z = z1 := by kernel_rfl

theorem s3_z' : s3.z = { z1 with B := addcol (subcol loopBasis 6 5 6) 6 5 6 } := by kernel_rfl

theorem s3_z : s3.z = z1 := by rw [s3_z', add_sub_col _ _ _ _ (by decide)]; rfl

theorem passes : (hsizePass o7 6 6 s1).2 = true ∧ (hsizePass o7 6 6 s2).2 = true ∧
    o7.lt (s3.fp.normB2 6) (o7.mul o7.tenth ((hsizePass o7 6 6 s2).1.fp.normB2 6)) = true := by
  decide +kernel

/-- The two states agree on everything `hlll` uses. -/
theorem same13 :
    (∀ k < 6, ∀ r < 7, s3.fp.V k r = s1.fp.V k r) ∧
    (∀ k < 7, ∀ r < 7, s3.fp.R k r = s1.fp.R k r) ∧
    (∀ k < 7, ∀ r < 7, s3.fp.Bfp k r = s1.fp.Bfp k r) ∧
    (∀ k < 7, s3.fp.colKept k = s1.fp.colKept k) ∧
    (∀ k < 7, s3.fp.normB2 k = s1.fp.normB2 k) ∧
    (∀ k < 7, s3.fp.kappamin k = s1.fp.kappamin k) ∧
    (∀ k < 7, s3.fp.descendu k = s1.fp.descendu k) := by decide +kernel

theorem same13' :
    (∀ k < 7, ∀ r < k, s3.fp.VR k r = s1.fp.VR k r) ∧
    (∀ k < 6, ∀ r < 7, s3.fp.Rkept k r = s1.fp.Rkept k r) ∧
    s3.fp.nmaxkappa = s1.fp.nmaxkappa := by decide +kernel

theorem facts1 : (∀ k < 7, s1.fp.colKept k = true) ∧ (∀ k < 7, s1.fp.kappamin k = k) ∧
    s1.fp.nmaxkappa = 7 ∧ nmaxOf z1.str 6 = 7 := by decide +kernel

theorem facts1s : (∀ j < 7, z1.str j < 7) ∧ (∀ i < 7, ∀ j < 7, i ≤ j → z1.str i ≤ z1.str j) ∧
    (∀ j < 7, ∀ r : Nat, r < 7 → z1.str j < r → loopBasis j r = 0) := by decide +kernel

theorem rank7 : Spec.FullColumnRank (Spec.toMatrix 7 7 loopBasis) := by
  have ht : (Spec.toMatrix 7 7 loopBasis).BlockTriangular id := by
    have h : ∀ i < 7, ∀ j < i, loopBasis j i = 0 := by decide
    exact fun i j hij => h i i.2 j hij
  have : (Spec.toMatrix 7 7 loopBasis).det ≠ 0 := by
    rw [Matrix.det_of_isUpperTriangular ht]; decide
  exact Matrix.linearIndependent_cols_of_det_ne_zero this

theorem inv1 : LInv 7 7 loopBasis False s1 := by
  have hz := s1_z
  have e1 : s1.n = 7 := congrArg ZPart.n hz
  have e2 : s1.d = 7 := congrArg ZPart.d hz
  have e3 : s1.str = z1.str := congrArg ZPart.str hz
  have e4 : s1.B = loopBasis := congrArg ZPart.B hz
  obtain ⟨a, b, c⟩ := facts1s
  refine ⟨e1, e2, ?_, ?_, ?_, fun h => h.elim, fun h => h.elim, fun h => h.elim, 1, by simp, ?_,
    fun h => h.elim⟩
  · rw [e3]; exact a
  · rw [e3]; intro i j h1 h2; exact b i (by omega) j h2 h1
  · rw [e3, e4]; exact c
  · rw [e4, Matrix.mul_one]

theorem inv3 : LInv 7 7 loopBasis False s3 := by
  have h : s3.z = s1.z := by rw [s3_z, s1_z]
  exact inv1.congr (congrArg ZPart.n h) (congrArg ZPart.d h) (congrArg ZPart.str h)
    (congrArg ZPart.B h) (congrArg ZPart.U h) (congrArg ZPart.transf h) (congrArg ZPart.numS h)
    (congrArg ZPart.parThr h)

theorem post31 : Sim.Post (plain o7) (fun _ a b => a = b) 7 7 6 s3.gen s1 := by
  obtain ⟨a1, a2, a3, a4, a5, a6, a7⟩ := same13
  obtain ⟨b1, b2, b3⟩ := same13'
  obtain ⟨c1, c2, c3, c4⟩ := facts1
  have e3 : s1.str = z1.str := congrArg ZPart.str s1_z
  have hsf : s1.seysenFlag = 0 := congrArg ZPart.seysenFlag s1_z
  refine ⟨⟨(s3_z.trans s1_z.symm), fun h => absurd (by rw [hsf]; decide) h⟩, ?_, ?_⟩
  · constructor
    · intro k hk r _ hr; exact a1 k hk r hr
    · intro k hk i hi; exact a2 k (by omega) i (by omega)
    · intro j hj r _ hr; exact a3 j hj r hr
    · intro j hj r hr; exact a3 j hj r hr
    · exact a4
    · intro j hj _ _
      exact ⟨a3 j hj, a5 j hj, a6 j hj, by rw [c2 j hj]; omega⟩
    · intro j hj; exact ⟨c1 j (by omega), c2 j (by omega), b1 j (by omega)⟩
    · intro j h1 h2; omega
    · exact a7
    · intro j h1 h2; omega
  · rw [e3, c4]
    exact ⟨b3.trans c3, c3, c1 6 (by omega), a3 6 (by omega), a5 6 (by omega), a6 6 (by omega),
      c2 6 (by omega), ⟨fun k hk r _ hr => b2 k hk r hr, b1 6 (by omega)⟩, a2 6 (by omega)⟩

theorem post33 : Sim.Post (plain o7) (fun _ a b => a = b) 7 7 6 s3.gen s3 := by
  obtain ⟨a1, a2, a3, a4, a5, a6, a7⟩ := same13
  obtain ⟨b1, b2, b3⟩ := same13'
  obtain ⟨c1, c2, c3, c4⟩ := facts1
  have e3 : s3.str = z1.str := congrArg ZPart.str s3_z
  refine ⟨⟨rfl, fun _ _ => rfl⟩, ?_, ?_⟩
  · constructor
    · intro k _ r _ _; rfl
    · intro k _ i _; rfl
    · intro j _ r _ _; rfl
    · intro j _ r _; rfl
    · intro j _; rfl
    · intro j hj _ _
      exact ⟨fun _ _ => rfl, rfl, rfl, by rw [a6 j hj, c2 j hj]; omega⟩
    · intro j hj
      exact ⟨by rw [a4 j (by omega), c1 j (by omega)], by rw [a6 j (by omega), c2 j (by omega)],
        fun _ _ => rfl⟩
    · intro j h1 h2; omega
    · intro j _; rfl
    · intro j h1 h2; omega
  · rw [e3, c4]
    exact ⟨b3.trans c3, b3.trans c3, by rw [a4 6 (by omega), c1 6 (by omega)], fun _ _ => rfl, rfl, rfl,
      by rw [a6 6 (by omega), c2 6 (by omega)], ⟨fun _ _ _ _ _ => rfl, fun _ _ => rfl⟩, fun _ _ => rfl⟩

theorem loop_none (f : Nat) : hsizeLoop o7 6 6 f true s1 = none :=
  hsizeLoop_cycle o7 (by omega) (by omega) rank7 s1 s3 inv1 inv3 post31 post33
    (hsizeLoop_unfold2 o7 6 s1 passes.1 passes.2.1 passes.2.2) f

theorem step_diverges (f : Nat) : hlllStep o7 f d7 (H 5) = .diverge := by
  have h6 := last.1
  unfold hlllStep
  simp only [h6]
  have hf : (hlllPrep o7 6 (H 5).s).seysenFlag < 1 := by decide +kernel
  have e : hlllReduce o7 f 6 (hlllPrep o7 6 (H 5).s) = none := by
    unfold hlllReduce
    rw [if_pos hf]
    unfold hsizereduce
    simp only [Nat.lt_irrefl, if_false]
    exact loop_none f
  rw [e]

theorem step_next (k : Nat) (hk : k < 5) : hlllStep o7 2 d7 (H k) = .next (H (k + 1)) ∧
    (H k).kappa < (H k).s.kappaMax ∧ (H k).s.nblov < (H k).s.nblovMax := by
  have h := List.all_eq_true.mp steps k (List.mem_range.mpr hk)
  simp only [Bool.and_eq_true, beq_iff_eq] at h
  obtain ⟨⟨⟨⟨h1, h2⟩, h3⟩, h4⟩, h5⟩ := h
  refine ⟨?_, by omega, by omega⟩
  rw [H]
  cases hs : hlllStep o7 2 d7 (H k) with
  | next h => rfl
  | fail s => rw [hs] at h1; simp [isNext] at h1
  | diverge => rw [hs] at h1; simp [isNext] at h1

theorem main_none (k : Nat) (hk : k ≤ 5) (f : Nat) : hlllLoop o7 d7 f (H (5 - k)) = none := by
  cases hr : hlllLoop o7 d7 f (H (5 - k)) with
  | none => rfl
  | some r =>
    exfalso
    have hr := hlllLoop_mono o7 d7 f 10 _ _ hr
    induction k generalizing f with
    | zero =>
      rw [show f + 10 = (f + 9) + 1 by omega, hlllLoop] at hr
      simp only [Nat.sub_zero] at hr
      rw [step_diverges] at hr
      obtain ⟨h1, h2, h3, h4, _⟩ := last
      rw [if_pos ⟨by omega, by omega⟩] at hr
      simp at hr
    | succ k ih =>
      have hs := step_next (5 - (k + 1)) (by omega)
      rw [show f + 10 = (f + 9) + 1 by omega, hlllLoop, if_pos hs.2] at hr
      have hm := hlllStep_mono o7 d7 2 (f + 9 + 1 - 2) _ _ hs.1 (by simp)
      rw [show 2 + (f + 9 + 1 - 2) = f + 9 + 1 by omega] at hm
      rw [hm, show 5 - (k + 1) + 1 = 5 - k by omega] at hr
      simp only [] at hr
      have hr' := hlllLoop_mono o7 d7 (f + 9) 10 _ _ hr
      exact ih (by omega) (f + 9) hr hr'

end Loop7
end HPLLL
