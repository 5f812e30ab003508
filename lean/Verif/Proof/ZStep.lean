import Verif.Proof.IntOps
import Mathlib.Logic.Relation
/-! The integer effect of the column reductions: every reduction of column `κ` is a sequence of
elementary steps `ZStep`, whatever the floating point operations return. -/

namespace HPLLL
open Spec Matrix

variable {F : Type} (o : FPOps F)

/-- Elementary effects of a reduction of column `κ`. -/
inductive ZStep (κ : Nat) : Lat F → Lat F → Prop
  | fp (s : Lat F) (p : FPart F) (b : Bool) : ZStep κ s { s with fp := p, ub := b }
  | col (s : Lat F) (p : FPart F) (b : Bool) (i : Nat) (c : Int) (h : i < κ) :
      ZStep κ s { s with
        B := axpy s.B κ i c (nmaxOf s.str i)
        U := if s.transf then axpy s.U κ i c (min s.d (nmaxOf s.str i)) else s.U
        fp := p, ub := b }
  | pcol (s : Lat F) (i : Nat) (c : Int) (l : Nat) (h : i < κ)
      (hl : nmaxOf s.str i ≤ l) (hp : ¬(s.numS = 1 ∨ (κ : Int) - 1 < s.parThr)) :
      ZStep κ s { s with B := axpy s.B κ i c l }

abbrev ZSteps (κ : Nat) : Lat F → Lat F → Prop := Relation.ReflTransGen (ZStep κ)

theorem ZStep.single {κ} {s s' : Lat F} (h : ZStep κ s s') : ZSteps κ s s' :=
  Relation.ReflTransGen.single h

theorem zs_fp (κ) (s : Lat F) (p b) : ZSteps κ s { s with fp := p, ub := b } := (ZStep.fp s p b).single

/-! ### sequential size update -/

theorem sizeUpdateStep_zs {κ i : Nat} (h : i < κ) (q : Lat F × Bool) :
    ZSteps κ q.1 (sizeUpdateStep o κ i q).1 := by
  unfold sizeUpdateStep
  simp only []
  split
  · exact zs_fp κ q.1 _ _
  · apply ZStep.single
    simp only [redZ_eq]
    exact ZStep.col q.1 _ _ i _ h

theorem sizeUpdateLoop_zs {κ : Nat} (m : Nat) (h : m ≤ κ) (q : Lat F × Bool) :
    ZSteps κ q.1 (sizeUpdateLoop o κ m q).1 := by
  induction m generalizing q with
  | zero => exact .refl
  | succ m ih =>
    exact (sizeUpdateStep_zs o (by omega) q).trans (ih (by omega) _)

/-! ### parallel size update -/

theorem sizeUpdateRStep_zs {κ i : Nat} (q : Lat F × (Nat → F) × Bool) :
    ∃ p b, (sizeUpdateRStep o κ i q).1 = { q.1 with fp := p, ub := b } := by
  unfold sizeUpdateRStep
  simp only []
  split
  · exact ⟨_, _, rfl⟩
  · exact ⟨_, _, rfl⟩

theorem sizeUpdateRLoop_zs {κ : Nat} (m : Nat) (q : Lat F × (Nat → F) × Bool) :
    ∃ p b, (sizeUpdateRLoop o κ m q).1 = { q.1 with fp := p, ub := b } := by
  induction m generalizing q with
  | zero => exact ⟨_, _, rfl⟩
  | succ m ih =>
    obtain ⟨p, b, h⟩ := ih (sizeUpdateRStep o κ m q)
    obtain ⟨p', b', h'⟩ := sizeUpdateRStep_zs o (κ := κ) (i := m) q
    refine ⟨p, b, ?_⟩
    rw [sizeUpdateRLoop, h, h']

/-- Sequential effect of the multipliers `vx` on rows `< l`. -/
def seqCols (o : FPOps F) (fl : Bool) (κ : Nat) (vx : Nat → F) (l : Nat) : Nat → Mat Int → Mat Int
  | 0, M => M
  | m + 1, M => seqCols o fl κ vx l m
      (if o.isZero (vx m) then M else axpy M κ m (multOf o fl (vx m) (vx m)) l)

/-- One row of column `κ` after the multipliers `m-1..0`. -/
def rowVal (o : FPOps F) (fl : Bool) (vx : Nat → F) (M : Mat Int) (r : Nat) : Nat → Int → Int
  | 0, a => a
  | m + 1, a => rowVal o fl vx M r m
      (if o.isZero (vx m) then a else a + multOf o fl (vx m) (vx m) * M m r)

theorem rowVal_congr (fl : Bool) (vx : Nat → F) (M M' : Mat Int) (r m : Nat) (a : Int)
    (h : ∀ i < m, M i r = M' i r) : rowVal o fl vx M r m a = rowVal o fl vx M' r m a := by
  induction m generalizing a with
  | zero => rfl
  | succ m ih =>
    simp only [rowVal]
    rw [h m (by omega), ih _ (fun i hi => h i (by omega))]

theorem seqCols_eq (fl : Bool) (κ : Nat) (vx : Nat → F) (l m : Nat) (hm : m ≤ κ) (M : Mat Int) :
    seqCols o fl κ vx l m M =
      setCol M κ (fun r => if r < l then rowVal o fl vx M r m (M κ r) else M κ r) := by
  induction m generalizing M with
  | zero =>
    funext j; by_cases hj : j = κ
    · subst hj; simp [seqCols, rowVal]
    · simp [seqCols, setCol_ne _ _ hj]
  | succ m ih =>
    simp only [seqCols]
    rw [ih (by omega)]
    funext j; by_cases hj : j = κ
    · subst hj
      simp only [setCol_same]
      funext r
      by_cases hr : r < l
      · simp only [hr, if_true]
        by_cases hz : o.isZero (vx m)
        · simp only [hz, if_true, rowVal]
        · simp only [hz, Bool.false_eq_true, if_false, rowVal, axpy]
          simp only [setCol_same, hr, if_true]
          apply rowVal_congr
          intro i hi
          rw [setCol_ne _ _ (by omega)]
      · by_cases hz : o.isZero (vx m)
        · simp [hz, hr]
        · simp [hz, hr, axpy]
    · rw [setCol_ne _ _ hj, setCol_ne _ _ hj]
      split
      · rfl
      · rw [axpy, setCol_ne _ _ hj]

theorem psizeThread_eq (fl : Bool) (κ : Nat) (vx : Nat → F) (ibeg nloc m : Nat) (hm : m ≤ κ)
    (M : Mat Int) :
    psizeThread o fl κ vx ibeg nloc m M =
      setCol M κ (fun r => if ibeg ≤ r ∧ r < nloc + ibeg then rowVal o fl vx M r m (M κ r)
        else M κ r) := by
  induction m generalizing M with
  | zero =>
    funext j; by_cases hj : j = κ
    · subst hj; simp [psizeThread, rowVal]
    · simp [psizeThread, setCol_ne _ _ hj]
  | succ m ih =>
    simp only [psizeThread]
    rw [ih (by omega)]
    by_cases hz : o.isZero (vx m)
    · simp only [predZ, hz, if_true, rowVal]
    · rw [predZ_eq _ _ _ _ _ _ _ _ (by simpa using hz)]
      funext j; by_cases hj : j = κ
      · subst hj
        simp only [setCol_same]
        funext r
        by_cases hr : ibeg ≤ r ∧ r < nloc + ibeg
        · simp only [hr, and_self, if_true, rowVal, hz, Bool.false_eq_true, if_false]
          apply rowVal_congr
          intro i hi
          rw [setCol_ne _ _ (by omega)]
        · simp [hr]
      · rw [setCol_ne _ _ hj, setCol_ne _ _ hj, setCol_ne _ _ hj]

/-! #### the slices tile `[0, nmax)` -/

theorem sliceBeg_succ (nmax S l : Nat) :
    sliceBeg nmax S (l + 1) = sliceBeg nmax S l + sliceLen nmax S l := by
  unfold sliceBeg sliceLen
  rw [Nat.mul_succ]
  by_cases h : l + 1 ≤ nmax % S
  · by_cases h2 : l + 1 + 1 ≤ nmax % S
    · simp only [h, h2, if_true]; omega
    · simp only [h, h2, if_true, if_false]; omega
  · have h2 : ¬ (l + 1 + 1 ≤ nmax % S) := by omega
    simp only [h, h2, if_false]; omega

theorem sliceBeg_zero (nmax S : Nat) : sliceBeg nmax S 0 = 0 := by
  unfold sliceBeg; split <;> omega

theorem sliceBeg_S (nmax S : Nat) (hS : 0 < S) : sliceBeg nmax S S = nmax := by
  unfold sliceBeg
  have := Nat.mod_lt nmax hS
  rw [if_neg (by omega), Nat.mul_comm]
  exact Nat.div_add_mod nmax S

theorem pfold_eq (fl : Bool) (κ : Nat) (vx : Nat → F) (nmax S m : Nat) (hm : m ≤ κ) (M : Mat Int)
    (k : Nat) :
    (List.range k).foldl
      (fun M l => psizeThread o fl κ vx (sliceBeg nmax S l) (sliceLen nmax S l) m M) M =
    seqCols o fl κ vx (sliceBeg nmax S k) m M := by
  induction k with
  | zero =>
    rw [seqCols_eq _ _ _ _ _ _ hm, sliceBeg_zero]
    funext j; by_cases hj : j = κ
    · subst hj; simp
    · simp [setCol_ne _ _ hj]
  | succ k ih =>
    rw [List.range_succ, List.foldl_append, ih]
    simp only [List.foldl_cons, List.foldl_nil]
    rw [psizeThread_eq _ _ _ _ _ _ _ hm, seqCols_eq _ _ _ _ _ _ hm, seqCols_eq _ _ _ _ _ _ hm,
      sliceBeg_succ]
    funext j; by_cases hj : j = κ
    · subst hj
      simp only [setCol_same]
      funext r
      by_cases h1 : r < sliceBeg nmax S k
      · rw [if_neg (by omega), if_pos h1, if_pos (by omega)]
      · by_cases h2 : r < sliceBeg nmax S k + sliceLen nmax S k
        · have e1 : sliceBeg nmax S k ≤ r ∧ r < sliceLen nmax S k + sliceBeg nmax S k := by omega
          simp only [e1, h1, h2, and_self, if_true, if_false]
          apply rowVal_congr
          intro i hi
          rw [setCol_ne _ _ (by omega)]
        · rw [if_neg (by omega), if_neg (by omega), if_neg (by omega)]
    · rw [setCol_ne _ _ hj, setCol_ne _ _ hj, setCol_ne _ _ hj]

theorem psizeUpdateB_eq (fl : Bool) (κ m : Nat) (str : Nat → Int) (vx : Nat → F) (S : Nat)
    (M : Mat Int) (hm : m ≤ κ) (hS : 0 < S) :
    psizeUpdateB o fl κ m str vx S M = seqCols o fl κ vx (psizeNmax str m) m M := by
  unfold psizeUpdateB
  simp only []
  rw [pfold_eq _ _ _ _ _ _ _ hm, sliceBeg_S _ _ hS]

theorem psizeUpdateB_zero (fl : Bool) (κ m : Nat) (str : Nat → Int) (vx : Nat → F) (M : Mat Int) :
    psizeUpdateB o fl κ m str vx 0 M = M := rfl

theorem foldl_max_le (str : Nat → Int) (l : List Nat) (a : Int) :
    a ≤ l.foldl (fun a i => max a (str i)) a ∧
      ∀ i ∈ l, str i ≤ l.foldl (fun a i => max a (str i)) a := by
  induction l generalizing a with
  | nil => simp
  | cons x l ih =>
    simp only [List.foldl_cons, List.mem_cons]
    have := ih (max a (str x))
    refine ⟨le_trans (le_max_left _ _) this.1, ?_⟩
    rintro i (rfl | hi)
    · exact le_trans (le_max_right _ _) this.1
    · exact this.2 i hi

theorem foldl_max_mem (str : Nat → Int) (l : List Nat) (a b : Int) (ha : a ≤ b)
    (h : ∀ i ∈ l, str i ≤ b) : l.foldl (fun a i => max a (str i)) a ≤ b := by
  induction l generalizing a with
  | nil => simpa
  | cons x l ih =>
    simp only [List.foldl_cons]
    exact ih _ (max_le ha (h x (by simp))) (fun i hi => h i (by simp [hi]))

theorem nmaxOf_le_psizeNmax (str : Nat → Int) (m i : Nat) (h : i ≤ m) :
    nmaxOf str i ≤ psizeNmax str m := by
  unfold nmaxOf psizeNmax
  have := (foldl_max_le str (List.range (m + 1)) (str (m - 1))).2 i (by simp; omega)
  omega

theorem seqCols_zs {κ : Nat} (fl : Bool) (vx : Nat → F) (l m : Nat) (s : Lat F) (hm : m ≤ κ)
    (hl : ∀ i < m, nmaxOf s.str i ≤ l) (hp : ¬(s.numS = 1 ∨ (κ : Int) - 1 < s.parThr)) :
    ZSteps κ s { s with B := seqCols o fl κ vx l m s.B } := by
  induction m generalizing s with
  | zero => exact .refl
  | succ m ih =>
    simp only [seqCols]
    split
    · exact ih s (by omega) (fun i hi => hl i (by omega)) hp
    · exact (ZStep.pcol s m _ l (by omega) (hl m (by omega)) hp).single.trans
        (ih { s with B := axpy s.B κ m (multOf o fl (vx m) (vx m)) l } (by omega)
          (fun i hi => hl i (by omega)) hp)

theorem hsizePass_zs {κ m : Nat} (hm : m ≤ κ) (s : Lat F) :
    ZSteps κ s (hsizePass o κ m s).1 := by
  unfold hsizePass
  split
  · exact sizeUpdateLoop_zs o m hm (s, false)
  · rename_i hp
    obtain ⟨p, b, h⟩ := sizeUpdateRLoop_zs o (κ := κ) m (s, (fun _ => o.zero), false)
    simp only [h]
    refine (zs_fp κ s p b).trans ?_
    rcases Nat.eq_zero_or_pos s.numS with h0 | hS
    · have hz : ∀ vx, psizeUpdateB o s.fastLong κ m s.str vx s.numS s.B = s.B := by
        intro vx; rw [h0]; rfl
      simp only [hz]
      exact zs_fp κ { s with fp := p, ub := b } p _
    · simp only [psizeUpdateB_eq _ _ _ _ _ _ _ _ hm hS]
      refine (seqCols_zs o s.fastLong _ (psizeNmax s.str m) m { s with fp := p, ub := b } hm ?_
        hp).trans (zs_fp κ _ p _)
      intro i hi
      exact nmaxOf_le_psizeNmax _ _ _ (by omega)

theorem hhR_zs (κ j : Nat) (s : Lat F) : ZSteps κ s (s.hhR o j) := zs_fp κ s _ _
theorem hhV_zs (κ j : Nat) (s : Lat F) : ZSteps κ s (s.hhV o j) := zs_fp κ s _ _

theorem hsizeLoop_zs {κ m : Nat} (hm : m ≤ κ) (fuel : Nat) (b : Bool) (s : Lat F) (st : Int)
    (s' : Lat F) (h : hsizeLoop o κ m fuel b s = some (st, s')) : ZSteps κ s s' := by
  induction fuel generalizing b s with
  | zero => simp [hsizeLoop] at h
  | succ fuel ih =>
    simp only [hsizeLoop] at h
    have h1 := hsizePass_zs o hm s
    revert h
    split
    · split
      · split
        · intro h; obtain ⟨-, rfl⟩ := by simpa using h
          exact h1.trans ((zs_fp κ _ _ _).trans (hhR_zs o κ κ _))
        · intro h; obtain ⟨-, rfl⟩ := by simpa using h
          exact h1.trans ((zs_fp κ _ _ _).trans (hhR_zs o κ κ _))
      · intro h
        exact h1.trans ((zs_fp κ _ _ _).trans ((hhR_zs o κ κ _).trans (ih _ _ h)))
    · intro h; obtain ⟨-, rfl⟩ := by simpa using h
      exact h1

theorem hsizereduce_zs {κ : Nat} (hκ : 0 < κ) (fuel fromk : Nat) (s : Lat F) (st : Int)
    (s' : Lat F) (h : hsizereduce o fuel κ fromk s = some (st, s')) : ZSteps κ s s' := by
  unfold hsizereduce at h
  refine (hhR_zs o κ κ s).trans (hsizeLoop_zs o ?_ fuel _ _ _ _ h)
  split <;> omega

/-! ### Seysen -/

theorem seysenUpdateStep_zs {κ restdim i : Nat} (h : i < κ) (q : Lat F × (Nat → F) × Bool) :
    ZSteps κ q.1 (seysenUpdateStep o κ restdim i q).1 := by
  unfold seysenUpdateStep
  simp only []
  split
  · exact .refl
  · apply ZStep.single
    simp only [redZ_eq]
    exact ZStep.col q.1 _ _ i _ h

theorem seysenUpdateLoop_zs {κ restdim : Nat} (m : Nat) (h : restdim + m ≤ κ)
    (q : Lat F × (Nat → F) × Bool) :
    ZSteps κ q.1 (seysenUpdateLoop o κ restdim m q).1 := by
  induction m generalizing q with
  | zero => exact .refl
  | succ m ih =>
    exact (seysenUpdateStep_zs o (by omega) q).trans (ih (by omega) _)

theorem seysenBlock_zs {κ ld indexdec : Nat} (q : SeyState F) :
    ZSteps κ q.s (seysenBlock o κ ld indexdec q).s := by
  unfold seysenBlock
  simp only []
  generalize (if κ / ld % 2 = 0 then 0 else ld) = bdim
  split
  · exact seysenUpdateLoop_zs o _ (by omega) (q.s, _, false)
  · exact .refl

theorem seysenBlocks_zs {κ : Nat} (fuel ld indexdec : Nat) (q : SeyState F) :
    ZSteps κ q.s (seysenBlocks o κ fuel ld indexdec q).s := by
  induction fuel generalizing ld indexdec q with
  | zero => exact .refl
  | succ fuel ih =>
    simp only [seysenBlocks]
    split
    · exact (seysenBlock_zs o q).trans (ih _ _ _)
    · exact .refl

theorem seysenLoop_zs {κ : Nat} (fuel : Nat) (n0 n1 : Bool) (tmp vx : Nat → F) (s : Lat F)
    (st : Int) (s' : Lat F) (h : seysenLoop o κ fuel n0 n1 tmp vx s = some (st, s')) :
    ZSteps κ s s' := by
  induction fuel generalizing n0 n1 tmp vx s with
  | zero => simp [seysenLoop] at h
  | succ fuel ih =>
    simp only [seysenLoop] at h
    have h1 := seysenBlocks_zs o (κ := κ) (κ + 1) 1 0
      { s := s, tmpcol := tmp, vectx := vx, somedone := false }
    revert h
    split
    · split
      · intro h
        exact h1.trans ((zs_fp κ _ _ _).trans ((hhR_zs o κ κ _).trans (ih _ _ _ _ _ h)))
      · intro h; obtain ⟨-, rfl⟩ := by simpa using h
        exact h1.trans ((zs_fp κ _ _ _).trans (hhR_zs o κ κ _))
    · intro h; obtain ⟨-, rfl⟩ := by simpa using h
      exact h1

theorem hlllReduce_zs {κ : Nat} (hκ : 0 < κ) (fuel : Nat) (s : Lat F) (st : Int)
    (s' : Lat F) (h : hlllReduce o fuel κ s = some (st, s')) : ZSteps κ s s' := by
  unfold hlllReduce at h
  split at h
  · exact hsizereduce_zs o hκ fuel 0 s st s' h
  · exact (hhR_zs o κ κ s).trans (seysenLoop_zs o fuel _ _ _ _ _ _ _ h)

theorem hlllPrep_zs (κ : Nat) (s : Lat F) : ZSteps κ s (hlllPrep o κ s) := by
  unfold hlllPrep
  simp only []
  split
  · exact (zs_fp κ s _ _).trans ((hhR_zs o κ 0 _).trans (hhV_zs o κ 0 _))
  · exact zs_fp κ s _ _

end HPLLL
