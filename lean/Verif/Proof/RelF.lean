import Verif.Model.RelF
import Verif.Props.Relations
import Verif.Proof.FloatOK
import Verif.Proof.MachFuel
/-! Invariants of the relation search with elementary lifts. -/

namespace HPLLL
open Spec Matrix Finset Props

variable {F G : Type}

/-- Rows `1..d` of a (1+d) × d matrix. -/
def lowBlock (d : ℕ) (M : Mat Int) : Matrix (Fin d) (Fin d) ℤ := Matrix.of fun j i => M i (1 + j)

/-- The coefficients of the matrices given to the reductions (apart from the first row) are less than `2^53`. -/
def SmallCalls (d : ℕ) (log : List (RelFCall F G)) : Prop :=
  ∀ c ∈ log, ∀ i < d, ∀ j < d, |c.T i (1 + j)| < 2 ^ 53

/-- Conversion of `mpz_t` to `FT` integers: exact, or the result is at least `2^53`. -/
def SetZOk (e : RelFEnv F G) : Prop := ∀ z, e.setZ z = z ∨ 2 ^ 53 ≤ |e.setZ z|

/-- Conversion of `FT` integers to `ZT`: exact, or the result has more than 50 bits. -/
def SetFOk (e : RelFEnv F G) : Prop := ∀ z, e.setF z = z ∨ 2 ^ 50 ≤ |e.setF z|

/-- No operation on floating point integers is rounded in the reductions. -/
def ExactCalls (log : List (RelFCall F G)) : Prop := ∀ c ∈ log, c.exact = true

/-- Conditions under which the transformations are unimodular. -/
def RelFGood (e : RelFEnv F G) (d : ℕ) (lllmethod : ℤ) (log : List (RelFCall F G)) : Prop :=
  SetFOk e ∧ ((lllmethod = methodHLLL ∧ SetZOk e ∧ SmallCalls d log ∧ ExactCalls log) ∨
    (lllmethod = methodFPLLL ∧ ∀ delta T, Unimodular (toMatrix d d (e.fplll delta T).2)))

theorem RelFGood.prefix {e : RelFEnv F G} {d : ℕ} {m : ℤ} {l l' : List (RelFCall F G)}
    (h : RelFGood e d m (l ++ l')) : RelFGood e d m l := by
  refine ⟨h.1, ?_⟩
  rcases h.2 with ⟨a, b, c, c'⟩ | h
  · exact Or.inl ⟨a, b, fun x hx => c x (List.mem_append_left _ hx), fun x hx => c' x (List.mem_append_left _ hx)⟩
  · exact Or.inr h

structure LiftInv (e : RelFEnv F G) (d : ℕ) (lllmethod : ℤ) (L0 : Mat Int) (s : LiftState F G) : Prop where
  hist : RelFGood e d lllmethod s.log → ∃ A', HistInv (1 + d) d A' true 0 True s.B
  lrow : toMatrix 1 d s.L = toMatrix 1 d L0 * toMatrix d d s.U
  uu : RelFGood e d lllmethod s.log → IsUnit (toMatrix d d s.U).det
  low : lllmethod = methodHLLL → (∀ i < d, ∀ j < d, |s.Af i (1 + j)| < 2 ^ 53) →
    RelFGood e d lllmethod s.log → IsUnit (lowBlock d s.Af).det
  pr : ∀ p ∈ s.prods, maxbitsizeRows 0 d d p.1 + maxbitsizeRows 0 d d p.2 ≤ 50

theorem liftRowF_apply (e : RelFEnv F G) (d : ℕ) (nd : ℤ) (L Af : Mat Int) (c r : ℕ) :
    liftRowF e d nd L Af c r = if r = 0 ∧ c < d then e.setZ (mul2si (L c 0) nd) else Af c r := by
  unfold liftRowF
  have := forRange_fillRow (fun j => e.setZ (mul2si (L j 0) nd)) 0 0 0 0 d (Nat.zero_le d) Af c r
  simpa using this

theorem lowBlock_liftRowF (e : RelFEnv F G) (d : ℕ) (nd : ℤ) (L Af : Mat Int) :
    lowBlock d (liftRowF e d nd L Af) = lowBlock d Af := by
  ext j i
  simp only [lowBlock, of_apply, liftRowF_apply]
  rw [if_neg (by omega)]

theorem lowBlock_mul (d : ℕ) (M N : Mat Int) (W : Matrix (Fin d) (Fin d) ℤ)
    (h : toMatrix (1 + d) d M = toMatrix (1 + d) d N * W) : lowBlock d M = lowBlock d N * W := by
  ext j i
  have := congrFun (congrFun h ⟨1 + j, by omega⟩) i
  rw [Matrix.mul_apply] at this ⊢
  simpa [lowBlock, toMatrix] using this

theorem fullColumnRank_of_lowBlock {d : ℕ} {T : Mat Int} (h : IsUnit (lowBlock d T).det) :
    FullColumnRank (toMatrix (1 + d) d T) :=
  fullColumnRank_of_lower h fun _ _ => rfl

/-- One step of the search. -/
theorem liftStep_inv {e : RelFEnv F G} {d : ℕ} (hd : 0 < d) {gapbits shift lllmethod sizemethod : ℤ} {delta : F}
    {L0 : Mat Int} {s s' : LiftState F G} {r : Option ℤ} (h : LiftInv e d lllmethod L0 s)
    (hs : liftStep e d gapbits shift lllmethod sizemethod delta s = some (s', r)) :
    LiftInv e d lllmethod L0 s' ∧ s'.newDef = s.newDef ∧
      (∃ c : RelFCall F G, s'.log = s.log ++ [c] ∧ c.sizemethod = sizemethod ∧ c.delta = delta) := by
  obtain ⟨hhist, hlrow, huu, hlow, hpr⟩ := h
  unfold liftStep at hs
  simp only [] at hs
  set T := liftRowF e d s.newDef s.L s.Af with hT
  split at hs
  · simp at hs
  rename_i B Af Vf hr
  set V : Mat Int := forRange 0 d (fun i V => forRange 0 d (fun j V => setEntry V i j (e.setF (Vf j i))) V)
    (fun _ _ => 0) with hV
  have hVa : ∀ i < d, ∀ j < d, V j i = e.setF (Vf j i) := by
    intro i hi j hj
    have := forRange_fill (fun i j => e.setF (Vf j i)) 0 0 d 0 d (fun _ _ => (0 : ℤ)) j i
    simp only [Nat.zero_add, Nat.zero_le, true_and, Nat.sub_zero] at this
    rw [hV, this, if_pos ⟨hi, hj⟩]
  -- the low block of `T` is unimodular (HLLL)
  have hTlow : ∀ {l a p q x}, lllmethod = methodHLLL →
      RelFGood e d lllmethod (s.log ++ [⟨T, l, sizemethod, delta, a, p, q, x⟩]) →
      IsUnit (lowBlock d T).det := by
    intro l a p q x h1 h2
    rw [hT, lowBlock_liftRowF]
    refine hlow h1 ?_ h2.prefix
    rcases h2.2 with ⟨-, -, h3, -⟩ | ⟨h3, -⟩
    · intro i hi j hj
      have := h3 _ (List.mem_append_right _ (List.mem_singleton.2 rfl)) i hi j hj
      simp only [] at this
      rwa [hT, liftRowF_apply, if_neg (by omega)] at this
    · rw [h1] at h3; exact absurd h3 (by decide)
  -- the object, `Vf` and `Af`
  have key : (∀ q, RelFGood e d lllmethod (s.log ++ [⟨T, Vf, sizemethod, delta, Af, s.newQuot, q, !B.ub⟩]) →
        ∃ A', HistInv (1 + d) d A' true 0 True B) ∧
      (∀ q, RelFGood e d lllmethod (s.log ++ [⟨T, Vf, sizemethod, delta, Af, s.newQuot, q, !B.ub⟩]) →
        IsUnit (toMatrix d d Vf).det) ∧
      (∀ q, lllmethod = methodHLLL →
        RelFGood e d lllmethod (s.log ++ [⟨T, Vf, sizemethod, delta, Af, s.newQuot, q, !B.ub⟩]) →
        IsUnit (lowBlock d Af).det) := by
    unfold liftReduce at hr
    split at hr
    · rename_i hm
      split at hr
      · simp at hr
      rename_i st B1 hl
      simp only [Option.some.injEq, Prod.mk.injEq] at hr
      obtain ⟨rfl, rfl, rfl⟩ := hr
      have h2 : ∀ q, RelFGood e d lllmethod (s.log ++ [⟨T, B1.getU.M, sizemethod, delta, B1.getbase.M, s.newQuot, q,
          !B1.ub⟩]) → HistInv (1 + d) d T true 0 True B1 := by
        intro q hg
        obtain ⟨A', hH⟩ := hhist hg.prefix
        have hx : B1.ub = false := by
          rcases hg.2 with ⟨-, -, -, h4⟩ | ⟨h4, -⟩
          · simpa using h4 _ (List.mem_append_right _ (List.mem_singleton.2 rfl))
          · rw [hm] at h4; exact absurd h4 (by decide)
        exact (hH.assign T).does (.hlll e.o delta true _ _ e.fuel st (fHlll_exact hl hx)) (fun _ S thr h => by cases h)
      refine ⟨fun q hg => ⟨T, h2 q hg⟩, fun q hg => ?_, fun q _ hg => ?_⟩
      · replace h2 := h2 q hg
        have ht : B1.transf = true := h2.tr
        simp only [Lat.getU, ht, if_true]
        exact (h2.uinv rfl (fullColumnRank_of_lowBlock (hTlow hm hg))).uni
      · obtain ⟨W, hW, hB, -⟩ := (h2 q hg).inv.uni
        have : lowBlock d B1.getbase.M = lowBlock d T * W := lowBlock_mul d _ _ W hB
        rw [this, Matrix.det_mul]
        exact (hTlow hm hg).mul hW
    · rename_i hm
      refine ⟨?_, ?_, fun _ h1 => absurd h1 hm⟩
      · split at hr <;>
        · simp only [Option.some.injEq, Prod.mk.injEq] at hr
          obtain ⟨rfl, -, -⟩ := hr
          exact fun q hg => hhist hg.prefix
      · intro _ hg
        rcases hg.2 with ⟨h1, -⟩ | ⟨h1, h2⟩
        · exact absurd h1 hm
        · rw [if_pos h1] at hr
          simp only [Option.some.injEq, Prod.mk.injEq] at hr
          obtain ⟨-, -, rfl⟩ := hr
          rw [C46_transpose_in, Matrix.det_transpose]
          exact isUnit_of_unimodular (h2 _ _)
  obtain ⟨k1, k2, k3⟩ := key
  split at hs
  · simp only [Option.some.injEq, Prod.mk.injEq] at hs
    obtain ⟨rfl, rfl⟩ := hs
    exact ⟨⟨fun hg => k1 _ hg, hlrow, fun hg => huu hg.prefix, fun h1 _ hg => k3 _ h1 hg, hpr⟩, rfl, _, rfl, rfl, rfl⟩
  · rename_i hle
    simp only [Option.some.injEq, Prod.mk.injEq] at hs
    obtain ⟨rfl, -⟩ := hs
    refine ⟨⟨fun hg => k1 _ hg, ?_, fun hg => ?_, fun h1 _ hg => k3 _ h1 hg, ?_⟩, rfl, _, rfl, rfl, rfl⟩
    · simp only []
      rw [(C46_products 1 d d hd s.L V s.L).2.1, (C46_products d d d hd s.U V s.U).2.1, hlrow, Matrix.mul_assoc]
    · simp only []
      rw [(C46_products d d d hd s.U V s.U).2.1, Matrix.det_mul]
      refine (huu hg.prefix).mul ?_
      have : toMatrix d d V = toMatrix d d Vf := by
        ext i j
        simp only [toMatrix, of_apply]
        have hb := (C31_maxbitsize_rows 0 d d V).1 i (Nat.zero_le _) i.2 j j.2
        rw [hVa i i.2 j j.2] at hb ⊢
        rcases hg.1 (Vf j i) with h1 | h1
        · exact h1
        · exfalso
          have h2 : (2 : ℤ) ^ maxbitsizeRows 0 d d V ≤ 2 ^ 50 :=
            pow_le_pow_right₀ (by norm_num) (by omega)
          omega
      rw [this]
      exact k2 _ hg
    · intro p hp
      rcases List.mem_append.1 hp with hp | hp
      · exact hpr p hp
      · rw [List.mem_singleton.1 hp]
        simp only []
        omega

theorem liftLoop_inv {e : RelFEnv F G} {d : ℕ} (hd : 0 < d) {gapbits shift increment lllmethod sizemethod : ℤ}
    {delta : F} {L0 : Mat Int} : ∀ (fuel : ℕ) (S : ℤ) (s s' : LiftState F G) (r : ℤ),
    LiftInv e d lllmethod L0 s →
    liftLoop e d gapbits shift increment lllmethod sizemethod delta fuel S s = some (s', r) →
    LiftInv e d lllmethod L0 s' ∧ ∃ l, s'.log = s.log ++ l ∧
      (∀ c ∈ l, c.sizemethod = sizemethod ∧ c.delta = delta) ∧ s'.newDef = s.newDef + increment * l.length := by
  intro fuel
  induction fuel with
  | zero => intro S s s' r _ h; simp [liftLoop] at h
  | succ fuel ih =>
    intro S s s' r hI h
    have hI' : LiftInv e d lllmethod L0 { s with newDef := s.newDef + increment } :=
      ⟨hI.hist, hI.lrow, hI.uu, hI.low, hI.pr⟩
    unfold liftLoop at h
    split at h
    · split at h
      · simp at h
      · rename_i s1 r1 hs
        simp only [Option.some.injEq, Prod.mk.injEq] at h
        obtain ⟨rfl, rfl⟩ := h
        obtain ⟨a, b, c, c1, c2, c3⟩ := liftStep_inv hd hI' hs
        refine ⟨a, [c], c1, fun c' hc' => ?_, by rw [b]; simp⟩
        rw [List.mem_singleton.1 hc']; exact ⟨c2, c3⟩
      · rename_i s1 hs
        obtain ⟨a, b, c, c1, c2, c3⟩ := liftStep_inv hd hI' hs
        obtain ⟨k1, l, k2, k3, k4⟩ := ih _ s1 s' r a h
        refine ⟨k1, c :: l, by rw [k2, c1]; simp, fun c' hc' => ?_, ?_⟩
        · rcases List.mem_cons.1 hc' with rfl | hc'
          · exact ⟨c2, c3⟩
          · exact k3 c' hc'
        · rw [k4, b, List.length_cons]; push_cast; ring
    · simp only [Option.some.injEq, Prod.mk.injEq] at h
      obtain ⟨rfl, rfl⟩ := h
      exact ⟨hI, [], by simp, by simp, by simp⟩

structure RelFInv (e : RelFEnv F G) (d : ℕ) (lllmethod : ℤ) (A : Mat Int) (s : RelFState F G) : Prop where
  tr : ∃ W : Matrix (Fin d) (Fin d) ℤ,
    toMatrix (1 + d) d s.A = toMatrix (1 + d) d (relInit d A) * W ∧
    (RelFGood e d lllmethod s.log → IsUnit W.det)
  pr : ∀ p ∈ s.prods, maxbitsizeRows 0 d d p.1 + maxbitsizeRows 0 d d p.2 ≤ 50

theorem lowBlock_relInit (d : ℕ) (A M : Mat Int) (W : Matrix (Fin d) (Fin d) ℤ)
    (h : toMatrix (1 + d) d M = toMatrix (1 + d) d (relInit d A) * W) : lowBlock d M = W := by
  ext j i
  have := congrFun (congrFun h ⟨1 + j, by omega⟩) i
  rw [relInit_mul, dif_neg (by simp only []; omega)] at this
  simp only [toMatrix, Matrix.of_apply] at this
  simp only [lowBlock, of_apply]
  rw [this]
  congr 1
  exact Fin.ext (by simp only []; omega)

/-- The state at the beginning of a round. -/
def liftStart (e : RelFEnv F G) (d : ℕ) (sizemethod : ℤ) (s : RelFState F G) : LiftState F G :=
  let Tf : Mat Int := forRange 0 d (fun i M => forRange 0 d (fun j M => setEntry M i j (e.setZ (s.A j (1 + i)))) M)
    (fun _ _ => 0)
  let Af : Mat Int := forRange 0 d (fun i M => forRange 0 d (fun j M => setEntry M (1 + i) j (Tf j i)) M)
    (fun j i => if i = 0 then e.af0 j else 0)
  { U := setId d d fun _ _ => 0, L := forRange 0 d (fun j M => setEntry M 0 j (s.A j 0)) fun _ _ => 0, Af := Af, B := newLattice e.o e.junk (1 + d) d Af true sizemethod e.longFlag 0, newDef := s.def_, newQuot := s.newQuot, log := s.log, prods := s.prods }

theorem liftStart_inv {e : RelFEnv F G} {d : ℕ} {lllmethod : ℤ} (sizemethod : ℤ) {A : Mat Int} {s : RelFState F G}
    (hI : RelFInv e d lllmethod A s) : LiftInv e d lllmethod s.A (liftStart e d sizemethod s) := by
  obtain ⟨⟨W, hW, hWu⟩, hpr⟩ := hI
  unfold liftStart
  simp only []
  set Tf : Mat Int := forRange 0 d (fun i M => forRange 0 d (fun j M => setEntry M i j (e.setZ (s.A j (1 + i)))) M)
    (fun _ _ => 0) with hTf
  set Af : Mat Int := forRange 0 d (fun i M => forRange 0 d (fun j M => setEntry M (1 + i) j (Tf j i)) M)
    (fun j i => if i = 0 then e.af0 j else 0) with hAf
  have hTfa : ∀ i < d, ∀ j < d, Tf j i = e.setZ (s.A j (1 + i)) := by
    intro i hi j hj
    have := forRange_fill (fun i j => e.setZ (s.A j (1 + i))) 0 0 d 0 d (fun _ _ => (0 : ℤ)) j i
    simp only [Nat.zero_add, Nat.zero_le, true_and, Nat.sub_zero] at this
    rw [hTf, this, if_pos ⟨hi, hj⟩]
  have hAfa : ∀ i < d, ∀ j < d, Af j (1 + i) = e.setZ (s.A j (1 + i)) := by
    intro i hi j hj
    have := forRange_fill (fun i j => Tf j i) 1 0 d 0 d (fun j i => if i = 0 then e.af0 j else 0) j (1 + i)
    simp only [Nat.zero_add, Nat.zero_le, true_and, Nat.sub_zero] at this
    rw [hAf, this, if_pos (by omega), Nat.add_sub_cancel_left, hTfa i hi j hj]
  set s0 : LiftState F G := { U := setId d d fun _ _ => 0, L := forRange 0 d (fun j M => setEntry M 0 j (s.A j 0)) fun _ _ => 0, Af := Af, B := newLattice e.o e.junk (1 + d) d Af true sizemethod e.longFlag 0, newDef := s.def_, newQuot := s.newQuot, log := s.log, prods := s.prods } with hs0
  · refine ⟨fun _ => ⟨_, newLattice_hist e.o e.junk (1 + d) d _ true sizemethod e.longFlag 0⟩, ?_, ?_, ?_, hpr⟩
    · simp only [hs0]
      rw [C46_setId, Matrix.mul_one]
      ext i j
      simp only [toMatrix, of_apply]
      have := forRange_fillRow (fun j => s.A j 0) 0 0 0 0 d (Nat.zero_le d) (fun _ _ => (0 : ℤ)) j i
      simp only [Nat.zero_add, Nat.zero_le, true_and, Nat.sub_zero] at this
      rw [this, if_pos ⟨by omega, j.2⟩, show (i : ℕ) = 0 by omega]
    · intro _
      simp only [hs0]
      rw [C46_setId, Matrix.det_one]; exact isUnit_one
    · intro h1 h2 h3
      have : lowBlock d Af = W := by
        rw [← lowBlock_relInit d A s.A W hW]
        ext j i
        simp only [lowBlock, of_apply]
        have h4 := h2 i i.2 j j.2
        simp only [hs0] at h4
        rw [hAfa j j.2 i i.2] at h4 ⊢
        rcases h3.2 with ⟨-, h5, -, -⟩ | ⟨h5, -⟩
        · rcases h5 (s.A i (1 + j)) with h6 | h6
          · exact h6
          · omega
        · rw [h1] at h5; exact absurd h5 (by decide)
      simp only [hs0]
      rw [this]
      exact hWu h3

theorem liftRound_inv {e : RelFEnv F G} {d : ℕ} (hd : 0 < d) {lllmethod : ℤ} {A : Mat Int} {s : RelFState F G}
    (hI : RelFInv e d lllmethod A s) {t : LiftState F G} (k1 : LiftInv e d lllmethod s.A t)
    {l : List (RelFCall F G)} (k2 : t.log = s.log ++ l) (sh : ℤ) :
    RelFInv e d lllmethod A ⟨matprodIn (1 + d) d t.U s.A, t.newDef, t.newQuot, sh, t.log, t.prods⟩ := by
  obtain ⟨⟨W, hW, hWu⟩, hpr⟩ := hI
  refine ⟨⟨W * toMatrix d d t.U, ?_, fun hg => ?_⟩, k1.pr⟩
  · simp only []
    rw [(C46_products (1 + d) d d hd s.A t.U s.A).2.1, hW, Matrix.mul_assoc]
  · simp only [] at hg
    rw [Matrix.det_mul]
    refine IsUnit.mul (hWu ?_) (k1.uu hg)
    rw [k2] at hg
    exact hg.prefix

theorem detectLift_inv {e : RelFEnv F G} {d : ℕ} (hd : 0 < d) {inner : ℕ}
    {gapbits shift increment lllmethod sizemethod : ℤ} {delta : F} {A : Mat Int} {s : RelFState F G}
    (hI : RelFInv e d lllmethod A s) {t : LiftState F G} {r : ℤ}
    (h : detectLift e inner d (setId d d fun _ _ => 0) s.A
      (forRange 0 d (fun i M => forRange 0 d (fun j M => setEntry M i j (e.setZ (s.A j (1 + i)))) M)
        fun _ _ => 0) s.def_ s.newQuot s.log s.prods gapbits shift increment lllmethod sizemethod delta =
      some (t, r)) :
    (∀ sh, RelFInv e d lllmethod A ⟨matprodIn (1 + d) d t.U s.A, t.newDef, t.newQuot, sh, t.log, t.prods⟩) ∧
    ∃ l, t.log = s.log ++ l ∧ (∀ c ∈ l, c.sizemethod = sizemethod ∧ c.delta = delta) ∧
      t.newDef = s.def_ + increment * l.length := by
  obtain ⟨k1, l, k2, k3, k4⟩ := liftLoop_inv hd inner 0 (liftStart e d sizemethod s) t r (liftStart_inv _ hI) h
  exact ⟨fun sh => liftRound_inv hd hI k1 k2 sh, l, k2, k3, k4⟩

theorem relFLoop_inv {e : RelFEnv F G} {d : ℕ} (hd : 0 < d) {inner : ℕ}
    {target gapbits shift increment lllmethod : ℤ} {delta : F} {A : Mat Int} :
    ∀ (fuel : ℕ) (s s' : RelFState F G) (r : ℤ), RelFInv e d lllmethod A s →
      relFLoop e inner d target gapbits shift increment lllmethod delta fuel s = some (s', r) →
      RelFInv e d lllmethod A s' ∧ (r = 0 ∨ r = 1) ∧ (r = 0 → target ≤ s'.def_) ∧ ∃ l, s'.log = s.log ++ l ∧
        (∀ c ∈ l, c.sizemethod = e.toInt delta ∧ c.delta = e.d99) ∧ s'.def_ = s.def_ + increment * l.length := by
  intro fuel
  induction fuel with
  | zero => intro s s' r _ h; simp [relFLoop] at h
  | succ fuel ih =>
    intro s s' r hI h
    unfold relFLoop at h
    split at h
    · simp only [] at h
      split at h
      · simp at h
      rename_i t found ht
      obtain ⟨k1, l, k2, k3, k4⟩ := detectLift_inv hd hI ht
      split at h
      · simp only [Option.some.injEq, Prod.mk.injEq] at h
        obtain ⟨rfl, rfl⟩ := h
        exact ⟨k1 _, Or.inr rfl, by simp, l, k2, k3, k4⟩
      · obtain ⟨m1, m2, m3, l', m4, m5, m6⟩ := ih _ s' r (k1 _) h
        refine ⟨m1, m2, m3, l ++ l', by rw [m4]; simp only []; rw [k2, List.append_assoc], ?_, ?_⟩
        · intro c hc
          rcases List.mem_append.1 hc with hc | hc
          · exact k3 c hc
          · exact m5 c hc
        · rw [m6]; simp only []; rw [k4, List.length_append]; push_cast; ring
    · simp only [Option.some.injEq, Prod.mk.injEq] at h
      obtain ⟨rfl, rfl⟩ := h
      exact ⟨hI, Or.inl rfl, fun _ => by omega, [], by simp, by simp, by simp⟩

theorem relFStart_inv (e : RelFEnv F G) (d : ℕ) (A : Mat Int) (lllmethod df sh : ℤ) (q : G) :
    RelFInv e d lllmethod A ⟨relInit d A, df, q, sh, [], []⟩ :=
  ⟨⟨1, by rw [Matrix.mul_one], fun _ => by simp⟩, by simp⟩

end HPLLL
