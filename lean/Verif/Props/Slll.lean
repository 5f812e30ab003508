import Verif.Proof.SlllSched
import Verif.Proof.Wrap
import Verif.Model.Toy
import Mathlib.LinearAlgebra.Matrix.SchurComplement
/-!
# Segment LLL (class `SLattice`): C38, C51
-/

namespace HPLLL.Props
open HPLLL Spec Matrix

variable {F : Type} (o : FPOps F) (c : SCst F)

/-! ### padding -/

theorem maxAbs_inner (A : Mat Int) (i d : Nat) (m : Int) :
    m ≤ forRange 0 d (fun j m => if m < ((A j i).natAbs : Int) then ((A j i).natAbs : Int) else m) m ∧
    ∀ j < d, ((A j i).natAbs : Int) ≤
      forRange 0 d (fun j m => if m < ((A j i).natAbs : Int) then ((A j i).natAbs : Int) else m) m := by
  refine forRange_ind (fun d r => m ≤ r ∧ ∀ j < d, ((A j i).natAbs : Int) ≤ r) (Nat.zero_le d) _ _
    ⟨le_refl _, by omega⟩ ?_
  rintro j r _ _ ⟨h1, h2⟩
  refine ⟨by split <;> omega, fun j' hj' => ?_⟩
  rcases Nat.lt_succ_iff_lt_or_eq.mp hj' with h | rfl
  · have := h2 j' h; split <;> omega
  · split <;> omega

theorem maxAbs_spec (n d : Nat) (A : Mat Int) : ∀ i < n, ∀ j < d, |A j i| ≤ maxAbs n d A := by
  have := forRange_ind (fun n r => ∀ i < n, ∀ j < d, ((A j i).natAbs : Int) ≤ r) (Nat.zero_le n)
    (fun i m => forRange 0 d (fun j m =>
      if m < ((A j i).natAbs : Int) then ((A j i).natAbs : Int) else m) m) (0 : Int)
    (by omega) (by
      intro i r _ _ h i' hi' j hj
      rcases Nat.lt_succ_iff_lt_or_eq.mp hi' with h' | rfl
      · exact (h i' h' j hj).trans (maxAbs_inner A i d r).1
      · exact (maxAbs_inner A i' d r).2 j hj)
  intro i hi j hj
  rw [Int.abs_eq_natAbs]
  exact this i hi j hj

theorem padBasis_orig (n d S : Nat) (A : Mat Int) (i j : Nat) (hi : i < n) (hj : j < d) :
    padBasis n d S A j i = A j i := by
  unfold padBasis; rw [if_pos ⟨hi, hj⟩]

theorem padBasis_right (n d S : Nat) (A : Mat Int) (i j : Nat) (hi : i < n) (hj : d ≤ j) :
    padBasis n d S A j i = 0 := by
  unfold padBasis; rw [if_neg (by omega), if_neg (by omega)]

theorem padBasis_bottom (n d S : Nat) (A : Mat Int) (l j : Nat) (hl : l < padLen d S) :
    padBasis n d S A j (n + l) = if j = d + l then maxAbs n d A * d else 0 := by
  unfold padBasis
  rw [if_neg (by omega)]
  by_cases h : j = d + l
  · rw [if_pos (by omega), if_pos h]
  · rw [if_neg (by omega), if_neg h]

/-- The upper left block of a transformation of the padded basis. -/
theorem pad_split (n d S : Nat) (A B' : Mat Int)
    (W : Matrix (Fin (d + padLen d S)) (Fin (d + padLen d S)) ℤ) (hW : IsUnit W.det)
    (e : toMatrix (n + padLen d S) (d + padLen d S) B' =
      toMatrix (n + padLen d S) (d + padLen d S) (padBasis n d S A) * W) :
    ∃ W1 : Matrix (Fin d) (Fin d) ℤ, toMatrix n d B' = toMatrix n d A * W1 ∧
      ((∀ i, n ≤ i → i < n + padLen d S → ∀ j < d, B' j i = 0) → toMatrix n d A ≠ 0 → IsUnit W1.det) := by
  refine ⟨W.submatrix (Fin.castAdd _) (Fin.castAdd _), ?_, ?_⟩
  · ext i j
    have := congrFun (congrFun e (Fin.castAdd _ i)) (Fin.castAdd _ j)
    rw [Matrix.mul_apply, Fin.sum_univ_add] at this
    have h2 : ∑ k : Fin (padLen d S), toMatrix (n + padLen d S) (d + padLen d S) (padBasis n d S A)
        (Fin.castAdd _ i) (Fin.natAdd d k) * W (Fin.natAdd d k) (Fin.castAdd _ j) = 0 := by
      refine Finset.sum_eq_zero fun k _ => ?_
      simp only [toMatrix, of_apply, Fin.val_castAdd, Fin.val_natAdd]
      rw [padBasis_right n d S A i (d + k) i.2 (by omega), zero_mul]
    rw [h2, add_zero] at this
    rw [Matrix.mul_apply]
    refine this.trans (Finset.sum_congr rfl fun k _ => ?_)
    simp only [toMatrix, of_apply, Fin.val_castAdd, Matrix.submatrix_apply]
    rw [padBasis_orig n d S A i k i.2 k.2]
  · intro h0 hA
    obtain ⟨i0, j0, hij⟩ : ∃ i j, toMatrix n d A i j ≠ 0 := by
      by_contra hc; push Not at hc; exact hA (by ext i j; exact hc i j)
    have hm : maxAbs n d A * d ≠ 0 := by
      have h1 := maxAbs_spec n d A i0 i0.2 j0 j0.2
      have h2 : 0 < |A j0 i0| := abs_pos.mpr hij
      have h3 : (0 : Int) < d := by have := j0.2; omega
      exact (Int.mul_pos (by omega) h3).ne'
    have h21 : W.submatrix (Fin.natAdd d) (Fin.castAdd (padLen d S)) = 0 := by
      ext l j
      have := congrFun (congrFun e (Fin.natAdd n l)) (Fin.castAdd _ j)
      rw [Matrix.mul_apply, Finset.sum_eq_single (Fin.natAdd d l)] at this
      · simp only [toMatrix, of_apply, Fin.val_castAdd, Fin.val_natAdd] at this
        rw [h0 (n + l) (by omega) (by omega) j j.2, padBasis_bottom n d S A l _ l.2, if_pos rfl] at this
        simp only [Matrix.submatrix_apply, Matrix.zero_apply]
        rcases mul_eq_zero.mp this.symm with h | h
        · exact absurd h hm
        · exact h
      · intro b _ hb
        simp only [toMatrix, of_apply, Fin.val_natAdd]
        rw [padBasis_bottom n d S A l _ l.2, if_neg, zero_mul]
        intro h; exact hb (Fin.ext (by simpa using h))
      · intro h; exact absurd (Finset.mem_univ _) h
    have hblk : W.submatrix finSumFinEquiv finSumFinEquiv =
        fromBlocks (W.submatrix (Fin.castAdd _) (Fin.castAdd _))
          (W.submatrix (Fin.castAdd _) (Fin.natAdd d)) 0
          (W.submatrix (Fin.natAdd d) (Fin.natAdd d)) := by
      rw [← h21]
      ext (i | i) (j | j) <;> rfl
    have hdet := congrArg Matrix.det hblk
    rw [Matrix.det_submatrix_equiv_self, Matrix.det_fromBlocks_zero₂₁] at hdet
    rw [hdet] at hW
    exact isUnit_of_mul_isUnit_left hW

theorem lattice_mul_le {n d : ℕ} (A : Matrix (Fin n) (Fin d) ℤ) (W : Matrix (Fin d) (Fin d) ℤ) :
    lattice (A * W) ≤ lattice A := by
  rw [lattice_eq_range, lattice_eq_range]
  rintro _ ⟨v, rfl⟩
  exact ⟨W.mulVec v, by simp [Matrix.mulVec_mulVec]⟩

/-! ### C38 -/

/-- **C38.** A call of `hlll(delta, S, nbthreads, lovmax)` on a fresh `SLattice(A, S0, forU, method)` that
returns, for every schedule of its parallel regions and every floating point behaviour:
* the value returned is 0 or a gap position `3 ≤ g < d`; the dimensions of `getbase()` are those of `A`, and the
  global `verboseDepth` is restored;
* the vectors of `getbase()` always lie in the lattice of `A`;
* they generate the lattice of `A` if `2 S0` divides `d` (no padding), or if the padding was not mixed with the
  vectors returned. -/
theorem C38_segment_lll (σ : Sched) (hσ : σ.Ok) (junk : F) (n d : Nat) (hd : 0 < d) (A : Mat Int) (S0 : Nat)
    (forU : Bool) (method : Int) (lf : Bool) (vd : Int) (fuel : Nat) (δ : F) (S lovmax : Nat) (hS : 0 < S)
    (g : Nat) (L' : SLat F)
    (hr : (newSLattice o junk n d A S0 forU method lf vd).hlll o c σ junk fuel δ S lovmax = some (g, L')) :
    (g = 0 ∨ 3 ≤ g ∧ g < d) ∧ L'.getbase.rows = n ∧ L'.getbase.cols = d ∧ L'.lat.verboseDepth = vd ∧
    lattice (toMatrix n d L'.getbase.M) ≤ lattice (toMatrix n d A) ∧
    (2 * S0 ∣ d → lattice (toMatrix n d L'.getbase.M) = lattice (toMatrix n d A)) ∧
    ((∀ i, n ≤ i → i < L'.lat.n → ∀ j < d, L'.lat.B j i = 0) →
      lattice (toMatrix n d L'.getbase.M) = lattice (toMatrix n d A)) := by
  obtain ⟨⟨W, hW, e⟩, hg, h1, h2, h3, h4, h5, h6⟩ :=
    slll_exit o c hσ n d hd A S0 forU method lf vd junk fuel δ S lovmax hS g L' hr
  obtain ⟨W1, e1, hu⟩ := pad_split n d S0 A L'.lat.B W hW e
  have hmix : (∀ i, n ≤ i → i < L'.lat.n → ∀ j < d, L'.lat.B j i = 0) →
      lattice (toMatrix n d L'.getbase.M) = lattice (toMatrix n d A) := by
    intro h0
    show lattice (toMatrix n d L'.lat.B) = _
    rw [e1]
    by_cases hA : toMatrix n d A = 0
    · rw [hA, Matrix.zero_mul]
    · exact lattice_mul_unit _ _ (hu (by rw [← h5]; exact h0) hA)
  refine ⟨hg, h1, h2, h3, ?_, fun hdiv => hmix fun i hi hi' => ?_, hmix⟩
  · show lattice (toMatrix n d L'.lat.B) ≤ _
    rw [e1]; exact lattice_mul_le _ _
  · have : padLen d S0 = 0 := by unfold padLen; rw [if_pos (Nat.mod_eq_zero_of_dvd hdiv)]
    omega

/-- What a user sees of a result of `hlll`, except the counter `nbswaps`. -/
def slllObserved (r : Nat × SLat F) : Nat × ZMat × ZMat × Mat F × Nat × (Nat → Int) × Int :=
  (r.1, r.2.getbase, r.2.getU, r.2.lat.fp.R, r.2.lat.nblov, r.2.swapstab, r.2.lat.verboseDepth)

/-- **C38, determinism.** For any two schedules (and any values left in the racy `nbswaps`) the calls both return
or both loop, with the same status, basis, transformation matrix, R factor and counters. -/
theorem C38_schedule_independent (σ τ : Sched) (hσ : σ.Ok) (hτ : τ.Ok) (junk : F) (fuel : Nat) (δ : F)
    (S lovmax : Nat) (L : SLat F) :
    (L.hlll o c σ junk fuel δ S lovmax).map slllObserved =
      (L.hlll o c τ junk fuel δ S lovmax).map slllObserved := by
  have := congrArg (Option.map (slllObserved (F := F))) (slll_sched o c hσ hτ junk fuel δ S lovmax L)
  rw [Option.map_map, Option.map_map] at this
  exact this

/-- Constants for the toy arithmetic. -/
def toySC : SCst Int where
  p501 := toyScale * 501 / 1000
  thousandth := toyScale / 1000
  eps9 := toyScale / 1000000000
  setF := fun R => R

/-- **C38, defect.** The column `(1,1)` with one segment: the padding vector `(0,0,1)` is shorter than the
vector itself, they are exchanged, and `getbase()` returns the zero vector. -/
theorem C38_padding_loses_lattice :
    ((newSLattice toyOps 0 2 1 (ofCols [[1, 1]]) 1 false 0 true 0).hlll toyOps toySC .seq 0 3 toy99 1 1000).map
      (fun r => (r.1, toCols 2 1 r.2.getbase.M)) = some (0, [[0, 0]]) := by decide +kernel

/-- **C38, defect.** `getU()` is not the transformation: only the last phase is kept (identity for one segment). -/
theorem C38_getU_is_last_phase :
    ((newSLattice toyOps 0 2 2 (ofCols [[1, 0], [1, 1]]) 1 true 0 true 0).hlll toyOps toySC .seq 0 3 toy99 1
      1000).map (fun r => (r.1, toCols 2 2 r.2.getbase.M, toCols 2 2 r.2.getU.M)) =
      some (0, [[1, 0], [0, 1]], [[1, 0], [0, 1]]) := by decide +kernel

/-- The hypotheses of `C38_segment_lll` are met (the run above, no padding: same lattice). -/
example : ∃ g L', (newSLattice toyOps 0 2 2 (ofCols [[1, 0], [1, 1]]) 1 true 0 true 0).hlll toyOps toySC .seq 0 3
      toy99 1 1000 = some (g, L') ∧
      lattice (toMatrix 2 2 L'.getbase.M) = lattice (toMatrix 2 2 (ofCols [[1, 0], [1, 1]])) := by
  have h := C38_getU_is_last_phase
  cases hr : (newSLattice toyOps 0 2 2 (ofCols [[1, 0], [1, 1]]) 1 true 0 true 0).hlll toyOps toySC .seq 0 3
      toy99 1 1000 with
  | none => rw [hr] at h; simp at h
  | some r =>
    exact ⟨r.1, r.2, rfl, (C38_segment_lll toyOps toySC .seq Sched.seq_ok 0 2 2 (by omega) _ 1 true 0 true 0 3
      toy99 1 1000 (by omega) r.1 r.2 hr).2.2.2.2.2.1 (by omega)⟩

/-! ### C51: the shared counter -/

/-- Values added by a list of accesses. -/
def added (P : List (Nat × CAct)) : List Nat :=
  P.filterMap fun a => match a.2 with | .load => none | .store x => some x

/-- Remaining accesses `P` of thread `l`: either it is about to read, or its register is between the bounds. -/
def CShape (init bound : Nat) (reg : Nat → Nat) (l : Nat) (P : List (Nat × CAct)) : Prop :=
  (∃ xs, P = counterProg l xs) ∨
    ∃ x xs, P = (l, .store x) :: counterProg l xs ∧ init ≤ reg l ∧ reg l ≤ bound

theorem CShape.mono {init b b' : Nat} {reg reg' : Nat → Nat} {l : Nat} {P : List (Nat × CAct)}
    (h : CShape init b reg l P) (hb : b ≤ b') (hr : reg' l = reg l) : CShape init b' reg' l P := by
  rcases h with h | ⟨x, xs, h, h1, h2⟩
  · exact .inl h
  · exact .inr ⟨x, xs, h, by omega, by omega⟩

theorem added_prog (l : Nat) (xs : List Nat) : added (counterProg l xs) = xs := by
  induction xs with
  | nil => rfl
  | cons x xs ih =>
    show x :: added (counterProg l xs) = x :: xs
    rw [ih]

theorem getElem_split {α : Type} (L R : List α) (a b : α) (i : Nat) (hi : i < (L ++ a :: R).length)
    (hi' : i < (L ++ b :: R).length) (hne : i ≠ L.length) : (L ++ a :: R)[i] = (L ++ b :: R)[i] := by
  rcases Nat.lt_or_ge i L.length with h | h
  · rw [List.getElem_append_left h, List.getElem_append_left h]
  · rw [List.getElem_append_right h, List.getElem_append_right h]
    obtain ⟨k, hk⟩ : ∃ k, i - L.length = k + 1 := ⟨i - L.length - 1, by omega⟩
    simp only [hk, List.getElem_cons_succ]

theorem counter_aux {Ps : List (List (Nat × CAct))} {T : List (Nat × CAct)} (h : Interleave Ps T)
    (init hi : Nat) : ∀ (mem : Nat) (reg : Nat → Nat),
    init ≤ mem → mem + (added Ps.flatten).sum ≤ hi →
    (∀ i (hi' : i < Ps.length), CShape init (hi - (added Ps.flatten).sum) reg i Ps[i]) →
    init ≤ counterRun T mem reg ∧ counterRun T mem reg ≤ hi ∧
      ((counterRun T mem reg = mem ∧ added Ps.flatten = []) ∨
        ∃ x ∈ added Ps.flatten, init + x ≤ counterRun T mem reg) := by
  induction h with
  | done Ps hP =>
    intro mem reg h1 h2 h3
    have : Ps.flatten = [] := by simpa using hP
    rw [this] at h2 ⊢
    exact ⟨h1, (by simpa [added] using h2 : mem ≤ hi), .inl ⟨rfl, rfl⟩⟩
  | step L R a P T _ ih =>
    intro mem reg h1 h2 h3
    have hshape := h3 L.length (by simp)
    rw [List.getElem_append_right (le_refl _)] at hshape
    simp only [Nat.sub_self, List.getElem_cons_zero] at hshape
    have hlen : (L ++ (a :: P) :: R).length = (L ++ P :: R).length := by simp
    have hadd : ∀ Q : List (Nat × CAct), added (L ++ Q :: R).flatten =
        added L.flatten ++ (added Q ++ added R.flatten) := by
      intro Q; simp [added, List.filterMap_append]
    rcases hshape with ⟨xs, hx⟩ | ⟨x, xs, hx, g1, g2⟩
    · -- a read
      cases xs with
      | nil => simp [counterProg] at hx
      | cons x xs =>
        have hx' : a :: P = (L.length, CAct.load) :: (L.length, CAct.store x) :: counterProg L.length xs := hx
        injection hx' with ha hP
        subst ha
        have e : added (L ++ ((L.length, CAct.load) :: P) :: R).flatten = added (L ++ P :: R).flatten := by
          rw [hadd, hadd]; rfl
        rw [e] at h2 h3 ⊢
        have hb := ih mem (setAt reg L.length mem) h1 h2 (by
          intro i hi'
          by_cases hne : i = L.length
          · subst hne
            rw [List.getElem_append_right (le_refl _)]
            simp only [Nat.sub_self, List.getElem_cons_zero]
            refine .inr ⟨x, xs, hP, ?_, ?_⟩
            · simp [setAt, h1]
            · simp only [setAt, if_true]; omega
          · rw [getElem_split L R P ((L.length, CAct.load) :: P) i hi' (by omega) hne]
            exact (h3 i (by omega)).mono (le_refl _) (by simp [setAt, hne]))
        exact hb
    · -- a write
      injection hx with ha hP
      subst ha
      have e : (added (L ++ ((L.length, CAct.store x) :: P) :: R).flatten).sum =
          x + (added (L ++ P :: R).flatten).sum := by
        rw [hadd, hadd]
        have : added ((L.length, CAct.store x) :: P) = x :: added P := rfl
        rw [this]; simp only [List.sum_append, List.cons_append, List.sum_cons]; omega
      have hmem : x ∈ added (L ++ ((L.length, CAct.store x) :: P) :: R).flatten := by
        rw [hadd]; simp [added]
      have hsub : ∀ y ∈ added (L ++ P :: R).flatten,
          y ∈ added (L ++ ((L.length, CAct.store x) :: P) :: R).flatten := by
        intro y
        rw [hadd, hadd]
        have : added ((L.length, CAct.store x) :: P) = x :: added P := rfl
        rw [this]; simp only [List.mem_append, List.mem_cons]; tauto
      rw [e] at h2 h3 g2
      have hb := ih (reg L.length + x) reg (by omega) (by omega) (by
        intro i hi'
        by_cases hne : i = L.length
        · subst hne
          rw [List.getElem_append_right (le_refl _)]
          simp only [Nat.sub_self, List.getElem_cons_zero]
          exact .inl ⟨xs, hP⟩
        · rw [getElem_split L R P ((L.length, CAct.store x) :: P) i hi' (by omega) hne]
          exact (h3 i (by omega)).mono (by omega) rfl)
      refine ⟨hb.1, hb.2.1, .inr ?_⟩
      rcases hb.2.2 with ⟨hb, -⟩ | ⟨y, hy, hb⟩
      · refine ⟨x, hmem, ?_⟩
        have : counterRun ((L.length, CAct.store x) :: T) mem reg = counterRun T (reg L.length + x) reg := rfl
        rw [this, hb]; omega
      · exact ⟨y, hsub y hy, hb⟩

theorem counterThreads_length (l : Nat) (Xs : List (List Nat)) : (counterThreads l Xs).length = Xs.length := by
  induction Xs generalizing l with
  | nil => rfl
  | cons x Xs ih => simp [counterThreads, ih]

theorem counterThreads_get (l : Nat) (Xs : List (List Nat)) (i : Nat) (h : i < (counterThreads l Xs).length) :
    ∃ xs, (counterThreads l Xs)[i] = counterProg (l + i) xs := by
  induction Xs generalizing l i with
  | nil => simp [counterThreads] at h
  | cons x Xs ih =>
    cases i with
    | zero => exact ⟨x, rfl⟩
    | succ i =>
      obtain ⟨xs, e⟩ := ih (l + 1) i (by simpa [counterThreads] using h)
      exact ⟨xs, by rw [show l + (i + 1) = l + 1 + i by omega, ← e]; rfl⟩

theorem added_threads (l : Nat) (Xs : List (List Nat)) : added (counterThreads l Xs).flatten = Xs.flatten := by
  induction Xs generalizing l with
  | nil => rfl
  | cons x Xs ih =>
    have : added (counterThreads l (x :: Xs)).flatten =
        added (counterProg l x) ++ added (counterThreads (l + 1) Xs).flatten := by
      simp [counterThreads, added, List.filterMap_append]
    rw [this, added_prog, ih]; rfl

/-- **C51.** The counter `nbswaps` of `SLattice` after a parallel phase whose blocks counted the swaps `Xs` (one
list per thread), for every order of the memory accesses: it is at most the true total, and at least the count of
one of the blocks. -/
theorem C51_swap_counter (Xs : List (List Nat)) (T : List (Nat × CAct)) (init : Nat) (reg : Nat → Nat)
    (hT : Interleave (counterThreads 0 Xs) T) :
    counterRun T init reg ≤ init + Xs.flatten.sum ∧
      (Xs.flatten ≠ [] → ∃ x ∈ Xs.flatten, init + x ≤ counterRun T init reg) := by
  have h := counter_aux hT init (init + Xs.flatten.sum) init reg (le_refl _) (by rw [added_threads])
    (fun i hi => by
      obtain ⟨xs, e⟩ := counterThreads_get 0 Xs i hi
      rw [e, Nat.zero_add]; exact .inl ⟨xs, rfl⟩)
  rw [added_threads] at h
  refine ⟨h.2.1, fun hne => ?_⟩
  rcases h.2.2 with ⟨-, h0⟩ | h0
  · exact absurd h0 hne
  · exact h0

/-- **C51, exact without races.** One thread: the true total. -/
theorem C51_one_thread (xs : List Nat) (T : List (Nat × CAct)) (init : Nat) (reg : Nat → Nat)
    (hT : Interleave (counterThreads 0 [xs]) T) : counterRun T init reg = init + xs.sum := by
  have e : T = counterProg 0 xs := by
    have : ∀ (Ps : List (List (Nat × CAct))) T, Interleave Ps T → ∀ P, Ps = [P] → T = P := by
      intro Ps T h
      induction h with
      | done Ps hP => rintro P rfl; exact (hP P (by simp)).symm
      | step L R a P T _ ih =>
        intro Q hQ
        cases L with
        | nil =>
          simp only [List.nil_append, List.cons.injEq] at hQ
          obtain ⟨rfl, rfl⟩ := hQ
          rw [ih P rfl]
        | cons L1 L =>
          simp at hQ
    exact this _ _ hT _ rfl
  subst e
  clear hT
  induction xs generalizing init reg with
  | nil => rfl
  | cons x xs ih =>
    have : counterRun (counterProg 0 (x :: xs)) init reg =
        counterRun (counterProg 0 xs) (init + x) (setAt reg 0 init) := by
      show counterRun (counterProg 0 xs) (setAt reg 0 init 0 + x) (setAt reg 0 init) = _
      simp [setAt]
    rw [this, ih, List.sum_cons]; omega

/-- **C51, defect.** Two blocks with 5 and 3 swaps: the counter can end at 3, at 5 or at 8. -/
theorem C51_lost_update :
    ∀ v ∈ [3, 5, 8], ∃ T, Interleave (counterThreads 0 [[5], [3]]) T ∧ ∀ reg, counterRun T 0 reg = v := by
  have s0 : ∀ T', Interleave [[(0, CAct.store 5)], [(1, CAct.load), (1, CAct.store 3)]] T' →
      Interleave (counterThreads 0 [[5], [3]]) ((0, .load) :: T') := fun T' h => .step [] _ _ _ _ h
  intro v hv
  simp only [List.mem_cons, List.not_mem_nil, or_false] at hv
  rcases hv with rfl | rfl | rfl
  · exact ⟨[(0, .load), (1, .load), (0, .store 5), (1, .store 3)],
      s0 _ (.step [[(0, CAct.store 5)]] [] _ _ _ (.step [] _ _ _ _ (.step [[]] [] _ _ _ (.done _ (by simp))))),
      fun reg => rfl⟩
  · exact ⟨[(0, .load), (1, .load), (1, .store 3), (0, .store 5)],
      s0 _ (.step [[(0, CAct.store 5)]] [] _ _ _ (.step [[(0, CAct.store 5)]] [] _ _ _
        (.step [] _ _ _ _ (.done _ (by simp))))), fun reg => rfl⟩
  · exact ⟨[(0, .load), (0, .store 5), (1, .load), (1, .store 3)],
      s0 _ (.step [] _ _ _ _ (.step [[]] [] _ _ _ (.step [[]] [] _ _ _ (.done _ (by simp))))),
      fun reg => rfl⟩

end HPLLL.Props
