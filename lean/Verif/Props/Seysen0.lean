import Verif.Proof.HistX
import Verif.Proof.Sey0Exact
import Verif.Proof.Sey0Seq
import Verif.Props.Lattice
import Verif.Props.History
import Verif.Model.Toy
/-!
# Properties of the column reductions called directly, of `seysenreduce0` and of its threads
-/

namespace HPLLL.Props
open HPLLL Spec Matrix

variable {F : Type}

/-! ## C87: the parallel update of `pseysen_update_B` -/

/-- **C87 (schedules).** Parallel update of column `κ` by the multipliers `vx i` of the columns
`lo ≤ i < lo + m` (`lo + m ≤ κ`) which are not marked as bounded, where `structure` bounds the supports
of the columns.  There are integers `c i` such that for *every* number of threads `S ≥ 1` and *every*
interleaving `T` of their entry updates the final matrix is the original one with `Σ c i * (column i)`
over the unbounded `i` subtracted from column `κ`, all other columns being unchanged.  With the long
flag `c i` is the multiplier itself as soon as the conversion of `vx i` to an integer is faithful;
without it, unless `vx i` is converted to ±1, `c i` is the conversion of the *member* `x` of the object
(`xm`), whatever the multiplier. -/
theorem C87_all_schedules (o : FPOps F) (fl : Bool) (κ lo m : Nat) (hm : lo + m ≤ κ)
    (bounded : Nat → Bool) (str : Nat → Int) (vx : Nat → F) (xm : F)
    (B : Mat Int) (hsupp : ∀ i, lo ≤ i → i < lo + m → ∀ r : Nat, str i < r → B i r = 0) :
    ∃ c : Nat → Int,
      (fl = true → ∀ (i : Nat) (k : Int),
        (o.getSiExp (vx i)).1 * 2 ^ (o.getSiExp (vx i)).2 = k → c i = k) ∧
      (fl = false → ∀ i : Nat, ¬((o.getSiExp (vx i)).2 = 0 ∧ |(o.getSiExp (vx i)).1| = 1) →
        c i = o.toZ xm) ∧
      ∀ (S : Nat) (_ : 0 < S) (T : List (Nat × Nat)),
        Interleave (pseysenThreads (pseysenNmax str lo m) S lo bounded m) T →
        ∀ j r, execAll (pseysenAct o fl κ vx xm) T B j r =
          if j = κ then B κ r -
            ∑ i ∈ (Finset.Ico lo (lo + m)).filter (fun i => bounded i = false), c i * B i r
          else B j r := by
  refine ⟨fun i => -multOf o fl (vx i) xm, ?_, ?_, ?_⟩
  · rintro rfl i k hs
    show -multOf o true (vx i) xm = k
    simp only [multOf, if_true]
    by_cases he : (o.getSiExp (vx i)).2 = 0
    · rw [he] at hs
      simp only [pow_zero, mul_one] at hs
      rw [if_pos he]
      by_cases h1 : (o.getSiExp (vx i)).1 = 1
      · rw [if_pos h1]; omega
      · rw [if_neg h1]
        by_cases h2 : (o.getSiExp (vx i)).1 = -1
        · rw [if_pos h2]; omega
        · rw [if_neg h2]; omega
    · rw [if_neg he, neg_mul, neg_neg, hs]
  · rintro rfl i h1
    show -multOf o false (vx i) xm = o.toZ xm
    simp only [multOf, Bool.false_eq_true, if_false]
    by_cases he : (o.getSiExp (vx i)).2 = 0
    · rw [if_pos he, if_neg (fun h => h1 ⟨he, by rw [h]; rfl⟩),
        if_neg (fun h => h1 ⟨he, by rw [h]; rfl⟩), neg_neg]
    · rw [if_neg he, neg_neg]
  · intro S hS T hT j r
    rw [pseysen_schedules o fl κ lo m bounded str vx xm S hm T hT B,
      pseysenUpdateB_eq o fl κ lo m bounded str vx xm S B hm hS, pseyCols_eq o fl κ lo bounded vx xm _ m hm B]
    by_cases hj : j = κ
    · subst hj
      rw [setCol_same, if_pos rfl]
      have e : ∑ i ∈ (Finset.Ico lo (lo + m)).filter (fun i => bounded i = false),
          -multOf o fl (vx i) xm * B i r =
          -∑ i ∈ Finset.range m, pseyMult o fl bounded vx xm (lo + i) * B (lo + i) r := by
        rw [Finset.sum_filter, Finset.sum_Ico_eq_sum_range, add_tsub_cancel_left, ← Finset.sum_neg_distrib]
        refine Finset.sum_congr rfl fun i _ => ?_
        unfold pseyMult
        by_cases h : bounded (lo + i) = true
        · simp [h]
        · simp [h]
      rw [e, sub_neg_eq_add]
      split
      · rfl
      · rename_i hr
        symm
        rw [add_eq_left]
        refine Finset.sum_eq_zero fun i hi => ?_
        have hi' := Finset.mem_range.1 hi
        have h1 := nmaxOf_le_pseysenNmax str lo m (lo + i) (by omega) (by omega)
        rw [hsupp (lo + i) (by omega) (by omega) r (by unfold nmaxOf at h1; omega), mul_zero]
    · rw [setCol_ne _ _ hj, if_neg hj]

/-- A schedule that is not sequential: two threads, columns 0 and 2 unbounded, column 1 bounded. -/
example : Interleave (pseysenThreads 2 2 0 (fun i => i == 1) 3) [(2, 1), (2, 0), (0, 0), (0, 1)] := by
  have e : pseysenThreads 2 2 0 (fun i => i == 1) 3 = [[(2, 0), (0, 0)], [(2, 1), (0, 1)]] := by decide
  rw [e]
  refine .step [[(2, 0), (0, 0)]] [] _ _ _ ?_
  refine .step [] [[(0, 1)]] _ _ _ ?_
  refine .step [] [[(0, 1)]] _ _ _ ?_
  refine .step [[]] [] _ _ _ ?_
  exact .done _ (by simp)

/-! ## C87: histories with direct calls of the column reductions -/

theorem newLattice_histX (o : FPOps F) (junk : F) (n d : Nat) (A : Mat Int) (forU : Bool)
    (method : Int) (longFlag : Bool) (vd : Int) :
    HistX n d A forU vd True (newLattice o junk n d A forU method longFlag vd) :=
  ⟨newLattice_hist o junk n d A forU method longFlag vd, fun _ => Or.inl rfl,
    fun _ _ _ h => by simp [newLattice] at h⟩

/-- **C87 (histories).** After *any* history of `hlll`, `hlllp`, `assign`, `shift_assign`,
`set_nblov_max`, `set_num_S`, `setprec`, `householder`, `householder_r` calls and of direct calls of
`hsizereduce`, `seysenreduce`, `seysenreduce0`, `newseysenreduce` on any columns `1 ≤ κ < d` (every
computation with its own arbitrary floating point behaviour), `getbase()` generates the lattice of the
last basis assigned and has its Gram determinant; with `forU` and independent columns `getU()` is
unimodular, and if all `set_num_S` calls are sequential it is the transformation from the last basis
assigned; `verboseDepth` is unchanged, and for `n ≥ d` every index used was in range. -/
theorem C87_histories (o : FPOps F) (junk : F) (n d : Nat) (A : Mat Int) (forU : Bool)
    (method : Int) (longFlag : Bool) (vd : Int) (cs : List (XCall F)) (s : Lat F)
    (hr : XRuns (newLattice o junk n d A forU method longFlag vd) cs s) :
    s.getbase.rows = n ∧ s.getbase.cols = d ∧
      lattice (toMatrix n d s.getbase.M) = lattice (toMatrix n d (lastBasisX A cs)) ∧
      ((toMatrix n d s.getbase.M).transpose * toMatrix n d s.getbase.M).det =
        ((toMatrix n d (lastBasisX A cs)).transpose * toMatrix n d (lastBasisX A cs)).det ∧
      (forU = true → FullColumnRank (toMatrix n d (lastBasisX A cs)) →
        Unimodular (toMatrix d d s.getU.M) ∧
        ((∀ S thr, XCall.base (.setNumS S thr) ∈ cs → S = 1 ∨ (d : Int) ≤ thr) →
          toMatrix n d (lastBasisX A cs) * toMatrix d d s.getU.M = toMatrix n d s.getbase.M)) ∧
      s.verboseDepth = vd ∧ (d ≤ n → s.ub = false) := by
  have h := ((newLattice_histX o junk n d A forU method longFlag vd).runs hr).inv
  obtain ⟨W, hW, hB, hU⟩ := h.inv.uni
  refine ⟨h.inv.hn, h.inv.hd, ?_, ?_, ?_, h.vd, h.ub⟩
  · simp only [Lat.getbase]
    rw [hB, lattice_mul_unit _ _ hW]
  · simp only [Lat.getbase]; rw [hB, gram_det_mul_unit _ _ hW]
  · intro h1 h2
    have ht : s.transf = true := h.tr.trans h1
    simp only [Lat.getU, ht, if_true, Lat.getbase]
    refine ⟨unimodular_of_isUnit (h.uinv h1 h2).uni, fun hs => ?_⟩
    rw [hU ⟨h1, h2, hs⟩, hB]

/-- The constant `0.50001` of `seysenreduce0` for `toyOps`. -/
def toy50001 : Int := toyScale * 50001 / 100000

/-- A two-threaded object on the columns (5,0), (13,1), after `householder()`. -/
def exSey0Par : Lat Int :=
  ((newLattice toyOps 0 2 2 (ofCols [[5, 0], [13, 1]]) true 0 true 0).setNumS 2 0).householder toyOps

/-- **C87 (what does not hold): `getU()` in parallel mode.** The history `set_num_S(2, 0)`;
`householder()`; `seysenreduce0(1)` on this basis returns with `A * getU() ≠ getbase()`: the parallel
branch does not update the transformation. -/
theorem C87_getU_wrong_in_parallel_mode : ∃ s', XRuns
      (newLattice toyOps 0 2 2 (ofCols [[5, 0], [13, 1]]) true 0 true 0)
      [.base (.setNumS 2 0), .base (.householder toyOps), .seysenreduce0 toyOps toy50001 1] s' ∧
    toMatrix 2 2 (ofCols [[5, 0], [13, 1]]) * toMatrix 2 2 s'.getU.M ≠ toMatrix 2 2 s'.getbase.M := by
  have h : (((seysenreduce0 toyOps toy50001 10 1 exSey0Par).map fun r =>
      (r.1, r.2.transf, toCols 2 2 r.2.B, toCols 2 2 r.2.U)) ==
        some (0, true, [[5, 0], [-2, 1]], [[1, 0], [0, 1]])) = true := by decide +kernel
  rw [beq_iff_eq, Option.map_eq_some_iff] at h
  obtain ⟨⟨st, s'⟩, h1, h2⟩ := h
  simp only [Prod.mk.injEq] at h2
  obtain ⟨rfl, ht, hB, hU⟩ := h2
  refine ⟨s', ?_, fun hc => ?_⟩
  · refine .snoc _ exSey0Par _ [.base (.setNumS 2 0), .base (.householder toyOps)] _ ?_
      (.seysenreduce0 toyOps toy50001 1 _ _ ⟨by decide, by decide⟩ 10 0 h1)
    refine .snoc _ _ _ [.base (.setNumS 2 0)] _ ?_ (.base _ _ _ (.householder toyOps _))
    exact .snoc _ _ _ [] _ (.nil _) (.base _ _ _ (.setNumS 2 0 _))
  · have e := congrFun (congrFun hc 0) 1
    simp only [toCols, List.range, List.range.loop, List.map_cons, List.map_nil, List.cons.injEq,
      and_true] at hB hU
    simp [toMatrix, Matrix.mul_apply, Fin.sum_univ_two, Lat.getU, ht, Lat.getbase, hB, hU,
      ofCols] at e

/-- **C87 (the factor in parallel mode).** If every non empty block takes the parallel branch
(`num_S ≠ 1`, `par_reduce_threshold ≤ 1`) and column `κ` is not kept at the call, then
`seysenreduce0(κ)`, when it returns, returns 0 and leaves a factor which belongs to the current basis, in
any arithmetic: forgetting that column `κ` is kept and calling `householder_r(κ)` again gives back every
floating point number and mark of the object as it is. -/
theorem C87_fresh_in_parallel_mode (o : FPOps F) (thr : F) (fuel κ : Nat) (hκ : 0 < κ) (s s' : Lat F)
    (st : Int) (hS : s.numS ≠ 1) (ht : s.parThr ≤ 1) (hk : s.fp.colKept κ = false)
    (h : seysenreduce0 o thr fuel κ s = some (st, s')) :
    st = 0 ∧
      (Lat.hhR o κ { s' with fp := { s'.fp with colKept := setAt s'.fp.colKept κ false } }).fp =
        s'.fp := by
  obtain ⟨h0, u, hu, b, rfl⟩ := seysenreduce0_quiet o thr fuel s st s' ⟨hS, ht⟩ hk h
  exact ⟨h0, householderR_idem o u.str u.B κ hκ u.fp hu⟩

/-- The hypotheses hold of the example, in which the call changes the basis. -/
example : exSey0Par.numS ≠ 1 ∧ exSey0Par.parThr ≤ 1 ∧ exSey0Par.fp.colKept 1 = false ∧
    ∃ s', seysenreduce0 toyOps toy50001 10 1 exSey0Par = some (0, s') ∧ s'.B 1 0 ≠ exSey0Par.B 1 0 := by
  have h : (((seysenreduce0 toyOps toy50001 10 1 exSey0Par).map fun r =>
      (r.1, r.2.B 1 0)) == some (0, -2)) = true := by decide +kernel
  rw [beq_iff_eq, Option.map_eq_some_iff] at h
  obtain ⟨⟨st, s'⟩, h1, h2⟩ := h
  simp only [Prod.mk.injEq] at h2
  obtain ⟨rfl, h2⟩ := h2
  exact ⟨by decide, by decide, by decide +kernel, s', h1, by rw [h2]; decide⟩

/-- **C87 (reduction in parallel mode).** In exact arithmetic, on a new object with `num_S ≠ 1` and
`par_reduce_threshold ≤ 1`, on independent columns: when `seysenreduce0(κ)` called after `householder()`
returns, column `κ` of `getbase()` is Seysen-reduced with constant
`thr (1 + eps ‖b_κ‖ / min ‖b*_j‖)` (`thr` is the literal 0.50001, `eps` 10⁻¹¹; `b_κ` is the column
returned, `b*_j`, `j < κ`, the Gram–Schmidt vectors), with or without the long flag, and the other
columns are unchanged. -/
theorem C87_reduced_in_parallel_mode {o : FPOps ℝ} (ho : Exact o) (junk : ℝ) (n d : ℕ) (hdn : d ≤ n)
    (A : Mat Int) (hA : FullColumnRank (toMatrix n d A)) (forU : Bool) (method : ℤ) (longFlag : Bool)
    (vd : ℤ) (S : ℕ) (hS : S ≠ 1) (pthr : ℤ) (hp : pthr ≤ 1) (nb : ℕ) (κ : Fin d) (hκ : 0 < (κ : ℕ))
    (thr : ℝ) (fuel : ℕ) (st : ℤ) (s' : Lat ℝ)
    (h : seysenreduce0 o thr fuel κ
      ((fresh o junk n d A forU method longFlag vd S pthr nb).householder o) = some (st, s')) :
    (∀ j : ℕ, j ≠ κ → s'.getbase.M j = A j) ∧
      ∀ c : ℝ, (∀ j < κ, thr * (1 + o.eps * ‖colVec (toMatrix n d s'.getbase.M) κ‖ /
          ‖gs (toMatrix n d s'.getbase.M) j‖) ≤ c) →
        SeysenCol c (toMatrix n d s'.getbase.M) κ := by
  refine ⟨fun j hj => (seysenreduce0_zsX o thr fuel _ st s' h).frame.Bcol j hj, fun c hc => ?_⟩
  exact seysenreduce0_col ho hκ κ.2 hdn hA _
    (fresh_inv o junk n d A forU method longFlag vd S pthr nb False (fun h => h.elim)) ⟨hS, hp⟩ rfl
    (householder_keep o _).1 (fun r _ _ => ho.zero) thr fuel st s' h c fun j hj => hc j hj

/-- One block of one column: the call returns at once if the coefficient is at most `thr`. -/
theorem seysenreduce0_one {o : FPOps ℝ} (ho : Exact o) (junk : ℝ) (n d : ℕ) (hdn : d ≤ n) (hd : 1 < d)
    (A : Mat Int) (hA : FullColumnRank (toMatrix n d A)) (forU : Bool) (method : ℤ) (longFlag : Bool)
    (vd : ℤ) (S : ℕ) (pthr : ℤ) (nb : ℕ) (thr : ℝ)
    (hmu : |(inner ℝ (colVec (toMatrix n d A) ⟨0, by omega⟩) (colVec (toMatrix n d A) ⟨1, hd⟩) : ℝ)| ≤
      thr * ‖colVec (toMatrix n d A) ⟨0, by omega⟩‖ ^ 2) :
    ∃ s', seysenreduce0 o thr 1 1
      ((fresh o junk n d A forU method longFlag vd S pthr nb).householder o) = some (0, s') := by
  set s := fresh o junk n d A forU method longFlag vd S pthr nb with hs
  have hI : LInv n d A False s := fresh_inv o junk n d A forU method longFlag vd S pthr nb False (fun h => h.elim)
  have hg := hI.geo hA
  obtain ⟨v1, v2⟩ := hhAll_vsupp ho s.B s.str hg s.fp d le_rfl
  have hq0 := hhAll_spec ho s.B s.fp hA hdn d le_rfl
  have hfp : (s.householder o).fp = (List.range d).foldl (fun p κ => hhAllCol o n d s.B κ p) s.fp := rfl
  simp only [] at v1 v2 hq0
  rw [← hfp] at v1 v2 hq0
  set s0 := s.householder o with hs0
  set u : Lat ℝ := { s0 with fp := { s0.fp with nmaxkappa := nmaxOf s0.str 1 } } with hu
  have hv : ∀ k < 1, ∀ r, nmaxOf s0.str 1 ≤ r → r < n → s0.fp.V k r = 0 := fun k hk r h1 h2 =>
    v1 k (by omega) r ((hg.mono k 1 (by omega) hd).trans h1) h2
  have hSI : S0Inv n d A 1 s0 u := ⟨hI.congr rfl rfl rfl rfl rfl rfl rfl rfl, rfl, fun _ _ => rfl,
    by constructor <;> intros <;> rfl,
      fun r h1 h2 => by
        show s0.fp.Bfp 1 r = 0
        rw [v2]; exact ho.zero,
      by show (s.householder o).fp.colKept 1 = false
         rw [(householder_keep o s).1]; rfl⟩
  obtain ⟨hP, hF⟩ := hSI.spec ho one_pos hd hA hv
  have e0 : (u.hhR o 1).fp.R 0 0 = s0.fp.R 0 0 := by rw [hF.R 0 (by omega)]
  have e1 : (u.hhR o 1).fp.R 1 0 = s0.fp.R 1 0 := by
    have h1 := hP.r 0 (by have := hg.diag 1 hd; show 0 < nmaxOf s.str 1; omega)
    have h2 := hq0.rdef 1 hd 0 (by omega)
    have h3 := Ex.app_succ_lt n s0.fp.V 1 (bv n s.B 1) 0 one_pos
    rw [hF.V] at h1
    exact h1.trans (h3.symm.trans h2.symm)
  have hgs : gs (toMatrix n d A) ⟨0, by omega⟩ = colVec (toMatrix n d A) ⟨0, by omega⟩ := by
    have h0 := InnerProductSpace.gramSchmidt_def'' ℝ (colVec (toMatrix n d A)) ⟨0, by omega⟩
    have hI : Finset.Iio (⟨0, by omega⟩ : Fin d) = ∅ := by
      ext x; simp [Fin.lt_def]
    rw [hI, Finset.sum_empty, add_zero] at h0
    exact h0.symm
  have i0 := hq0.inner_gs hdn ⟨0, by omega⟩ ⟨0, by omega⟩
  have i1 := hq0.inner_gs hdn ⟨0, by omega⟩ ⟨1, hd⟩
  rw [if_pos (by simp)] at i0 i1
  have hsB : s.B = A := rfl
  rw [hsB, hgs] at i0 i1
  rw [real_inner_self_eq_norm_sq] at i0
  rw [i1, i0] at hmu
  simp only [] at hmu
  have hR := hq0.rdiag 0 (by omega)
  have hR' := abs_pos.mpr hR
  have hq : |s0.fp.R 1 0| ≤ thr * |s0.fp.R 0 0| := by
    rw [abs_mul, show s0.fp.R 0 0 * s0.fp.R 0 0 = |s0.fp.R 0 0| * |s0.fp.R 0 0| from (abs_mul_abs_self _).symm] at hmu
    nlinarith
  have hthr : 0 ≤ thr := by
    by_contra hc
    have := abs_nonneg (s0.fp.R 1 0)
    nlinarith
  set θ := o.mul (o.sqrt ((u.hhR o 1).fp.normB2 1)) o.eps with hθ
  have hθ0 : 0 ≤ θ := by rw [hθ, ho.mul, ho.sqrt]; exact mul_nonneg (Real.sqrt_nonneg _) ho.eps
  have hlt : o.lt thr (o.abs (o.div ((u.hhR o 1).fp.R 1 0)
      (o.add (o.abs ((u.hhR o 1).fp.R 0 0)) θ))) = false := by
    rw [Bool.eq_false_iff, ne_eq, ho.lt, ho.abs, ho.div, ho.add, ho.abs, e0, e1, not_lt, abs_div,
      abs_of_pos (show 0 < |s0.fp.R 0 0| + θ by linarith), div_le_iff₀ (by linarith)]
    nlinarith
  have hd0 : (sey0Blocks o thr θ 1 (1 + 1) 1 0
      ({ s := u.hhR o 1, tmpcol := fun _ => o.zero, vectx := fun _ => o.zero, somedone := false },
        fun _ => false)).1.somedone = false := by
    simp only [sey0Blocks, le_refl, if_true, show ¬ (1 * 2 ≤ 1) by omega, if_false]
    unfold sey0Block
    have : ¬ (1 / 1 % 2 = 0) := by decide
    simp only [this, if_false]
    simp only [show 1 - 0 - 1 = 0 by omega, show 1 - 0 - 0 = 1 by omega, sey0Solve]
    split <;> simpa using hlt
  unfold seysenreduce0
  simp only [sey0Loop]
  rw [if_neg (by rw [Bool.not_eq_true]; exact hd0)]
  exact ⟨_, rfl⟩
/-- The hypotheses of the theorem above hold of a run on the columns (5,0), (2,1). -/
example : ∃ s', seysenreduce0 realOps (50001 / 100000) 1 1
    ((fresh realOps 7 2 2 (ofCols [[5, 0], [2, 1]]) true 0 true 0 2 0 100).householder realOps) =
      some (0, s') := by
  have hA : FullColumnRank (toMatrix 2 2 (ofCols [[5, 0], [2, 1]])) := by
    have : (toMatrix 2 2 (ofCols [[5, 0], [2, 1]])).det ≠ 0 := by
      rw [Matrix.det_fin_two]; decide
    exact Matrix.linearIndependent_cols_of_det_ne_zero this
  refine seysenreduce0_one realOps_exact.toExact 7 2 2 le_rfl (by decide) _ hA true 0 true 0 2 0 100 _ ?_
  have e0 : colVec (toMatrix 2 2 (ofCols [[5, 0], [2, 1]])) 0 = !₂[(5 : ℝ), 0] := by
    ext i; fin_cases i <;> simp [colVec, toMatrix, ofCols]
  have e1 : colVec (toMatrix 2 2 (ofCols [[5, 0], [2, 1]])) 1 = !₂[(2 : ℝ), 1] := by
    ext i; fin_cases i <;> simp [colVec, toMatrix, ofCols]
  show |(inner ℝ (colVec (toMatrix 2 2 (ofCols [[5, 0], [2, 1]])) 0)
    (colVec (toMatrix 2 2 (ofCols [[5, 0], [2, 1]])) 1) : ℝ)| ≤
      50001 / 100000 * ‖colVec (toMatrix 2 2 (ofCols [[5, 0], [2, 1]])) 0‖ ^ 2
  rw [e0, e1, EuclideanSpace.norm_sq_eq]
  norm_num [PiLp.inner_apply, Fin.sum_univ_two]
/-- **C87 (reduction in sequential mode).** In exact arithmetic, on a new object with the long flag and
`num_S = 1` or `d ≤ par_reduce_threshold`, on independent columns: when `seysenreduce0(κ)` called after
`householder()` returns, it returns 0, the other columns are unchanged and column `κ` of `getbase()` is
Seysen-reduced with constant 1/2, whatever the literal `thr`: the marks `bounded` are not used, every pass
rounds every coefficient (this includes the last pass, after which the factor is not recomputed,
`C87_stale_factor`). -/
theorem C87_reduced_in_sequential_mode {o : FPOps ℝ} (ho : Exact o) (junk : ℝ) (n d : ℕ) (hdn : d ≤ n)
    (A : Mat Int) (hA : FullColumnRank (toMatrix n d A)) (forU : Bool) (method : ℤ)
    (vd : ℤ) (S : ℕ) (pthr : ℤ) (hS : S = 1 ∨ (d : ℤ) ≤ pthr) (nb : ℕ) (κ : Fin d) (hκ : 0 < (κ : ℕ))
    (thr : ℝ) (fuel : ℕ) (st : ℤ) (s' : Lat ℝ)
    (h : seysenreduce0 o thr fuel κ
      ((fresh o junk n d A forU method true vd S pthr nb).householder o) = some (st, s')) :
    st = 0 ∧ (∀ j : ℕ, j ≠ κ → s'.getbase.M j = A j) ∧
      SeysenCol (1 / 2) (toMatrix n d s'.getbase.M) κ :=
  seysenreduce0_seq ho hκ κ.2 hdn hA _
    (fresh_inv o junk n d A forU method true vd S pthr nb False (fun h => h.elim)) ⟨rfl, hS⟩ rfl
    (householder_keep o _).1 (fun r _ _ => ho.zero) thr fuel st s' h

/-- The hypotheses hold of a run on the columns (10⁶,0), (500005,1), whose coefficient is between 1/2 and
0.50001: a column with constant 1/2 is returned, so the basis has changed. -/
example : ∃ s', seysenreduce0 realOps (50001 / 100000) 1 1
    ((fresh realOps 7 2 2 (ofCols [[1000000, 0], [500005, 1]]) true 0 true 0 1 0 100).householder
      realOps) = some (0, s') := by
  have hA : FullColumnRank (toMatrix 2 2 (ofCols [[1000000, 0], [500005, 1]])) := by
    have : (toMatrix 2 2 (ofCols [[1000000, 0], [500005, 1]])).det ≠ 0 := by
      rw [Matrix.det_fin_two]; decide
    exact Matrix.linearIndependent_cols_of_det_ne_zero this
  refine seysenreduce0_one realOps_exact.toExact 7 2 2 le_rfl (by decide) _ hA true 0 true 0 1 0 100 _ ?_
  have e0 : colVec (toMatrix 2 2 (ofCols [[1000000, 0], [500005, 1]])) 0 = !₂[(1000000 : ℝ), 0] := by
    ext i; fin_cases i <;> simp [colVec, toMatrix, ofCols]
  have e1 : colVec (toMatrix 2 2 (ofCols [[1000000, 0], [500005, 1]])) 1 = !₂[(500005 : ℝ), 1] := by
    ext i; fin_cases i <;> simp [colVec, toMatrix, ofCols]
  show |(inner ℝ (colVec (toMatrix 2 2 (ofCols [[1000000, 0], [500005, 1]])) 0)
    (colVec (toMatrix 2 2 (ofCols [[1000000, 0], [500005, 1]])) 1) : ℝ)| ≤
      50001 / 100000 * ‖colVec (toMatrix 2 2 (ofCols [[1000000, 0], [500005, 1]])) 0‖ ^ 2
  rw [e0, e1, EuclideanSpace.norm_sq_eq]
  norm_num [PiLp.inner_apply, Fin.sum_univ_two]

/-- The columns (10⁶, 0), (500005, 1), after `householder()`. -/
def exSey0Seq : Lat Int :=
  (newLattice toyOps 0 2 2 (ofCols [[1000000, 0], [500005, 1]]) true 0 true 0).householder toyOps

/-- **C87 (what does not hold): the factor.** With one thread the update ignores the marks `bounded`, so
that the last pass may change the basis although nothing is counted as done: here `seysenreduce0(1)`
returns 0 having replaced the second column by (-499995, 1), and the object keeps the factor entry
`R(0,1) ≈ ∓500005` of the previous column (the recomputed one has the opposite sign and a different
absolute value), which is still marked as valid (`col_kept`). -/
theorem C87_stale_factor : ∃ s', seysenreduce0 toyOps toy50001 10 1 exSey0Seq = some (0, s') ∧
    s'.B 1 0 = -499995 ∧ s'.B 1 1 = 1 ∧ s'.fp.colKept 1 = true ∧
    s'.fp.R 1 0 < -500004 * toyScale ∧ (s'.householder toyOps).fp.R 1 0 > 499994 * toyScale ∧
    (s'.householder toyOps).fp.R 1 0 < 499996 * toyScale := by
  have h : (((seysenreduce0 toyOps toy50001 10 1 exSey0Seq).map fun r =>
      (r.1, toCols 2 2 r.2.B, r.2.fp.colKept 1, r.2.fp.R 1 0, (r.2.householder toyOps).fp.R 1 0)) ==
        some (0, [[1000000, 0], [-499995, 1]], true, -9223464270575144354769331,
          9223279803134407259253192)) = true := by decide +kernel
  rw [beq_iff_eq, Option.map_eq_some_iff] at h
  obtain ⟨⟨st, s'⟩, h1, h2⟩ := h
  simp only [Prod.mk.injEq, toCols, List.range, List.range.loop, List.map_cons, List.map_nil,
    List.cons.injEq, and_true] at h2
  obtain ⟨rfl, ⟨-, b1, b2⟩, hk, r1, r2⟩ := h2
  refine ⟨s', h1, b1, b2, hk, ?_, ?_, ?_⟩
  · rw [r1]; decide
  · rw [r2]; decide
  · rw [r2]; decide

end HPLLL.Props
