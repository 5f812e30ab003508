import Verif.Proof.ParSim
import Verif.Proof.UInv
import Verif.Props.Lattice
/-!
# Properties of the multi-threaded size reduction (`set_num_S`)
-/

namespace HPLLL.Props
open HPLLL Spec Matrix

variable {F : Type} (o : FPOps F)

theorem rowVal_sum (fl : Bool) (vx : Nat → F) (M : Mat Int) (r m : Nat) (a : Int) :
    rowVal o fl vx M r m a = a - ∑ i ∈ Finset.range m,
      (if o.isZero (vx i) then 0 else -multOf o fl (vx i) (vx i)) * M i r := by
  induction m generalizing a with
  | zero => simp [rowVal]
  | succ m ih =>
    rw [rowVal, ih, Finset.sum_range_succ]
    split <;> ring

/-- **C06 (schedules).** Parallel update of column `κ` by the multipliers `vx 0 .. vx (m-1)` of the
columns `0 .. m-1` (`m ≤ κ`), where `structure` bounds the supports of the columns.  There are
integers `c i`, which are the rounded multipliers themselves as soon as the conversions of `vx i` to
integers are faithful, such that for *every* number of threads `S ≥ 1` and *every* interleaving `T`
of their entry updates the final matrix is the original one with `Σ c i * (column i)` subtracted from
column `κ`, all other columns being unchanged. -/
theorem C06_all_schedules (fl : Bool) (κ m : Nat) (hm : m ≤ κ) (str : Nat → Int) (vx : Nat → F)
    (B : Mat Int) (hsupp : ∀ i < m, ∀ r : Nat, str i < r → B i r = 0) :
    ∃ c : Nat → Int,
      (∀ (i : Nat) (k : Int), (o.isZero (vx i) = true ↔ k = 0) → o.toZ (vx i) = k →
        (o.getSiExp (vx i)).1 * 2 ^ (o.getSiExp (vx i)).2 = k → c i = k) ∧
      ∀ (S : Nat) (_ : 0 < S) (T : List (Nat × Nat)),
        Interleave (psizeThreads (psizeNmax str m) S m) T →
        ∀ j r, execAll (psizeAct o fl κ vx) T B j r =
          if j = κ then B κ r - ∑ i ∈ Finset.range m, c i * B i r else B j r := by
  refine ⟨fun i => if o.isZero (vx i) then 0 else -multOf o fl (vx i) (vx i), ?_, ?_⟩
  · intro i k h0 hz hs
    by_cases h : o.isZero (vx i) = true
    · simp only [h, if_true]; exact (h0.1 h).symm
    · simp only [h, Bool.false_eq_true, if_false]
      unfold multOf
      split
      · rename_i he
        rw [he] at hs
        simp only [pow_zero, mul_one] at hs
        split
        · omega
        · split
          · omega
          · split <;> omega
      · split
        · rw [neg_mul, neg_neg, hs]
        · rw [hz, neg_neg]
  · intro S hS T hT j r
    rw [psize_schedules o fl κ m str vx S hm T hT B, psizeUpdateB_eq o fl κ m str vx S B hm hS,
      seqCols_eq o fl κ vx _ m hm B]
    by_cases hj : j = κ
    · subst hj
      rw [setCol_same, if_pos rfl]
      split
      · exact rowVal_sum o fl vx B r m _
      · rename_i hr
        symm
        rw [sub_eq_self]
        refine Finset.sum_eq_zero fun i hi => ?_
        have hi' := Finset.mem_range.1 hi
        have h1 := nmaxOf_le_psizeNmax str m i (by omega)
        rw [hsupp i hi' r (by unfold nmaxOf at h1; omega), mul_zero]
    · rw [setCol_ne _ _ hj, if_neg hj]

/-- **C06 (whole reduction).** For the size reduction method, the result of `hlll` (termination,
returned value, basis, number of tests and swaps, floating point data) is the same for all thread
settings `S, S' ≥ 1` and thresholds, for every floating point behaviour. -/
theorem C06_thread_settings_irrelevant (junk : F) (n d : Nat) (A : Mat Int) (forU : Bool)
    (method : Int) (hm : method < 1) (longFlag : Bool) (vd : Int) (S S' : Nat) (thr thr' : Int)
    (hS : 0 < S) (hS' : 0 < S') (nb fuel : Nat) (delta : F) (verbose : Bool) :
    (hlll o fuel delta verbose (fresh o junk n d A forU method longFlag vd S thr nb)).map
        (fun r => (r.1, r.2.getbase, r.2.nblov, r.2.nbswaps, r.2.fp)) =
    (hlll o fuel delta verbose (fresh o junk n d A forU method longFlag vd S' thr' nb)).map
        (fun r => (r.1, r.2.getbase, r.2.nblov, r.2.nbswaps, r.2.fp)) := by
  have h := SimO.hlll o (n := n) (d := d) (A := A) (track := False) (track' := False) fuel delta
    verbose (fresh o junk n d A forU method longFlag vd S thr nb)
    (fresh o junk n d A forU method longFlag vd S' thr' nb)
    (fresh_inv o junk n d A forU method longFlag vd S thr nb False (fun h => h.elim))
    (fresh_inv o junk n d A forU method longFlag vd S' thr' nb False (fun h => h.elim))
    hS hS' hm (le_refl d) (by constructor <;> rfl)
  cases e1 : hlll o fuel delta verbose (fresh o junk n d A forU method longFlag vd S thr nb) with
  | none =>
    cases e2 : hlll o fuel delta verbose
      (fresh o junk n d A forU method longFlag vd S' thr' nb) with
    | none => rfl
    | some r => rw [e1, e2] at h; exact h.elim
  | some r =>
    cases e2 : hlll o fuel delta verbose
      (fresh o junk n d A forU method longFlag vd S' thr' nb) with
    | none => rw [e1, e2] at h; exact h.elim
    | some r' =>
      rw [e1, e2] at h
      obtain ⟨a, hs⟩ := h
      simp only [Option.map_some, Lat.getbase, a, hs.n, hs.d, hs.B, hs.nblov, hs.nbswaps, hs.fp]

/-- **C07 (what holds).** With `forU` and independent columns, `getU()` is unimodular and
`getbase()` is a basis of the input lattice for every thread setting. -/
theorem C07_getU_unimodular_any_threads (junk : F) (n d : Nat) (A : Mat Int) (method : Int)
    (longFlag : Bool) (vd : Int) (S : Nat) (thr : Int) (nb : Nat)
    (hA : FullColumnRank (toMatrix n d A))
    (fuel : Nat) (delta : F) (verbose : Bool) (status : Int) (s' : Lat F)
    (h : hlll o fuel delta verbose
      (fresh o junk n d A true method longFlag vd S thr nb) = some (status, s')) :
    s'.getU.rows = d ∧ s'.getU.cols = d ∧ Unimodular (toMatrix d d s'.getU.M) := by
  have hU := UInv.hlll o delta fuel verbose (fresh o junk n d A true method longFlag vd S thr nb) s'
    status (le_refl d) (UInv.of_basis (n := n) A _ rfl rfl rfl rfl hA) h
  simp only [Lat.getU, hU.tr, if_true]
  exact ⟨hU.hd, hU.hd, unimodular_of_isUnit hU.uni⟩

/-- The basis of `ex1` with two threads. -/
def ex1Par : Lat Int := fresh toyOps 0 2 2 (ofCols [[5, 0], [3, 1]]) true 0 true 0 2 0 100

/-- **C07 (what does not hold).** In parallel mode `getU()` is *not* the transformation: on this
input `hlll` returns 0 with `A * getU() ≠ getbase()`. -/
theorem C07_getU_wrong_in_parallel_mode :
    ∃ s', hlll toyOps 20 toy99 true ex1Par = some (0, s') ∧
      toMatrix 2 2 (ofCols [[5, 0], [3, 1]]) * toMatrix 2 2 s'.getU.M ≠
        toMatrix 2 2 s'.getbase.M := by
  have h : (((hlll toyOps 20 toy99 true ex1Par).map fun r =>
      (r.1, r.2.transf, toCols 2 2 r.2.B, toCols 2 2 r.2.U)) ==
        some (0, true, [[-2, 1], [1, 2]], [[0, 1], [1, 0]])) = true := by decide +kernel
  rw [beq_iff_eq, Option.map_eq_some_iff] at h
  obtain ⟨⟨st, s'⟩, h1, h2⟩ := h
  simp only [Prod.mk.injEq] at h2
  obtain ⟨rfl, ht, hB, hU⟩ := h2
  refine ⟨s', h1, fun hc => ?_⟩
  have e := congrFun (congrFun hc 0) 0
  simp only [toCols, List.range, List.range.loop, List.map_cons, List.map_nil, List.cons.injEq,
    and_true] at hB hU
  simp [toMatrix, Matrix.mul_apply, Fin.sum_univ_two, Lat.getU, ht, Lat.getbase, hB, hU,
    ofCols] at e

/-- The same object with one thread and with two gives the same basis (instance of C06). -/
example : (hlll toyOps 20 toy99 true ex1Par).map (fun r => toCols 2 2 r.2.B) =
    some [[-2, 1], [1, 2]] := by decide +kernel

/-- A non-sequential schedule of two threads on a column of length 2. -/
example : Interleave (psizeThreads 2 2 2) [(1, 1), (1, 0), (0, 0), (0, 1)] := by
  have e : psizeThreads 2 2 2 = [[(1, 0), (0, 0)], [(1, 1), (0, 1)]] := by decide
  rw [e]
  refine .step [[(1, 0), (0, 0)]] [] _ _ _ ?_
  refine .step [] [[(0, 1)]] _ _ _ ?_
  refine .step [] [[(0, 1)]] _ _ _ ?_
  refine .step [[]] [] _ _ _ ?_
  exact .done _ (by simp)

end HPLLL.Props
