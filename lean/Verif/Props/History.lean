import Verif.Proof.ExactHist
import Verif.Proof.Seysen
import Verif.Props.Exact
/-!
# Properties of sequences of calls on a `Lattice` object, of `isreduced`, and of the Seysen method
-/

namespace HPLLL.Props
open HPLLL Spec Matrix

variable {F : Type}

theorem newLattice_hist (o : FPOps F) (junk : F) (n d : Nat) (A : Mat Int) (forU : Bool)
    (method : Int) (longFlag : Bool) (vd : Int) :
    HistInv n d A forU vd True (newLattice o junk n d A forU method longFlag vd) := by
  refine ⟨LInv.of_basis A _ _ rfl rfl rfl rfl (fun h => ⟨h.1, rfl, h.2.1, Or.inl rfl⟩),
    fun _ => Or.inl rfl, rfl, rfl, rfl, fun _ => rfl, fun h1 h2 => ?_⟩
  exact UInv.of_basis (n := n) A _ rfl rfl h1 rfl h2

/-- **C21.** After *any* history of `hlll`, `assign`, `shift_assign`, `set_nblov_max`, `set_num_S`,
`setprec` and `householder` calls (every computation with its own arbitrary floating point
behaviour), `getbase()` generates the lattice of the last basis assigned; with `forU` and independent
columns `getU()` is unimodular, and if all `set_num_S` calls are sequential it is the transformation
from the last basis assigned; the global `verboseDepth` is back to its value. -/
theorem C21_histories (o : FPOps F) (junk : F) (n d : Nat) (A : Mat Int) (forU : Bool)
    (method : Int) (longFlag : Bool) (vd : Int) (cs : List (Call F)) (s : Lat F)
    (hr : Runs (newLattice o junk n d A forU method longFlag vd) cs s) :
    s.getbase.rows = n ∧ s.getbase.cols = d ∧
      lattice (toMatrix n d s.getbase.M) = lattice (toMatrix n d (lastBasis A cs)) ∧
      (forU = true → FullColumnRank (toMatrix n d (lastBasis A cs)) →
        Unimodular (toMatrix d d s.getU.M) ∧
        ((∀ S thr, Call.setNumS S thr ∈ cs → S = 1 ∨ (d : Int) ≤ thr + 1) →
          toMatrix n d (lastBasis A cs) * toMatrix d d s.getU.M = toMatrix n d s.getbase.M)) ∧
      s.verboseDepth = vd := by
  have h := (newLattice_hist o junk n d A forU method longFlag vd).runs hr
  obtain ⟨W, hW, hB, hU⟩ := h.inv.uni
  refine ⟨h.inv.hn, h.inv.hd, ?_, ?_, h.vd⟩
  · simp only [Lat.getbase]
    rw [hB, lattice_mul_unit _ _ hW]
  · intro h1 h2
    have ht : s.transf = true := h.tr.trans h1
    simp only [Lat.getU, ht, if_true, Lat.getbase]
    refine ⟨unimodular_of_isUnit (h.uinv h1 h2).uni, fun hs => ?_⟩
    rw [hU ⟨h1, h2, hs⟩, hB]

/-- **C18.** For `n ≥ d`, in every history, all indices used by the modelled functions (columns and
rows of the basis, the transformation and the floating point matrices, bookkeeping vectors) were in
range, for every floating point behaviour. -/
theorem C18_index_safety (o : FPOps F) (junk : F) (n d : Nat) (hdn : d ≤ n) (A : Mat Int)
    (forU : Bool) (method : Int) (longFlag : Bool) (vd : Int) (cs : List (Call F)) (s : Lat F)
    (hr : Runs (newLattice o junk n d A forU method longFlag vd) cs s) : s.ub = false :=
  ((newLattice_hist o junk n d A forU method longFlag vd).runs hr).ub hdn

/-- **C18, Seysen blocks.** The blocks visited by the Seysen reduction of column `κ` are, for each
binary digit `t` of `κ` with `2^t ≤ κ`, the block of the `2^t` (or 0) columns that ends
`κ mod 2^t` columns before `κ`: the index computations never go below zero. -/
theorem C18_seysen_blocks (o : FPOps F) (κ : Nat) (q : SeyState F) :
    seysenBlocks o κ (κ + 1) 1 0 q =
      ((List.range' 0 (κ + 1)).filter fun t => 2 ^ t ≤ κ).foldl
        (fun q t => seysenBlock o κ (2 ^ t) (κ % 2 ^ t) q) q ∧
    ∀ t, κ % 2 ^ t + (if κ / 2 ^ t % 2 = 0 then 0 else 2 ^ t) ≤ κ := by
  refine ⟨?_, fun t => (seysen_offset κ t).2⟩
  have h := seysenBlocks_eq o κ (κ + 1) 0 q (by
    have := Nat.lt_two_pow_self (n := κ)
    calc κ < 2 ^ κ := this
      _ ≤ 2 ^ (0 + (κ + 1)) := Nat.pow_le_pow_right (by decide) (by omega))
  simpa [Nat.mod_one] using h

/-- **C21, resuming (exact arithmetic).** Take any history of exact computations on bases of
independent columns (`hlll` interrupted by any test budgets, thread settings, new bases reaching at
least as low as the previous one), then call `hlll(δ)`, `δ ≤ 1`: it returns 0, and unless the budget
is exhausted `getbase()` is a basis of the lattice of the last basis assigned which satisfies the
Lovász conditions and (size reduction method) is LLL-reduced. -/
theorem C21_resume {o o' : FPOps ℝ} (ho' : Exact o') (ho : Exact o) (junk : ℝ) (n d : ℕ)
    (A : Mat Int) (hA : FullColumnRank (toMatrix n d A)) (forU : Bool) (method : ℤ)
    (longFlag : Bool) (vd : ℤ) (cs : List (Call ℝ)) (t : Lat ℝ)
    (hr : Runs (newLattice o junk n d A forU method longFlag vd) cs t) (hc : ExHist n d A cs)
    (fuel : ℕ) (δ : ℝ) (hδ : δ ≤ 1) (v : Bool) (st : ℤ) (s' : Lat ℝ)
    (h : hlll o' fuel δ v t = some (st, s')) :
    st = 0 ∧ (s'.nblov < t.nblovMax →
      LovaszCond δ (toMatrix n d s'.getbase.M) ∧
      (method < 1 → LLLReduced δ (toMatrix n d s'.getbase.M)) ∧
      lattice (toMatrix n d s'.getbase.M) = lattice (toMatrix n d (lastBasis A cs))) := by
  have h0 : ExReady n d A (newLattice o junk n d A forU method longFlag vd) :=
    ⟨LInv.of_basis A _ _ rfl rfl rfl rfl (fun h => h.elim), Nat.one_pos, fun _ _ _ _ _ => ho.zero, rfl⟩
  obtain ⟨r1, r2, r3, r4⟩ := h0.runs hA (fun c hc => matrixStructure_mono n A (by omega)) hr hc
  obtain ⟨e1, e2, e3⟩ := r1.hlll ho' r2 hδ h
  have hX := hlll_exit o' fuel δ v t s' st r1.inv (le_of_eq r1.km) h
  refine ⟨e1, fun hb => ?_⟩
  obtain ⟨l1, l2⟩ := e3 (by rw [hX.cfg.nblovMax]; exact hb)
  have hs : s'.seysenFlag = method := by rw [hX.cfg.seysenFlag, r4]; rfl
  rw [hs] at l2
  obtain ⟨W, hW, hB, -⟩ := hX.inv.uni
  refine ⟨l1, fun hm => ⟨l2 hm, l1⟩, ?_⟩
  simp only [Lat.getbase]
  rw [hB, lattice_mul_unit _ _ hW]

/-- **C21, resuming terminates.** Under the same hypotheses (ties rounded towards zero, size reduction
method) the call returns. -/
theorem C21_resume_terminates {o o' : FPOps ℝ} (ho' : ExactTies o') (ho : Exact o) (junk : ℝ) (n d : ℕ)
    (A : Mat Int) (hA : FullColumnRank (toMatrix n d A)) (forU : Bool) (method : ℤ) (hm : method < 1)
    (longFlag : Bool) (vd : ℤ) (cs : List (Call ℝ)) (t : Lat ℝ)
    (hr : Runs (newLattice o junk n d A forU method longFlag vd) cs t) (hc : ExHist n d A cs)
    (δ : ℝ) (hδ : δ ≤ 1) (v : Bool) : ∃ fuel s', hlll o' fuel δ v t = some (0, s') := by
  have h0 : ExReady n d A (newLattice o junk n d A forU method longFlag vd) :=
    ⟨LInv.of_basis A _ _ rfl rfl rfl rfl (fun h => h.elim), Nat.one_pos, fun _ _ _ _ _ => ho.zero, rfl⟩
  obtain ⟨r1, r2, r3, r4⟩ := h0.runs hA (fun c hc => matrixStructure_mono n A (by omega)) hr hc
  exact r1.terminates ho' r2 hδ (by rw [r4]; exact hm) v

/-- A history with an interruption, in exact arithmetic. -/
example : ExHist 2 2 (ofCols [[5, 0], [3, 1]])
    [.setNblovMax 1, .hlll realOps 0.9 true, .setNumS 4 0, .setNblovMax 1000] := by
  refine ⟨realOps_exact.toExact, by norm_num, ⟨by norm_num, trivial⟩⟩

/-! ## `assign` on a used object -/

/-- An object on the columns (3,5), (5,-3), as constructed. -/
def exStale : Lat Int := newLattice toyOps 0 2 2 (ofCols [[3, 5], [5, -3]]) true 0 true 0

/-- **C19 (what does not hold).** `assign` does not clear the floating point copy of the basis.  On
this history `hlll; assign(A); hlll` returns 0 with a basis that is not size-reduced
(`2 |<b₀,b₁>| > |b₀|²`), whereas a fresh object on the same `A` gives a size-reduced one. -/
theorem C19_assign_not_fresh : ∃ s1 s2 t : Lat Int,
    hlll toyOps 30 toy99 true exStale = some (0, s1) ∧
    hlll toyOps 30 toy99 true (s1.assign (ofCols [[4, 0], [3, 1]])) = some (0, s2) ∧
    hlll toyOps 30 toy99 true (newLattice toyOps 0 2 2 (ofCols [[4, 0], [3, 1]]) true 0 true 0) =
      some (0, t) ∧
    2 * |s2.B 0 0 * s2.B 1 0 + s2.B 0 1 * s2.B 1 1| > s2.B 0 0 ^ 2 + s2.B 0 1 ^ 2 ∧
    2 * |t.B 0 0 * t.B 1 0 + t.B 0 1 * t.B 1 1| ≤ t.B 0 0 ^ 2 + t.B 0 1 ^ 2 := by
  have h : (((hlll toyOps 30 toy99 true exStale).bind fun r =>
      (hlll toyOps 30 toy99 true (r.2.assign (ofCols [[4, 0], [3, 1]]))).map fun q =>
        (r.1, q.1, toCols 2 2 q.2.B)) == some (0, 0, [[-1, 1], [4, 0]])) = true := by decide +kernel
  have h' : (((hlll toyOps 30 toy99 true (newLattice toyOps 0 2 2 (ofCols [[4, 0], [3, 1]])
      true 0 true 0)).map fun q => (q.1, toCols 2 2 q.2.B)) == some (0, [[-1, 1], [2, 2]])) = true := by
    decide +kernel
  rw [beq_iff_eq, Option.bind_eq_some_iff] at h
  obtain ⟨⟨st1, s1⟩, e1, h⟩ := h
  rw [Option.map_eq_some_iff] at h
  obtain ⟨⟨st2, s2⟩, e2, h⟩ := h
  rw [beq_iff_eq, Option.map_eq_some_iff] at h'
  obtain ⟨⟨st3, t⟩, e3, h'⟩ := h'
  simp only [Prod.mk.injEq, toCols, List.range, List.range.loop, List.map_cons, List.map_nil,
    List.cons.injEq, and_true] at h h'
  obtain ⟨rfl, rfl, ⟨a1, a2⟩, a3, a4⟩ := h
  obtain ⟨rfl, ⟨b1, b2⟩, b3, b4⟩ := h'
  refine ⟨s1, s2, t, e1, e2, e3, ?_, ?_⟩
  · rw [a1, a2, a3, a4]; decide
  · rw [b1, b2, b3, b4]; decide

/-- **C19 (what holds, exact arithmetic).** If the first column of the new basis reaches at least as
low as every column of the previous one, `assign` gives an object on which `hlll` is correct, as on a
fresh one: status 0, and a reduced basis of the lattice of the new basis. -/
theorem C19_assign_ok {o : FPOps ℝ} (ho : Exact o) (junk : ℝ) (n d : ℕ)
    (A A' : Mat Int) (hA : FullColumnRank (toMatrix n d A)) (hA' : FullColumnRank (toMatrix n d A'))
    (hp : matrixStructure n A (d - 1) ≤ matrixStructure n A' 0)
    (forU : Bool) (method : ℤ) (longFlag : Bool) (vd : ℤ) (fuel1 fuel2 : ℕ) (δ1 δ2 : ℝ)
    (h1 : δ1 ≤ 1) (h2 : δ2 ≤ 1) (v1 v2 : Bool) (st1 st2 : ℤ) (s1 s2 : Lat ℝ)
    (e1 : hlll o fuel1 δ1 v1 (newLattice o junk n d A forU method longFlag vd) = some (st1, s1))
    (e2 : hlll o fuel2 δ2 v2 (s1.assign A') = some (st2, s2)) :
    st2 = 0 ∧ (s2.nblov < 4294967295 → LovaszCond δ2 (toMatrix n d s2.getbase.M) ∧
      (method < 1 → LLLReduced δ2 (toMatrix n d s2.getbase.M)) ∧
      lattice (toMatrix n d s2.getbase.M) = lattice (toMatrix n d A')) := by
  have hr : Runs (newLattice o junk n d A forU method longFlag vd)
      [.hlll o δ1 v1, .assign A'] (s1.assign A') :=
    .snoc _ s1 _ [.hlll o δ1 v1] _ (.snoc _ _ _ [] _ (.nil _) (.hlll o δ1 v1 _ _ fuel1 st1 e1))
      (.assign A' s1)
  have hb : (s1.assign A').nblovMax = 4294967295 := by
    have hI : LInv n d A False (newLattice o junk n d A forU method longFlag vd) :=
      LInv.of_basis A _ _ rfl rfl rfl rfl (fun h => h.elim)
    exact (hlll_exit o fuel1 δ1 v1 _ s1 st1 hI (le_refl d) e1).cfg.nblovMax
  have := C21_resume ho ho junk n d A hA forU method longFlag vd _ _ hr
    ⟨ho, h1, hA', hp, trivial⟩ fuel2 δ2 h2 v2 st2 s2 e2
  rw [hb] at this
  exact this

/-- **C20.** After `shift(A, m, sigma)` with `forU`, `getU()` has a unit diagonal but keeps its
off-diagonal entries: it is the identity iff they were already zero. -/
theorem C20_shift_keeps_offdiagonal (s : Lat F) (ht : s.transf = true) (A : Mat Int) (m σ : Nat) :
    (∀ i j, j < s.d → (s.shift A m σ).getU.M j i = if i = j then 1 else s.getU.M j i) ∧
    (toMatrix s.d s.d (s.shift A m σ).getU.M = 1 ↔
      ∀ i < s.d, ∀ j < s.d, i ≠ j → s.getU.M j i = 0) := by
  have h1 : ∀ i j, j < s.d → (s.shift A m σ).getU.M j i = if i = j then 1 else s.getU.M j i := by
    intro i j hj
    have ht' : (s.shift A m σ).transf = true := ht
    simp only [Lat.getU, ht', ht, if_true]
    simp only [Lat.shift, ht, if_true, hj, and_true]
  refine ⟨h1, fun h i hi j hj hij => ?_, fun h => ?_⟩
  · have := congrFun (congrFun h ⟨i, hi⟩) ⟨j, hj⟩
    simp only [toMatrix, of_apply, Matrix.one_apply, Fin.ext_iff, h1 i j hj, if_neg hij] at this
    exact this
  · ext i j
    simp only [toMatrix, of_apply, Matrix.one_apply, Fin.ext_iff, h1 i j j.2]
    split
    · rfl
    · rename_i hij; exact h i i.2 j j.2 hij

/-- **C20 (witness).** After a reduction, `shift` leaves a transformation which is not the identity. -/
theorem C20_shift_not_identity : ∃ s', hlll toyOps 20 toy99 true ex1 = some (0, s') ∧
    toMatrix 2 2 (s'.shift (ofCols [[5, 0], [3, 1]]) 1 3).getU.M ≠ 1 := by
  have h : (((hlll toyOps 20 toy99 true ex1).map fun r =>
      (r.1, r.2.d, r.2.transf, toCols 2 2 r.2.U)) ==
        some (0, 2, true, [[-1, 1], [-1, 2]])) = true := by decide +kernel
  rw [beq_iff_eq, Option.map_eq_some_iff] at h
  obtain ⟨⟨st, s'⟩, e1, h⟩ := h
  simp only [Prod.mk.injEq, toCols, List.range, List.range.loop, List.map_cons, List.map_nil,
    List.cons.injEq, and_true] at h
  obtain ⟨rfl, hd, ht, ⟨a1, a2⟩, a3, a4⟩ := h
  refine ⟨s', e1, fun hc => ?_⟩
  have h2 := C20_shift_keeps_offdiagonal s' ht (ofCols [[5, 0], [3, 1]]) 1 3
  rw [hd] at h2
  have := h2.2.1 hc 1 (by decide) 0 (by decide) (by decide)
  simp only [Lat.getU, ht, if_true] at this
  omega

/-! ## Seysen method -/

/-- **C22.** With the Seysen method and `set_num_S(S, thr)`, `S ≠ 1`, `thr ≤ 1`, no size reduction is
ever done: for every input and floating point behaviour the columns of `getbase()` are a permutation
of the input columns. -/
theorem C22_seysen_parallel_only_permutes (o : FPOps F) (junk : F) (n d : Nat) (A : Mat Int)
    (forU : Bool) (method : Int) (hm : 1 ≤ method) (longFlag : Bool) (vd : Int) (S : Nat) (hS : S ≠ 1)
    (thr : Int) (hthr : thr ≤ 1) (nb fuel : Nat) (delta : F) (verbose : Bool) (status : Int)
    (s' : Lat F)
    (h : hlll o fuel delta verbose
      (fresh o junk n d A forU method longFlag vd S thr nb) = some (status, s')) :
    ∃ σ : Equiv.Perm (Fin d), ∀ (j : Fin d) (i : Nat), s'.getbase.M j i = A (σ j) i := by
  unfold hlll at h
  simp only [] at h
  split at h
  · simp at h
  · rename_i st1 s1 hl
    simp only [Option.some.injEq, Prod.mk.injEq] at h
    obtain ⟨rfl, h⟩ := h
    have := hlllLoop_seysen_par o (d := d) A delta fuel _ (by cases verbose <;> simp [hlllInit, fresh, newLattice, Lat.setNumS, Lat.setNblovMax] <;> omega)
      (by cases verbose <;> exact hS) (by cases verbose <;> exact hthr)
      (by cases verbose <;> exact le_refl d) (by exact Nat.one_pos)
      (by cases verbose <;> exact ⟨Equiv.refl _, fun _ => rfl⟩) _ _ hl
    obtain ⟨σ, hσ⟩ := this
    refine ⟨σ, fun j i => ?_⟩
    rw [← hσ j, ← h]
    cases verbose <;> rfl

/-- **C22 (witness).** Status 0 and not size-reduced. -/
theorem C22_seysen_parallel_not_reduced : ∃ s', hlll toyOps 30 toy99 true
      (fresh toyOps 0 2 2 (ofCols [[5, 0], [23, 7]]) true 1 true 0 2 1 100) = some (0, s') ∧
    2 * |s'.B 0 0 * s'.B 1 0 + s'.B 0 1 * s'.B 1 1| > s'.B 0 0 ^ 2 + s'.B 0 1 ^ 2 := by
  have h : (((hlll toyOps 30 toy99 true
      (fresh toyOps 0 2 2 (ofCols [[5, 0], [23, 7]]) true 1 true 0 2 1 100)).map fun q =>
        (q.1, toCols 2 2 q.2.B)) == some (0, [[5, 0], [23, 7]])) = true := by decide +kernel
  rw [beq_iff_eq, Option.map_eq_some_iff] at h
  obtain ⟨⟨st, s'⟩, e1, h⟩ := h
  simp only [Prod.mk.injEq, toCols, List.range, List.range.loop, List.map_cons, List.map_nil,
    List.cons.injEq, and_true] at h
  obtain ⟨rfl, ⟨a1, a2⟩, a3, a4⟩ := h
  refine ⟨s', e1, ?_⟩
  rw [a1, a2, a3, a4]; decide

/-- **C23.** Seysen method without the long flag: the multiple of column `i` subtracted from column
`κ` of the basis is the conversion of the member `x` (whatever it contains), not of the rounded
multiplier `xf` just computed (unless `xf` is ±1). -/
theorem C23_seysen_uses_stale_member (o : FPOps F) (κ rest i : Nat) (s : Lat F)
    (vx : Nat → F) (b : Bool) (hl : s.fastLong = false)
    (hz : o.isZero (o.rnd (vx i)) = false)
    (h1 : (o.getSiExp (o.rnd (vx i))).1 ≠ 1) (h2 : (o.getSiExp (o.rnd (vx i))).1 ≠ -1) (r : Nat)
    (hr : (r : Int) ≤ s.str i) :
    (seysenUpdateStep o κ rest i (s, vx, b)).1.B κ r = s.B κ r - o.toZ s.fp.x * s.B i r := by
  have hr' : r < nmaxOf s.str i := by unfold nmaxOf; omega
  simp only [seysenUpdateStep, hz, Bool.false_eq_true, if_false, redZ, hl, h1, h2]
  split <;> simp [submulcol, setCol_same, hr']

/-- **C23 (witness).** The outcome depends on the uninitialised member: with one content the column
is not reduced at all although 0 is returned, with another one it is. -/
theorem C23_seysen_depends_on_junk : ∃ s t : Lat Int,
    hlll toyOps 30 toy99 true
      (fresh toyOps 0 2 2 (ofCols [[5, 0], [23, 7]]) true 1 false 0 1 1 100) = some (0, s) ∧
    hlll toyOps 30 toy99 true
      (fresh toyOps (5 * toyScale) 2 2 (ofCols [[5, 0], [23, 7]]) true 1 false 0 1 1 100) =
        some (0, t) ∧
    2 * |s.B 0 0 * s.B 1 0 + s.B 0 1 * s.B 1 1| > s.B 0 0 ^ 2 + s.B 0 1 ^ 2 ∧
    2 * |t.B 0 0 * t.B 1 0 + t.B 0 1 * t.B 1 1| ≤ t.B 0 0 ^ 2 + t.B 0 1 ^ 2 := by
  have h : (((hlll toyOps 30 toy99 true
      (fresh toyOps 0 2 2 (ofCols [[5, 0], [23, 7]]) true 1 false 0 1 1 100)).map fun q =>
        (q.1, toCols 2 2 q.2.B)) == some (0, [[5, 0], [23, 7]])) = true := by decide +kernel
  have h' : (((hlll toyOps 30 toy99 true
      (fresh toyOps (5 * toyScale) 2 2 (ofCols [[5, 0], [23, 7]]) true 1 false 0 1 1 100)).map fun q =>
        (q.1, toCols 2 2 q.2.B)) == some (0, [[5, 0], [-2, 7]])) = true := by decide +kernel
  rw [beq_iff_eq, Option.map_eq_some_iff] at h h'
  obtain ⟨⟨st, s⟩, e1, h⟩ := h
  obtain ⟨⟨st', t⟩, e2, h'⟩ := h'
  simp only [Prod.mk.injEq, toCols, List.range, List.range.loop, List.map_cons, List.map_nil,
    List.cons.injEq, and_true] at h h'
  obtain ⟨rfl, ⟨a1, a2⟩, a3, a4⟩ := h
  obtain ⟨rfl, ⟨b1, b2⟩, b3, b4⟩ := h'
  refine ⟨s, t, e1, e2, ?_, ?_⟩
  · rw [a1, a2, a3, a4]; decide
  · rw [b1, b2, b3, b4]; decide

/-! ## `isreduced` -/

/-- **C16.** `isreduced` on an object after any history, any floating point behaviour: it returns 0
or -1, the lattice and `verboseDepth` are unchanged; and *if the internal reduction completed*
(returned 0 within the budget) it returns 0 exactly when no swap was done, in which case the basis
was only changed by adding to columns combinations of the previous ones. -/
theorem C16_isreduced (o' : FPOps F) (junk' : F) (n d : Nat) (A : Mat Int) (forU : Bool)
    (method : Int) (longFlag : Bool) (vd : Int) (cs : List (Call F)) (t : Lat F)
    (hr : Runs (newLattice o' junk' n d A forU method longFlag vd) cs t) (hd : 0 < d)
    (o : FPOps F) (junk : F) (fuel : Nat) (delta : F) (st : Int) (s' : Lat F)
    (h : t.isreduced o junk fuel delta = some (st, s')) :
    (st = 0 ∨ st = -1) ∧ s'.verboseDepth = vd ∧
    lattice (toMatrix n d s'.getbase.M) = lattice (toMatrix n d t.getbase.M) ∧
    ∃ st1 s1, hlll o fuel delta true (t.isreducedPrep o junk) = some (st1, s1) ∧
      s'.B = s1.B ∧ (st1 = 0 → s1.nblov < t.nblovMax →
        (st = 0 ↔ s'.nbswaps = t.nbswaps) ∧
        (st = 0 → ∀ j < d, ∃ c : Nat → Int, ∀ r < n, s'.getbase.M j r =
          t.getbase.M j r + ∑ i ∈ Finset.range j, c i * t.getbase.M i r)) := by
  have hH := (newLattice_hist o' junk' n d A forU method longFlag vd).runs hr
  have hI : LInv n d (lastBasis A cs) False (t.isreducedPrep o junk) := by
    obtain ⟨hn, hd, hlt, hmono, hsupp, hseq, husupp, htr, W, hW, hB, -⟩ := hH.inv
    exact ⟨hn, hd, hlt, hmono, hsupp, fun h => h.elim, fun h => h.elim, fun h => h.elim, W, hW, hB,
      fun h => h.elim⟩
  have hkm : (t.isreducedPrep o junk).kappaMax ≤ d := le_of_eq hH.km
  unfold Lat.isreduced at h
  split at h
  · simp at h
  · rename_i st1 s1 hl
    simp only [Option.some.injEq, Prod.mk.injEq] at h
    obtain ⟨h1, rfl⟩ := h
    have hX := hlll_exit o fuel delta true _ s1 st1 hI hkm hl
    obtain ⟨W, hW, hB, -⟩ := hX.inv.uni
    obtain ⟨W0, hW0, hB0, -⟩ := hH.inv.uni
    have hd1 : s1.d = d := hX.inv.hd
    refine ⟨?_, hX.cfg.verboseDepth.trans hH.vd, ?_, st1, s1, hl, rfl, ?_⟩
    · rw [← h1]; split <;> simp
    · show lattice (toMatrix n d s1.B) = lattice (toMatrix n d t.B)
      rw [hB, hB0, lattice_mul_unit _ _ hW, lattice_mul_unit _ _ hW0]
    · intro h0 hb
      have hb' : s1.nblov < s1.nblovMax := by rw [hX.cfg.nblovMax]; exact hb
      obtain ⟨w, w1, c1, c2, c3⟩ := hX.done h0 hb'
      have c1 : s1.nbswaps = t.nbswaps + w := c1
      have c3 : s1.nblov + w1 + 1 = 0 + max (t.isreducedPrep o junk).kappaMax 1 + 2 * w := c3
      rw [show (t.isreducedPrep o junk).kappaMax = d from hH.km] at c3
      have hiff : st = 0 ↔ s1.nbswaps = t.nbswaps := by
        rw [← h1, hd1]
        split
        · simp only [true_iff]; omega
        · simp only [show ¬ (-1 : Int) = 0 by decide, false_iff]; omega
      refine ⟨hiff, fun hs => ?_⟩
      exact hlll_unitri o delta fuel true (t.isreducedPrep o junk) s1 st1 hkm hI hl (hiff.1 hs)

theorem isreducedPrep_ready {o o' : FPOps ℝ} (ho : Exact o) (junk' : ℝ) (n d : ℕ)
    (A : Mat Int) (forU : Bool) (method : ℤ) (longFlag : Bool) (vd : ℤ) (cs : List (Call ℝ))
    (t : Lat ℝ) (hr : Runs (newLattice o' junk' n d A forU method longFlag vd) cs t)
    (hS : 0 < t.numS) (junk : ℝ) : ExReady n d (lastBasis A cs) (t.isreducedPrep o junk) := by
  have hH := (newLattice_hist o' junk' n d A forU method longFlag vd).runs hr
  have hI : LInv n d (lastBasis A cs) False (t.isreducedPrep o junk) := by
    obtain ⟨hn, hd, hlt, hmono, hsupp, hseq, husupp, htr, W, hW, hB, -⟩ := hH.inv
    exact ⟨hn, hd, hlt, hmono, hsupp, fun h => h.elim, fun h => h.elim, fun h => h.elim, W, hW, hB,
      fun h => h.elim⟩
  refine ⟨hI, hS, ?_, hH.km⟩
  intro c _ r _ _
  show ((List.range t.d).foldl (fun p κ => hhAllCol o t.n t.d t.B κ p)
    (t.setprec o junk).fp).Bfp c r = 0
  have hBf : ∀ (l : List ℕ) (p : FPart ℝ),
      (l.foldl (fun p κ => hhAllCol o t.n t.d t.B κ p) p).Bfp = p.Bfp := by
    intro l
    induction l with
    | nil => intro p; rfl
    | cons a l ih =>
      intro p
      rw [List.foldl_cons, ih]
      have h2 : ∀ (l : List ℕ) (p : FPart ℝ),
        (l.foldl (fun p k => hhAllApply o t.n a k p) p).Bfp = p.Bfp := by
        intro l
        induction l with
        | nil => intro p; rfl
        | cons b l ih => intro p; rw [List.foldl_cons, ih]; rfl
      simp only [hhAllCol, householderV]
      rw [h2]
  rw [hBf]; exact ho.zero

/-- **C16 (exact arithmetic).** In exact arithmetic, `isreduced(δ)`, `δ ≤ 1`, `d < nblov_max`: if it
returns 0, the basis it was called on becomes, by adding to each column an integer combination of
the previous ones, a basis that satisfies the Lovász conditions and (size reduction method) is
LLL-reduced -- that is, the basis was reduced up to size reduction. -/
theorem C16_isreduced_sound {o o' : FPOps ℝ} (ho : Exact o) (junk' : ℝ) (n d : ℕ) (hd : 0 < d)
    (A : Mat Int) (forU : Bool) (method : ℤ) (longFlag : Bool) (vd : ℤ) (cs : List (Call ℝ))
    (t : Lat ℝ) (hr : Runs (newLattice o' junk' n d A forU method longFlag vd) cs t)
    (hA : FullColumnRank (toMatrix n d (lastBasis A cs))) (hS : 0 < t.numS)
    (hsf : t.seysenFlag = method) (hnb : d ≤ t.nblovMax)
    (junk : ℝ) (fuel : ℕ) (δ : ℝ) (hδ : δ ≤ 1) (s' : Lat ℝ)
    (h : t.isreduced o junk fuel δ = some (0, s')) :
    LovaszCond δ (toMatrix n d s'.getbase.M) ∧
    (method < 1 → LLLReduced δ (toMatrix n d s'.getbase.M)) ∧
    ∀ j < d, ∃ c : ℕ → ℤ, ∀ r < n, s'.getbase.M j r =
      t.getbase.M j r + ∑ i ∈ Finset.range j, c i * t.getbase.M i r := by
  obtain ⟨-, -, -, st1, s1, hl, hB, key⟩ := C16_isreduced o' junk' n d A forU method longFlag vd cs t
    hr hd o junk fuel δ 0 s' h
  have hH := (newLattice_hist o' junk' n d A forU method longFlag vd).runs hr
  have hI : LInv n d (lastBasis A cs) False (t.isreducedPrep o junk) := by
    obtain ⟨hn, hd, hlt, hmono, hsupp, hseq, husupp, htr, W, hW, hB, -⟩ := hH.inv
    exact ⟨hn, hd, hlt, hmono, hsupp, fun h => h.elim, fun h => h.elim, fun h => h.elim, W, hW, hB,
      fun h => h.elim⟩
  have hR := isreducedPrep_ready (o' := o') ho junk' n d A forU method longFlag vd cs t hr hS junk
  obtain ⟨rfl, -, red⟩ := hR.hlll ho hA hδ hl
  have hX := hlll_exit o fuel δ true _ s1 0 hI (le_of_eq hH.km) hl
  have hn1 : s1.nblov = d - 1 := by
    unfold Lat.isreduced at h
    rw [hl] at h
    simp only [Option.some.injEq, Prod.mk.injEq] at h
    have := h.1
    rw [hX.inv.hd] at this
    by_contra hc
    rw [if_neg hc] at this
    exact absurd this (by decide)
  obtain ⟨-, k2⟩ := key rfl (by omega)
  obtain ⟨r1, r2⟩ := red (by rw [hX.cfg.nblovMax]; show s1.nblov < t.nblovMax; omega)
  have hs1 : s1.seysenFlag = method := hX.cfg.seysenFlag.trans hsf
  rw [hs1, ← hB] at r2
  rw [← hB] at r1
  exact ⟨r1, fun hm => ⟨r2 hm, r1⟩, k2 rfl⟩

/-- Operations which round badly (used as a witness only). -/
def badOps : FPOps Int := { toyOps with isZero := fun _ => false, one := toyScale * 3 / 10 }

/-- **C16 (what does not hold).** `isreduced` ignores the status of the internal reduction: there is
a floating point behaviour for which the reduction does a swap, gives up with -1 after exactly `d-1`
tests, and `isreduced` answers 0 ("seems to be reduced"). -/
theorem C16_isreduced_ignores_failure : ∃ s1 s', 
    hlll badOps 20 toy99 true ((newLattice badOps 0 3 3 (ofCols [[11, 0, 0], [2, 10, 0], [5, 1, 5]])
      true 0 true 0).isreducedPrep badOps 0) = some (-1, s1) ∧
    (newLattice badOps 0 3 3 (ofCols [[11, 0, 0], [2, 10, 0], [5, 1, 5]])
      true 0 true 0).isreduced badOps 0 20 toy99 = some (0, s') ∧ s'.nbswaps = 1 := by
  have h : ((hlll badOps 20 toy99 true ((newLattice badOps 0 3 3
      (ofCols [[11, 0, 0], [2, 10, 0], [5, 1, 5]]) true 0 true 0).isreducedPrep badOps 0)).map
        (fun r => (r.1, r.2.nblov, r.2.d, r.2.nbswaps)) == some (-1, 2, 3, 1)) = true := by
    decide +kernel
  rw [beq_iff_eq, Option.map_eq_some_iff] at h
  obtain ⟨⟨st, s1⟩, e1, h⟩ := h
  simp only [Prod.mk.injEq] at h
  obtain ⟨rfl, h2, h3, h4⟩ := h
  refine ⟨s1, s1.setprec badOps 0, e1, ?_, h4⟩
  unfold Lat.isreduced
  rw [e1]
  simp only [h2, h3, if_true]

/-- **C16 (single column).** With `d = 1` an index is out of range (`R(0,1)` is read). -/
theorem C16_isreduced_single_column (o : FPOps F) (junk : F) (t : Lat F) (h1 : t.d = 1) :
    (t.isreducedPrep o junk).ub = true := by
  have : (t.isreducedPrep o junk).ub =
    (((t.setprec o junk).householder o).ub || !decide (2 ≤ t.d)) := rfl
  rw [this, h1]; simp

/-- A concrete history: reduce, assign a new basis, change threads, reduce. -/
example : ∃ s, Runs (newLattice toyOps 0 2 2 (ofCols [[5, 0], [3, 1]]) true 0 true 0)
    [.hlll toyOps toy99 true, .assign (ofCols [[1, 7], [2, 9]]), .setNumS 3 0,
      .hlll toyOps toy99 true] s ∧ toCols 2 2 s.B = [[1, 2], [-2, 1]] := by
  have h : (((hlll toyOps 20 toy99 true (newLattice toyOps 0 2 2 (ofCols [[5, 0], [3, 1]]) true 0 true 0)).bind
      fun r => (hlll toyOps 30 toy99 true ((r.2.assign (ofCols [[1, 7], [2, 9]])).setNumS 3 0)).map
        fun q => toCols 2 2 q.2.B) == some [[1, 2], [-2, 1]]) = true := by decide +kernel
  rw [beq_iff_eq, Option.bind_eq_some_iff] at h
  obtain ⟨⟨st1, s1⟩, e1, h⟩ := h
  rw [Option.map_eq_some_iff] at h
  obtain ⟨⟨st2, s2⟩, e2, h⟩ := h
  refine ⟨s2, ?_, h⟩
  refine .snoc _ ((s1.assign (ofCols [[1, 7], [2, 9]])).setNumS 3 0) _ [_, _, _] _ ?_
    (.hlll _ _ _ _ _ 30 st2 e2)
  refine .snoc _ (s1.assign (ofCols [[1, 7], [2, 9]])) _ [_, _] _ ?_ (.setNumS _ _ _)
  refine .snoc _ s1 _ [_] _ ?_ (.assign _ _)
  exact .snoc _ _ _ [] _ (.nil _) (.hlll _ _ _ _ _ 20 st1 e1)

end HPLLL.Props
