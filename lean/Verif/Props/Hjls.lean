import Verif.Proof.Hjls
import Verif.Props.Decomp
/-!
# C76: `relations_hjls` and `restarting_hjls`
-/

namespace HPLLL.Props
open HPLLL Spec Matrix

variable {X F : Type}

/-- **C76, `relations_hjls`.** For a `d × n` matrix, `0 < d < n`, and `nbrel ≤ n - d`, whatever both floating
point arithmetics, the uninitialised entries, the constants and the number of iterations: no index is out of
range, and the value is -1 or `nbrel`. In the last case `C` is an `n × nbrel` matrix with independent columns
that misses no integer vector of their rational span, and every entry of `A * C` computed in the arithmetic of
`RT` passed the test: its absolute value is not larger than `epsilon`. -/
theorem C76_relations_hjls (o : FPOps F) (q : XOps X F) (oX : FPOps X) (fp : FPart F) (junkX : X) (fuel : ℕ)
    (p : FgPar X F) (d n nbrel : ℕ) (hd : 0 < d) (hn : d < n) (hb : nbrel ≤ n - d) (A : Mat X) (C : ZMat)
    (r : NullRes) (h : relationsHjls o q oX fp junkX fuel p d n nbrel A C = some r) :
    r.ub = false ∧
    (r.ret = -1 ∨
     (r.ret = nbrel ∧ r.C.rows = n ∧ r.C.cols = nbrel ∧
       FullColumnRank (toMatrix n nbrel r.C.M) ∧ Primitive (toMatrix n nbrel r.C.M) ∧
       ∀ j < nbrel, ∀ i < d, oX.lt p.epsilon (oX.abs
         (scalarprod oX (fun k => A k i) (fun k => oX.ofZ (r.C.M j k)) n)) = false)) := by
  obtain ⟨h1, h2⟩ := Hjls.relations_spec hd hn hb h
  refine ⟨h1, h2.imp id ?_⟩
  rintro ⟨a, b, c, ⟨D, hD⟩, e⟩
  exact ⟨a, b, c, Null.fcr_of_inv hD, Null.primitive_of_inv hD, e⟩

/-- **C76, the relations are relations up to `epsilon` and rounding.** With the standard model of floating
point arithmetic for `RT` (unit roundoff `u`), a value other than -1 means that every true entry of `A * C` is
at most `epsilon` plus `(1-u)^-(n+1) - 1` times the sum of the absolute values of its terms. -/
theorem C76_residual (o : FPOps F) (q : XOps X F) {oX : FPOps X} {val : X → ℝ} {u : ℝ}
    (hm : StdModel oX val u) (fp : FPart F) (junkX : X) (fuel : ℕ)
    (p : FgPar X F) (d n nbrel : ℕ) (hd : 0 < d) (hn : d < n) (hb : nbrel ≤ n - d) (A : Mat X) (C : ZMat)
    (r : NullRes) (h : relationsHjls o q oX fp junkX fuel p d n nbrel A C = some r) (hr : r.ret ≠ -1)
    (i j : ℕ) (hi : i < d) (hj : j < nbrel) :
    |∑ k ∈ Finset.range n, val (A k i) * (r.C.M j k : ℝ)| ≤ val p.epsilon +
      ((1 / (1 - u)) ^ (n + 1) - 1) * ∑ k ∈ Finset.range n, |val (A k i)| * |(r.C.M j k : ℝ)| := by
  obtain ⟨-, h2⟩ := Hjls.relations_spec hd hn hb h
  rcases h2 with h2 | ⟨-, -, -, -, e⟩
  · exact absurd h2 hr
  · exact Hjls.residual hm (by omega) A r.C.M p.epsilon i j (e j hj i hi)

/-- **C76, `restarting_hjls`.** The value is -1, or `nbrel`; it is `nbrel` exactly when one and only one of the
`nbrel` columns passes the test on the computed product (whatever `nbrel`). -/
theorem C76_restarting (e : RestEnv X F) (fuel d n nbrel : ℕ) (A : Mat X) (r : RestOut)
    (h : restartingHjls e fuel d n nbrel A = some r) :
    r.C.rows = n ∧ r.C.cols = nbrel ∧ (r.ret = -1 ∨ r.ret = nbrel) ∧
    (r.ret = nbrel ↔ ∃! j, j < nbrel ∧ ∀ i < d, e.oX.lt e.eps (e.oX.abs
        (scalarprod e.oX (fun k => A k i) (fun k => e.oX.ofZ (r.C.M j k)) n)) = false) := by
  unfold restartingHjls at h
  split at h
  · simp at h
  split at h
  · simp at h
  rename_i s hs
  simp only at h
  set C : ZMat := ⟨n, nbrel, fun j i => s.V (n + d - nbrel + j) (d + i)⟩ with hC
  have key : fpNullity e.oX d n nbrel e.eps A C.M = 1 ↔
      ∃! j, j < nbrel ∧ ∀ i < d, e.oX.lt e.eps (e.oX.abs
        (scalarprod e.oX (fun k => A k i) (fun k => e.oX.ofZ (C.M j k)) n)) = false := by
    unfold fpNullity
    rw [List.length_eq_one_iff]
    constructor
    · rintro ⟨j, hj⟩
      have hm : ∀ k, (k < nbrel ∧ fpZeroCol e.oX d e.eps (fpProd e.oX n A C.M) k = true) ↔ k = j := by
        intro k
        have : k ∈ (List.range nbrel).filter (fpZeroCol e.oX d e.eps (fpProd e.oX n A C.M)) ↔ k ∈ [j] := by
          rw [hj]
        simpa using this
      refine ⟨j, ⟨((hm j).2 rfl).1, Hjls.zeroCol_iff.1 ((hm j).2 rfl).2⟩, fun k hk => ?_⟩
      exact (hm k).1 ⟨hk.1, Hjls.zeroCol_iff.2 hk.2⟩
    · rintro ⟨j, ⟨hj1, hj2⟩, hu⟩
      refine ⟨j, ?_⟩
      have hnd : ((List.range nbrel).filter (fpZeroCol e.oX d e.eps (fpProd e.oX n A C.M))).Nodup :=
        List.Nodup.filter _ List.nodup_range
      have hmem : ∀ k, k ∈ (List.range nbrel).filter (fpZeroCol e.oX d e.eps (fpProd e.oX n A C.M)) ↔ k = j := by
        intro k
        rw [List.mem_filter, List.mem_range]
        constructor
        · rintro ⟨a, b⟩
          exact hu k ⟨a, Hjls.zeroCol_iff.1 b⟩
        · rintro rfl
          exact ⟨hj1, Hjls.zeroCol_iff.2 hj2⟩
      exact List.perm_singleton.1 ((List.perm_ext_iff_of_nodup hnd (List.nodup_singleton j)).2 fun k => by
        rw [hmem]; simp)
  split at h
  · rename_i hne
    simp only [Option.some.injEq] at h
    subst h
    refine ⟨rfl, rfl, Or.inl rfl, fun hc => ?_, fun hc => absurd (key.2 hc) hne⟩
    simp only at hc
    omega
  · rename_i hne
    simp only [not_not] at hne
    simp only [Option.some.injEq] at h
    subst h
    exact ⟨rfl, rfl, Or.inr rfl, fun _ => key.1 hne, fun _ => rfl⟩

/-- **C76, `restarting_hjls` without restart.** If the first low precision decomposition succeeds, no index is
out of range and the columns of `C` are independent and miss no integer vector of their span. -/
theorem C76_restarting_primitive (e : RestEnv X F) (fuel d n nbrel : ℕ) (hd : 0 < d) (hn : d < n)
    (hb : nbrel ≤ n - d) (A : Mat X) (r : RestOut)
    (h : restartingHjls e fuel d n nbrel A = some r) (hr : r.restarts = 0) :
    r.ub = false ∧ FullColumnRank (toMatrix n nbrel r.C.M) ∧ Primitive (toMatrix n nbrel r.C.M) := by
  unfold restartingHjls at h
  split at h
  · simp at h
  rename_i s0 hs0
  split at h
  · simp at h
  rename_i s hs
  simp only at h
  have hrC : r.C = ⟨n, nbrel, fun j i => s.V (n + d - nbrel + j) (d + i)⟩ ∧ r.ub = (s.G.ub || s.F'.ub) ∧
      r.restarts = s.restarts := by
    split at h <;> · simp only [Option.some.injEq] at h; subst h; exact ⟨rfl, rfl, rfl⟩
  obtain ⟨u1, u2, T, W, hinv, w0, hV⟩ := Hjls.restart_free hd hn hb hs0 hs (by rw [← hrC.2.2]; exact hr)
  have hD := Hjls.blk_inv (k := nbrel) (by omega) hinv w0
  have hCW : toMatrix n nbrel r.C.M =
      Matrix.of (fun (i : Fin n) (j : Fin nbrel) => W ⟨d + i, by omega⟩ ⟨n + d - nbrel + j, by omega⟩) := by
    ext i j
    rw [← hV, hrC.1]
    rfl
  rw [← hCW] at hD
  exact ⟨by rw [hrC.2.1, u1, u2]; rfl, Null.fcr_of_inv hD, Null.primitive_of_inv hD⟩

/-- **C76, one relation.** With the standard model for `RT`: if `restarting_hjls` returns 1 for `nbrel = 1`, the
column of `C` is a relation up to `epsilon` and rounding. -/
theorem C76_restarting_one {e : RestEnv X F} {val : X → ℝ} {u : ℝ} (hm : StdModel e.oX val u)
    (fuel d n : ℕ) (hn : 0 < n) (A : Mat X) (r : RestOut)
    (h : restartingHjls e fuel d n 1 A = some r) (hr : r.ret ≠ -1) (i : ℕ) (hi : i < d) :
    |∑ k ∈ Finset.range n, val (A k i) * (r.C.M 0 k : ℝ)| ≤ val e.eps +
      ((1 / (1 - u)) ^ (n + 1) - 1) * ∑ k ∈ Finset.range n, |val (A k i)| * |(r.C.M 0 k : ℝ)| := by
  obtain ⟨-, -, h1, h2⟩ := C76_restarting e fuel d n 1 A r h
  obtain ⟨j, ⟨hj, ht⟩, -⟩ := h2.1 (h1.resolve_left hr)
  have : j = 0 := by omega
  subst this
  exact Hjls.residual hm hn A r.C.M e.eps i 0 (ht i hi)

/-! ## Concrete runs -/

/-- Matrix entries of `p` bits. -/
def nearXp (p : ℕ) : XOps Rat Rat :=
  let o := nearOps p
  ⟨id, fun z => o.ofZ z, 0, 1, o.add, o.sub, o.div, fun r a b => o.add r (o.mul a b),
    fun r a b => o.sub r (o.mul a b), o.abs, o.lt⟩

/-- `RT` of 300 bits, `FT` of 53 bits, `epsilon = 2^(n+d+200-setprec)` for `n + d = 4` (decomp.cc:937-951),
low precision thresholds `shift_epsilon(16)`, `shift_testU(4)`. -/
def restNear : RestEnv Rat Rat :=
  ⟨nearOps 300, nearXp 300, nearOps 53, nearXp 53, rnQ 53,
    ⟨gamma115, gapDef, gapDef, mkRat 1 (2 ^ 37), 0, 9223372036854775807, bitSize, 49⟩, mkRat 1 (2 ^ 96),
    fpZero, fpZero, 0, 60⟩

/-- **C76, two valid relations are refused.** On `A = (1 1 1)` with `nbrel = 2` and 300 bits, `restarting_hjls`
computes the relations `(1,-1,0)` and `(0,1,-1)` and returns -1. -/
theorem C76_restarting_refuses :
    (restartingHjls restNear 3 1 3 2 (ratCols [[1], [1], [1]])).map
      (fun r => (r.ret, toCols 3 2 r.C.M)) = some (-1, [[1, -1, 0], [0, 1, -1]]) := by
  decide +kernel

/-- **C76, a wrong relation is accepted.** On `A = (1 2^-60 1)` with `nbrel = 2`, `restarting_hjls` returns 2,
with the second column `(0,1,0)`: its product with `A` is `2^-60`, larger than `epsilon = 2^-96`. -/
theorem C76_restarting_accepts :
    (restartingHjls restNear 3 1 3 2 (fun j _ => if j = 1 then mkRat 1 (2 ^ 60) else 1)).map
      (fun r => (r.ret, toCols 3 2 r.C.M)) = some (2, [[1, 0, -1], [0, 1, 0]]) ∧
    (1 : ℚ) / 2 ^ 96 < |1 * 0 + 1 / 2 ^ 60 * 1 + 1 * 0| := by
  refine ⟨by decide +kernel, by norm_num⟩

/-- `RT` of 400 bits. -/
def restNear400 : RestEnv Rat Rat :=
  { restNear with oX := nearOps 400, qX := nearXp 400, eps := mkRat 1 (2 ^ 196) }

/-- **C76, a restart corrupts the transformation.** On `A = (2^-58 12 7·2^-58)` with `nbrel = 1` and 400 bits,
`relations_hjls` finds `(-7,0,1)`, `restarting_hjls` restarts once (`Fgas::set` keeps the old transformations, see
C72) and returns -1. -/
theorem C76_restart_defect :
    (restartingHjls restNear400 3 1 3 1
      (fun j _ => [mkRat 1 (2 ^ 58), 12, mkRat 7 (2 ^ 58)].getD j 0)).map
      (fun r => (r.ret, toCols 3 1 r.C.M, r.restarts)) =
        some (-1, [[-69175290276410818, 1, -94364978121349557980]], 1) ∧
    (relationsHjls (nearOps 53) (nearXp 400) (nearOps 400) fpZero 0 60
      ⟨gamma115, gapDef, gapDef, mkRat 1 (2 ^ 196), 0, 9223372036854775807, bitSize, 400⟩ 1 3 1
      (fun j _ => [mkRat 1 (2 ^ 58), 12, mkRat 7 (2 ^ 58)].getD j 0) ⟨0, 0, fun _ _ => 0⟩).map
      (fun r => (r.ret, toCols 3 1 r.C.M)) = some (1, [[-7, 0, 1]]) := by
  refine ⟨by decide +kernel, by decide +kernel⟩

/-- `relations_hjls` on `(1 1 1)`, two relations. -/
example : (relationsHjls (nearOps 53) (nearXp 300) (nearOps 300) fpZero 0 60
      ⟨gamma115, gapDef, gapDef, mkRat 1 (2 ^ 96), 0, 9223372036854775807, bitSize, 300⟩ 1 3 2
      (ratCols [[1], [1], [1]]) ⟨0, 0, fun _ _ => 0⟩).map (fun r => (r.ret, toCols 3 2 r.C.M, r.ub)) =
    some (2, [[1, 0, -1], [0, 1, -1]], false) := by decide +kernel

/-- A run of `restarting_hjls` without restart that returns 1. -/
example : (restartingHjls restNear 3 1 3 1 (ratCols [[3], [2], [1]])).map
      (fun r => (r.ret, toCols 3 1 r.C.M, r.ub, r.restarts)) = some (1, [[1, -1, -1]], false, 0) := by
  decide +kernel

end HPLLL.Props
