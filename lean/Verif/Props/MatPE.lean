import Verif.Proof.MatPE
import Verif.Proof.ContHlll
import Verif.Props.Exact
/-!
# Matrices with one exponent per column (`MatrixPE`, src/matpe.h)

The number stored at row `i` of column `j` is what `get(i,j)` returns: `(m.get j i)`.  A column
operation is asked to work on a range of rows.
-/

namespace HPLLL.Props
open HPLLL Spec Matrix PE

/-- **C43, columns.** Each operation of `MatrixPE` gives, in exact significand arithmetic and for all
significands and exponents, on the rows it is asked to update, the value that the same operation of
`matrix<FP_NR<FT>>` gives on the numbers stored. -/
theorem C43_column_operations (n : ℕ) (e0 : ℤ) (m : MatPE) (j k l : ℕ) (a : ℝ × ℤ) (w z : Col)
    (v : ℕ → ℝ × ℤ) (i : ℕ) :
    (i < n → ∀ r, (m.set n j r a).get j i = if i = r then dval a else m.get j i) ∧
    (i < l → (m.addcol j k l).get j i = m.get j i + m.get k i) ∧
    (i < l → (m.subcol j k l).get j i = m.get j i - m.get k i) ∧
    (i < l → (m.submulcol j k a l).get j i = m.get j i - dval a * m.get k i) ∧
    (k ≤ i → i < k + l → (m.setcolV e0 j v k l).get j i = dval (v i)) ∧
    (i < l → (m.setcolW j w l).get j i = w.val i) ∧
    (k ≤ i → i < k + l →
      (m.fmasub j k w z a l).get j i = w.val (i - k) - z.val (i - k) * dval a) ∧
    (k ≤ i → i < k + l → (m.div j k w a l).get j i = w.val (i - k) / dval a) ∧
    (∀ c, (m.colswap j k).get c i =
      if c = j then m.get k i else if c = k then m.get j i else m.get c i) :=
  ⟨fun h r => set_get n m j r a i h, addcol_get m j k l i, subcol_get m j k l i,
    submulcol_get m j k a l i, setcolV_get e0 m j v k l i, setcolW_get m j w l i,
    fmasub_get m j k w z a l i, div_get m j k w a l i, fun c => colswap_get m j k c i⟩

/-- **C43, mixed columns.** `setcol` from a column of a mixed matrix (`dR` floating point rows above
integer rows) stores the entries of the range, wherever it starts. -/
theorem C43_setcol_mixed (e0 : ℤ) (m : MatPE) (j : ℕ) (vR vZ : ℕ → ℝ × ℤ) (dR beg l i : ℕ)
    (h : beg ≤ i) (hi : i < beg + l) :
    (m.setcolMixed e0 j vR vZ dR beg l).get j i = dval (if i < dR then vR i else vZ (i - dR)) := by
  unfold MatPE.setcolMixed
  rw [if_neg (by omega), get_put_same, if_pos ⟨h, hi⟩]
  simp only [dval, PE.ldexp]
  rw [mul_assoc, ← zadd]
  congr 2
  ring

/-- **C43, other columns.** Columns other than the target are untouched. -/
theorem C43_other_columns (n : ℕ) (e0 : ℤ) (m : MatPE) (j k l : ℕ) (a : ℝ × ℤ) (w z : Col)
    (v : ℕ → ℝ × ℤ) (c i : ℕ) (hc : c ≠ j) :
    (m.set n j k a).get c i = m.get c i ∧ (m.addcol j k l).get c i = m.get c i ∧
    (m.subcol j k l).get c i = m.get c i ∧ (m.submulcol j k a l).get c i = m.get c i ∧
    (m.setcolV e0 j v k l).get c i = m.get c i ∧ (m.setcolW j w l).get c i = m.get c i ∧
    (m.fmasub j k w z a l).get c i = m.get c i ∧ (m.div j k w a l).get c i = m.get c i :=
  ⟨set_col _ _ _ _ _ _ _ hc, addcol_col _ _ _ _ _ _ hc, subcol_col _ _ _ _ _ _ hc,
    submulcol_col _ _ _ _ _ _ _ hc, setcolV_col _ _ _ _ _ _ _ _ hc, setcolW_col _ _ _ _ _ _ hc,
    fmasub_col _ _ _ _ _ _ _ _ _ hc, div_col _ _ _ _ _ _ _ _ hc⟩

/-- **C43, vectors.** `scalarprod`, `fp_norm_sq` and `fp_norm` are those of the numbers stored. -/
theorem C43_vectors (m : MatPE) (j k a b l : ℕ) (hl : 0 < l) (x : ℝ) :
    PE.scalarprod (m.getcol j a) (m.getcol k b) l x =
      ∑ i ∈ Finset.range l, m.get j (a + i) * m.get k (b + i) ∧
    PE.fpNormSq (m.getcol j a) l x = ∑ i ∈ Finset.range l, m.get j (a + i) ^ 2 ∧
    PE.fpNorm (m.getcol j a) l x = Real.sqrt (∑ i ∈ Finset.range l, m.get j (a + i) ^ 2) := by
  have hs : ∀ v w : Col, PE.scalarprod v w l x = ∑ i ∈ Finset.range l, v.val i * w.val i := by
    intro v w
    rw [scalarprod_val realOps_exact.toExact v w l x hl]
    exact scalarprod_exact realOps_exact.toExact _ _ _ hl
  have hn : PE.fpNormSq (m.getcol j a) l x = ∑ i ∈ Finset.range l, m.get j (a + i) ^ 2 := by
    rw [fpNormSq_val realOps_exact.toExact _ l x hl, fpNormSq_exact realOps_exact.toExact _ _ hl]
    refine Finset.sum_congr rfl fun i _ => ?_
    rw [pow_two]; rfl
  refine ⟨hs _ _, hn, ?_⟩
  rw [← hn]
  unfold PE.fpNorm PE.fpNormSq
  rw [if_neg (by omega), if_neg (by omega)]

/-- **C43, rows outside the range.** The rows of the target column that the operation is *not* asked
to update are not kept: they are multiplied by a power of two which depends on the exponents (the
operations of `matrix<FP_NR<FT>>` keep them). -/
theorem C43_rows_outside (e0 : ℤ) (m : MatPE) (j k l : ℕ) (hl : 0 < l) (a : ℝ × ℤ) (w z : Col)
    (v : ℕ → ℝ × ℤ) (i : ℕ) :
    (l ≤ i → (m.addcol j k l).get j i = m.get j i * 2 ^ (max (m.exp j) (m.exp k) - m.exp j)) ∧
    (l ≤ i → (m.subcol j k l).get j i = m.get j i * 2 ^ (max (m.exp j) (m.exp k) - m.exp j)) ∧
    (l ≤ i → (m.submulcol j k a l).get j i =
      m.get j i * 2 ^ (max (m.exp j) (a.2 + m.exp k) - m.exp j)) ∧
    (¬ (k ≤ i ∧ i < k + l) → (m.setcolV e0 j v k l).get j i =
      m.get j i * 2 ^ (maxExp (fun i => (v i).2) e0 k l - m.exp j)) ∧
    (i < k → (m.fmasub j k w z a l).get j i = m.get j i * 2 ^ (w.exp - m.exp j)) ∧
    (¬ (k ≤ i ∧ i < k + l) →
      (m.div j k w a l).get j i = m.get j i * 2 ^ (w.exp - a.2 - m.exp j)) :=
  ⟨addcol_out m j k l i hl, subcol_out m j k l i hl, submulcol_out m j k a l i hl,
    setcolV_out e0 m j v k l hl i, fmasub_above m j k w z a l i hl, div_out m j k w a l i hl⟩

/-- **C43 (witness).** `addcol(0, 1, 1)` on the columns (1,1) and (8,8), stored as `1 * 2^0` and
`1 * 2^3`: row 0 becomes 9 and row 1, not in the range, becomes 8 instead of staying 1. -/
theorem C43_addcol_changes_other_rows :
    let m : MatPE := ⟨fun _ _ => 1, fun j => if j = 1 then 3 else 0⟩
    m.get 0 0 = 1 ∧ m.get 0 1 = 1 ∧ m.get 1 0 = 8 ∧ (m.addcol 0 1 1).get 0 0 = 9 ∧
      (m.addcol 0 1 1).get 0 1 = 8 := by
  intro m
  have h0 : ∀ i, m.get 0 i = 1 := fun i => by simp [m, MatPE.get, MatPE.getRaw, dval, PE.ldexp]
  have h1 : ∀ i, m.get 1 i = 8 := fun i => by
    simp only [m, MatPE.get, MatPE.getRaw, dval, PE.ldexp, if_true]; norm_num
  refine ⟨h0 0, h0 1, h1 0, ?_, ?_⟩
  · rw [addcol_get m 0 1 1 0 (by omega), h0, h1]; norm_num
  · rw [addcol_out m 0 1 1 1 (by omega) (by omega), h0]
    simp only [m]
    norm_num

/-- What the caller sees, for any matrix class. -/
def seenG {M : Type} (r : Int × LatG ℝ M) : Int × ZMat × ZMat × Nat × Nat :=
  (r.1, r.2.getbase, r.2.getU, r.2.z.nblov, r.2.z.nbswaps)

/-- The same for `matrix<FP_NR<FT>>`. -/
def seenP (r : Int × Lat ℝ) : Int × ZMat × ZMat × Nat × Nat :=
  (r.1, r.2.getbase, r.2.getU, r.2.nblov, r.2.nbswaps)

/-- **C43, reduction.** Although rows outside of the ranges are corrupted, `hlll` over `MatrixPE` does
exactly what `hlll` over `matrix<FP_NR<FT>>` does: for all bases of independent columns, all options,
thread settings, budgets and `δ`, both return or none does, with the same status, base,
transformation and numbers of tests and swaps. -/
theorem C43_hlll_matrixPE {o : FPOps ℝ} (ho : Exact o) (e0 : ℤ) (rep : ℝ → ℝ × ℤ)
    (hrep : ∀ x, dval (rep x) = x) (junk : ℝ) (n d : ℕ) (A : Mat Int)
    (hA : FullColumnRank (toMatrix n d A)) (forU : Bool) (method : ℤ) (longFlag : Bool) (vd : ℤ)
    (S : ℕ) (thr : ℤ) (nb : ℕ) (fuel : ℕ) (δ : ℝ) (v : Bool) :
    (Gen.hlll o (PE.cont n e0 rep) fuel δ v
        (PE.newLattice junk n d A forU method longFlag vd S thr nb)).map seenG =
      (hlll o fuel δ v (fresh o junk n d A forU method longFlag vd S thr nb)).map seenP := by
  have hz : ∀ j i, PE.zero.get j i = 0 := fun j i => by
    simp [PE.zero, MatPE.get, MatPE.getRaw, dval, PE.ldexp]
  have h := Sim.hlll_sim (PE.lawful ho n e0 rep hrep) hA fuel δ v
    (PE.newLattice junk n d A forU method longFlag vd S thr nb)
    (fresh o junk n d A forU method longFlag vd S thr nb) (le_refl d)
    (fresh_inv o junk n d A forU method longFlag vd S thr nb False (fun h => h.elim))
    ⟨⟨rfl, fun _ _ => rfl⟩, fun j _ r _ _ => ⟨hz j r, ho.zero⟩,
      fun j _ r _ => (hz j r).trans ho.zero.symm⟩
  revert h
  generalize Gen.hlll o (PE.cont n e0 rep) fuel δ v _ = X
  generalize hlll o fuel δ v _ = x
  intro h
  cases X with
  | none => cases x with
    | none => rfl
    | some x => exact h.elim
  | some X => cases x with
    | none => exact h.elim
    | some x =>
      obtain ⟨a, S⟩ := X
      obtain ⟨b, s⟩ := x
      obtain ⟨rfl, hr⟩ := h
      have hz := hr.same.z
      have e : seenG (a, S) = seenP (a, s) := by
        simp only [seenG, seenP, LatG.getbase, LatG.getU, Lat.getbase, Lat.getU]
        rw [hz]; rfl
      simp only [Option.map_some]
      rw [e]

/-- **C43, output.** With `δ ≤ 1` and at least one thread, if `hlll` over `MatrixPE` returns then it
returns 0; within the test budget `getbase()` is a basis of the input lattice, satisfies the Lovász
conditions, and (size reduction method) is LLL-reduced. -/
theorem C43_hlll_matrixPE_reduced {o : FPOps ℝ} (ho : Exact o) (e0 : ℤ) (rep : ℝ → ℝ × ℤ)
    (hrep : ∀ x, dval (rep x) = x) (junk : ℝ) (n d : ℕ) (A : Mat Int)
    (hA : FullColumnRank (toMatrix n d A)) (forU : Bool) (method : ℤ) (longFlag : Bool) (vd : ℤ)
    (S : ℕ) (hS : 0 < S) (thr : ℤ) (nb : ℕ) (fuel : ℕ) (δ : ℝ) (hδ : δ ≤ 1) (v : Bool) (st : ℤ)
    (s' : LatG ℝ MatPE)
    (h : Gen.hlll o (PE.cont n e0 rep) fuel δ v
        (PE.newLattice junk n d A forU method longFlag vd S thr nb) = some (st, s')) :
    st = 0 ∧ (s'.z.nblov < nb → LovaszCond δ (toMatrix n d s'.getbase.M) ∧
      (method < 1 → LLLReduced δ (toMatrix n d s'.getbase.M)) ∧
      lattice (toMatrix n d s'.getbase.M) = lattice (toMatrix n d A)) := by
  have hp := C43_hlll_matrixPE ho e0 rep hrep junk n d A hA forU method longFlag vd S thr nb fuel δ v
  rw [h, Option.map_some, eq_comm, Option.map_eq_some_iff] at hp
  obtain ⟨⟨b, t⟩, e, hs⟩ := hp
  simp only [seenG, seenP, Prod.mk.injEq] at hs
  obtain ⟨rfl, hB, -, hl, -⟩ := hs
  have h0 := C09_never_fails ho junk n d A forU method longFlag vd S hS thr nb hA fuel δ hδ v b t e
  subst h0
  refine ⟨rfl, fun hb => ?_⟩
  rw [← hB]
  exact C08_output_reduced ho junk n d A forU method longFlag vd S hS thr nb hA fuel δ v t e
    (by rw [hl]; exact hb)

/-- A conversion to significand and exponent exists (the significand need not be normalised). -/
example : ∃ rep : ℝ → ℝ × ℤ, ∀ x, dval (rep x) = x := ⟨fun x => (x, 0), by simp [dval, PE.ldexp]⟩

/-- ... and the normalised one of `frexp` too, on positive numbers. -/
example (x : ℝ) (hx : 0 < x) : ∃ a : ℝ × ℤ, dval a = x ∧ 1 / 2 ≤ a.1 ∧ a.1 < 1 := by
  obtain ⟨e, he⟩ := exists_mem_Ico_zpow hx (by norm_num : (1 : ℝ) < 2)
  refine ⟨(x / 2 ^ (e + 1), e + 1), ?_, ?_, ?_⟩
  · simp only [dval, PE.ldexp]
    exact div_mul_cancel₀ _ (zpos _)
  · have h2 : (0 : ℝ) < 2 ^ e := zpow_pos two_pos e
    rw [zadd, zpow_one, le_div_iff₀ (by positivity)]
    linarith [he.1]
  · rw [div_lt_one (zpow_pos two_pos _)]
    exact he.2

end HPLLL.Props
