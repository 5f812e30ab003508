import Verif.Proof.Lehmer
import Verif.Model.Near
import Verif.Model.Toy
import Verif.Proof.Gen
/-!
# C75: `lehmer_lll`
-/

namespace HPLLL.Props
open HPLLL Spec Matrix

variable {F : Type}

/-- **C75, always.** For every arithmetic, every shift, with or without truncation, and every integer
type of the truncated basis (`lift`), if `lehmer_lll` returns then it returns 0, `C` has the size of
`A`, its columns are integer combinations of the columns of `A`, and with a positive shift it has
performed exactly `⌈bits / lshift⌉` reductions, where `bits` is the largest bit size of `A`. -/
theorem C75_lehmer_columns (e : LehEnv F) (fuel n d : ℕ) (hd : 0 < d) (hP : Leh.ProdOk e n d) (A : Mat Int)
    (delta : F) (lshift : ℤ) (truncate : Bool) (r : LehOut)
    (h : lehmerLll e fuel n d A delta lshift truncate = some r) :
    r.ret = 0 ∧ r.C.rows = n ∧ r.C.cols = d ∧
    lattice (toMatrix n d r.C.M) ≤ lattice (toMatrix n d A) ∧
    (lshift = 0 → lattice (toMatrix n d r.C.M) = lattice (toMatrix n d A)) ∧
    (0 < lshift → (r.Ts.length : ℤ) = ⌈(maxbitsize n d A : ℚ) / lshift⌉) := by
  unfold lehmerLll at h
  split at h
  · rename_i h0
    split at h
    · simp at h
    rename_i st B hB
    simp only [Option.some.injEq] at h
    subst h
    have h1 : HistInv n d A false e.vd True B := (newLattice_hist e.o e.junk n d A false 0 e.longFlag e.vd).does
      (.hlll e.o delta true _ _ e.fuel st hB) (fun _ S thr h => by cases h)
    obtain ⟨W, hW, hBW, -⟩ := h1.inv.uni
    have hl : lattice (toMatrix n d B.getbase.M) = lattice (toMatrix n d A) := by
      show lattice (toMatrix n d B.B) = _
      rw [hBW, lattice_mul_unit _ _ hW]
    exact ⟨rfl, h1.inv.hn, h1.inv.hd, hl.le, fun _ => hl, fun h => by omega⟩
  · rename_i h0
    split at h
    · simp at h
    rename_i s hs
    simp only [Option.some.injEq] at h
    subst h
    obtain ⟨i1, i2, l, i3, i4, -⟩ := Leh.loop_spec hd hP fuel _ s (Leh.start_inv e n d A)
      (by simp [lehStart]) hs
    obtain ⟨W, hW, -⟩ := i1.tr
    refine ⟨rfl, rfl, rfl, ?_, fun h => absurd h h0, fun hl => ?_⟩
    · show lattice (toMatrix n d s.C) ≤ _
      rw [hW]
      rw [lattice_eq_range, lattice_eq_range]
      rintro _ ⟨v, rfl⟩
      exact ⟨W *ᵥ v, by simp [Matrix.mulVec_mulVec]⟩
    · have h3 : s.Ts = l := by simpa [lehStart] using i3
      rw [h3, i4 hl]
      simp only [lehStart]
      have hneg : -(-((maxbitsize n d A : ℕ) : ℤ) / lshift) = ⌈((maxbitsize n d A : ℕ) : ℚ) / lshift⌉ := by
        have h5 := Rat.floor_intCast_div_natCast (-((maxbitsize n d A : ℕ) : ℤ)) lshift.toNat
        have h6 : ((lshift.toNat : ℕ) : ℤ) = lshift := Int.toNat_of_nonneg hl.le
        rw [h6] at h5
        rw [← h5, ← Int.ceil_neg]
        congr 1
        have h7 : ((lshift.toNat : ℕ) : ℚ) = (lshift : ℚ) := by exact_mod_cast congrArg (Int.cast : ℤ → ℚ) h6
        rw [h7]
        push_cast
        ring
      exact hneg

/-- **C75, same lattice.** Without truncation (and `mpz_t`), when the rows of `A` below the first one have
independent columns (the intended input: one row of data above a basis, for instance the identity), `C` is
a basis of the lattice of `A`, for every arithmetic and shift. -/
theorem C75_lehmer_lattice (e : LehEnv F) (fuel n d : ℕ) (hn : 0 < n) (hd : 0 < d) (hP : Leh.ProdOk e n d)
    (he : Leh.plain e) (A : Mat Int)
    (hA : FullColumnRank (toMatrix (n - 1) d fun c r => A c (r + 1)))
    (delta : F) (lshift : ℤ) (r : LehOut)
    (h : lehmerLll e fuel n d A delta lshift false = some r) :
    lattice (toMatrix n d r.C.M) = lattice (toMatrix n d A) ∧ FullColumnRank (toMatrix n d r.C.M) := by
  have hfull : FullColumnRank (toMatrix n d A) := Leh.fcr_of_low hA
  have hcol := C75_lehmer_columns e fuel n d hd hP A delta lshift false r h
  unfold lehmerLll at h
  split at h
  · rename_i h0
    split at h
    · simp at h
    rename_i st B hB
    simp only [Option.some.injEq] at h
    subst h
    have h1 : HistInv n d A false e.vd True B := (newLattice_hist e.o e.junk n d A false 0 e.longFlag e.vd).does
      (.hlll e.o delta true _ _ e.fuel st hB) (fun _ S thr h => by cases h)
    obtain ⟨W, hW, hBW, -⟩ := h1.inv.uni
    refine ⟨hcol.2.2.2.2.1 h0, ?_⟩
    show FullColumnRank (toMatrix n d B.B)
    rw [hBW]; exact fcr_mul_unit hW hfull
  · split at h
    · simp at h
    rename_i s hs
    simp only [Option.some.injEq] at h
    subst h
    obtain ⟨i1, -⟩ := Leh.loop_spec hd hP fuel _ s (Leh.start_inv e n d A) (by simp [lehStart]) hs
    have hT := Leh.loop_low hn hd hP he hA fuel _ s (Leh.start_inv e n d A) (by simp [lehStart]) hs
    obtain ⟨W, hW, hWu⟩ := i1.tr
    show lattice (toMatrix n d s.C) = _ ∧ FullColumnRank (toMatrix n d s.C)
    rw [hW]
    exact ⟨lattice_mul_unit _ _ (hWu hT), fcr_mul_unit (hWu hT) hfull⟩

/-- **C75, any independent columns.** It suffices that no matrix given to a reduction has a zero first
column. -/
theorem C75_lehmer_lattice_any (e : LehEnv F) (fuel n d : ℕ) (hn : 0 < n) (hd : 0 < d)
    (hP : Leh.ProdOk e n d) (he : Leh.plain e) (A : Mat Int) (hA : FullColumnRank (toMatrix n d A))
    (delta : F) (lshift : ℤ) (r : LehOut)
    (h : lehmerLll e fuel n d A delta lshift false = some r) (h0 : ∀ T ∈ r.Ts, ∃ i < n, T 0 i ≠ 0) :
    lattice (toMatrix n d r.C.M) = lattice (toMatrix n d A) := by
  have hcol := C75_lehmer_columns e fuel n d hd hP A delta lshift false r h
  unfold lehmerLll at h
  split at h
  · rename_i h0
    exact hcol.2.2.2.2.1 h0
  · split at h
    · simp at h
    rename_i s hs
    simp only [Option.some.injEq] at h
    subst h
    obtain ⟨i1, -⟩ := Leh.loop_spec hd hP fuel _ s (Leh.start_inv e n d A) (by simp [lehStart]) hs
    obtain ⟨l, hl, hT⟩ := Leh.loop_unit hn hd hP he hA fuel (lehStart e n d A) s
      ⟨(Leh.start_inv e n d A).hist, 1, by rw [Matrix.mul_one]; rfl, by simp⟩ hs
    have hl' : s.Ts = l := by simpa [lehStart] using hl
    obtain ⟨W, hW, hWu⟩ := i1.tr
    show lattice (toMatrix n d s.C) = _
    rw [hW]
    refine lattice_mul_unit _ _ (hWu ?_)
    rw [hl']
    exact hT (by rw [← hl']; exact h0)

/-- **C75, negative shift.** The loop on the default does not end. -/
theorem C75_negative_shift (e : LehEnv F) (fuel n d : ℕ) (hn : 0 < n) (hd : 0 < d) (A : Mat Int)
    (delta : F) (lshift : ℤ) (hl : lshift < 0) (truncate : Bool) :
    lehmerLll e fuel n d A delta lshift truncate = none := by
  unfold lehmerLll
  rw [if_neg (by omega), Leh.loop_negative hl]
  have := (C31_maxbitsize n d A).2.2.2
  simp only [lehStart]
  have h0 : maxbitsize n d A ≠ 0 := fun h => by
    rcases this.1 h with h | h <;> omega
  omega

/-- **C75, one round.** In exact arithmetic, with a shift at least the bit size of `A` and independent
columns, `lehmer_lll` returns a basis of the lattice of `A` which is reduced for the constant `0.99` of the
code, whatever the argument `delta`. -/
theorem C75_one_round {e : LehEnv ℝ} (ho : ExactTies e.o) (n d : ℕ) (hn : 0 < n) (hd : 0 < d)
    (hP : Leh.ProdOk e n d) (he : Leh.plain e) (A : Mat Int) (hA : FullColumnRank (toMatrix n d A))
    (hc0 : 0 < e.c99) (hc1 : e.c99 ≤ 1) (delta : ℝ) (lshift : ℤ) (hl : (maxbitsize n d A : ℤ) ≤ lshift)
    (hb : 2 * potential n d A + d ≤ 4294967295) (hf : 2 * potential n d A + d + 2 ≤ e.fuel) :
    ∃ r, (∀ fuel, 2 ≤ fuel → lehmerLll e fuel n d A delta lshift false = some r) ∧ r.ret = 0 ∧
      r.C.rows = n ∧ r.C.cols = d ∧ LLLReduced e.c99 (toMatrix n d r.C.M) ∧
      lattice (toMatrix n d r.C.M) = lattice (toMatrix n d A) := by
  have hm0 : maxbitsize n d A ≠ 0 := fun h => by
    rcases (C31_maxbitsize n d A).2.2.2.1 h with h | h <;> omega
  obtain ⟨Ct, hCt⟩ : ∃ Ct, Ct = liftTruncate n d A 0 0 fun _ _ => 0 := ⟨_, rfl⟩
  have hCA : toMatrix n d Ct = toMatrix n d A := by
    ext i j
    simp only [toMatrix, of_apply]
    rw [hCt]
    exact (Leh.lift_rows hn hd A 0).2 rfl j j.2 i i.2
  have hass : (newLattice e.o e.junk n d (fun _ _ => 0) true 0 e.longFlag e.vd).assign Ct =
      newLattice e.o e.junk n d Ct true 0 e.longFlag e.vd := by
    simp only [newLattice, Lat.assign]
    congr 1
    congr 1 <;> funext i <;> exact ite_self _
  have hpot : potential n d Ct = potential n d A := by
    unfold potential
    refine Finset.prod_congr rfl fun k hk => ?_
    have : toMatrix n k Ct = toMatrix n k A := by
      ext i j
      simp only [toMatrix, of_apply]
      rw [hCt]
      exact (Leh.lift_rows hn hd A 0).2 rfl j (by have := Finset.mem_range.1 hk; omega) i i.2
    rw [this]
  obtain ⟨s', hs', hred, hlat⟩ := C10_total_correctness ho e.junk n d Ct true 0 (by norm_num) e.longFlag e.vd 1
    (by norm_num) 1000000 4294967295 (by rw [hCA]; exact hA) e.c99 hc0 hc1 true (by rw [hpot]; exact_mod_cast hb)
  have hrun := hs' e.fuel (by rw [hpot]; exact_mod_cast hf)
  have hrun' : hlll e.o e.fuel e.c99 true ((newLattice e.o e.junk n d (fun _ _ => 0) true 0 e.longFlag
      e.vd).assign Ct) = some (0, s') := by
    rw [hass]; exact hrun
  obtain ⟨s2, hs2⟩ : ∃ s2, lehStep e n d lshift false (lehStart e n d A) = some s2 := by
    unfold lehStep
    have : min 0 ((lehStart e n d A).def_ + lshift) = 0 := by
      simp only [lehStart]; omega
    rw [this]
    simp only
    rw [he]
    simp only
    have h2 : liftTruncate n d (lehStart e n d A).C 0 (if false = true then 40 else 0) (fun _ _ => 0) = Ct := by
      rw [hCt]; rfl
    rw [h2]
    simp only [lehStart]
    rw [hrun']
    exact ⟨_, rfl⟩
  obtain ⟨Ct', st, k1, k2, k3, k4, k5⟩ := Leh.step_spec hd hP hs2
  have hmin : min 0 ((lehStart e n d A).def_ + lshift) = 0 := by
    simp only [lehStart]; omega
  rw [hmin] at k1 k3
  rw [he] at k1
  have hCC : Ct' = Ct := by
    rw [hCt]
    simp only [Option.some.injEq] at k1
    exact k1.symm
  subst hCC
  have k2' : s2.B = s' := by
    have : some (st, s2.B) = some (0, s') := by
      rw [← k2]; exact hrun'
    simp only [Option.some.injEq, Prod.mk.injEq] at this
    exact this.2
  have hlast := Leh.step_last hd hP (Leh.start_inv e n d A) hs2 Ct' k4 hCA (by rw [hCA]; exact hA)
  rw [k2'] at hlast
  refine ⟨⟨0, ⟨n, d, s2.C⟩, s2.Ts⟩, fun fuel hf2 => ?_, rfl, rfl, rfl, ?_, ?_⟩
  · unfold lehmerLll
    rw [if_neg (by omega)]
    obtain ⟨f, rfl⟩ : ∃ f, fuel = f + 2 := ⟨fuel - 2, by omega⟩
    unfold lehLoop
    rw [if_pos (by simp only [lehStart]; omega), hs2]
    simp only
    unfold lehLoop
    rw [if_neg (by omega)]
  · simp only
    rw [hlast]; exact hred
  · simp only
    rw [hlast, hlat, hCA]

/-- The product requirement holds when the outcomes are those of `pmatprod_in_int` under some schedules,
and for `S ≤ 1` (the sequential product) whatever `pprod` is. -/
theorem C75_prodOk {e : LehEnv F} {n d : ℕ} (hd : 0 < d)
    (h : e.S > 1 → ∀ k A U, ∃ (s : PState) (T : List (ℕ × PAct)), s.sh 0 = A ∧
      Interleave (threads e.S (pmatprodInIntProg n d e.S)) T ∧
      e.pprod k A U = (execAll (pact U) T s).sh 0) : Leh.ProdOk e n d := by
  intro hS k A U
  obtain ⟨s, T, h1, h2, h3⟩ := h hS k A U
  rw [h3, (Props.C25_pmatprod_in_int n d e.S hd (by omega) A U s h1 T h2).1]

/-- `lehmer_lll<mpz_t, double>` with the sequential product. -/
def lehNear : LehEnv Rat where
  o := nearOps 53
  junk := 0
  c99 := rnQ 53 (mkRat 99 100)
  fuel := 20
  lift := fun n d A df b => some (liftTruncate n d A df b fun _ _ => 0)
  S := 1
  pprod := fun _ A _ => A
  longFlag := true
  vd := 0

theorem lehNear_prodOk (n d : ℕ) : Leh.ProdOk lehNear n d := fun h => absurd h (by decide)

theorem lehNear_plain : Leh.plain lehNear := fun _ _ _ _ _ => rfl

/-- **C75, the argument `delta` is ignored.** On the columns `(10,30)`, `(-31,6)` with `delta = 0.999`, the
direct reduction (`lshift = 0`) exchanges the two columns, the result with `lshift = 5` does not satisfy the
condition of Lovász for `0.999`: the second column, which is already reduced against the first one, has
squared norm `997 < 0.999 · 1000`. -/
theorem C75_delta_ignored :
    (lehmerLll lehNear 3 2 2 (ofCols [[10, 30], [-31, 6]]) (rnQ 53 (mkRat 999 1000)) 5 false).map
        (fun r => toCols 2 2 r.C.M) = some [[10, 30], [-31, 6]] ∧
    (lehmerLll lehNear 3 2 2 (ofCols [[10, 30], [-31, 6]]) (rnQ 53 (mkRat 999 1000)) 0 false).map
        (fun r => toCols 2 2 r.C.M) = some [[-31, 6], [10, 30]] ∧
    (-31 : ℚ) ^ 2 + 6 ^ 2 < 999 / 1000 * (10 ^ 2 + 30 ^ 2) := by
  refine ⟨by decide +kernel, by decide +kernel, by norm_num⟩

/-- More: with a shift different from 0 the result does not depend on `delta`, in any arithmetic. -/
theorem C75_delta_irrelevant (e : LehEnv F) (fuel n d : ℕ) (A : Mat Int) (delta delta' : F) (lshift : ℤ)
    (truncate : Bool) (h : lshift ≠ 0) :
    lehmerLll e fuel n d A delta lshift truncate = lehmerLll e fuel n d A delta' lshift truncate := by
  unfold lehmerLll
  rw [if_neg h, if_neg h]

/-- A run in two rounds on the knapsack `(1000, 711)`. -/
example : (lehmerLll lehNear 5 3 2 (ofCols [[1000, 1, 0], [711, 0, 1]]) (rnQ 53 (mkRat 99 100)) 5 false).map
    (fun r => (toCols 3 2 r.C.M, r.Ts.map (toCols 3 2))) =
    some ([[-23, -5, 7], [18, -27, 38]], [[[31, 1, 0], [22, 0, 1]], [[133, -2, 3], [-156, -3, 4]]]) := by
  decide +kernel

/-- So, by `C75_lehmer_lattice`, these columns are a basis of the lattice of the knapsack. -/
example : lattice (toMatrix 3 2 (ofCols [[-23, -5, 7], [18, -27, 38]])) =
    lattice (toMatrix 3 2 (ofCols [[1000, 1, 0], [711, 0, 1]])) := by
  have key : (lehmerLll lehNear 5 3 2 (ofCols [[1000, 1, 0], [711, 0, 1]]) (rnQ 53 (mkRat 99 100)) 5
      false).map (fun r => toCols 3 2 r.C.M) = some [[-23, -5, 7], [18, -27, 38]] := by decide +kernel
  cases h : lehmerLll lehNear 5 3 2 (ofCols [[1000, 1, 0], [711, 0, 1]]) (rnQ 53 (mkRat 99 100)) 5 false with
  | none => rw [h] at key; simp at key
  | some r =>
    rw [h] at key
    simp only [Option.map_some, Option.some.injEq] at key
    have hA : FullColumnRank (toMatrix (3 - 1) 2 fun c r => ofCols [[1000, 1, 0], [711, 0, 1]] c (r + 1)) := by
      rw [fcr_iff_det, Matrix.det_fin_two]; decide
    rw [← (C75_lehmer_lattice lehNear 5 3 2 (by norm_num) (by norm_num) (lehNear_prodOk 3 2) lehNear_plain _
      hA _ 5 r h).1]
    congr 1
    ext i j
    have h2 : ∀ (i : Fin 3) (j : Fin 2), ((toCols 3 2 r.C.M).getD j []).getD i 0 = r.C.M j i := by
      intro i j; fin_cases i <;> fin_cases j <;> rfl
    simp only [toMatrix, of_apply]
    rw [← h2, key]
    fin_cases i <;> fin_cases j <;> rfl

/-- The hypotheses of `C75_one_round` are met by the columns `(5,0)`, `(3,1)`, of bit size 3 and potential
25, in the real arithmetic, with shift 3. -/
example : ∃ r, lehmerLll (⟨realOps, 7, 99 / 100, 60, fun n d A df b => some (liftTruncate n d A df b fun _ _ => 0),
      1, fun _ A _ => A, true, 0⟩ : LehEnv ℝ) 2 2 2 (ofCols [[5, 0], [3, 1]]) (1 / 2) 3 false = some r ∧
    LLLReduced (99 / 100) (toMatrix 2 2 r.C.M) := by
  have hA : FullColumnRank (toMatrix 2 2 (ofCols [[5, 0], [3, 1]])) := by
    rw [fcr_iff_det, Matrix.det_fin_two]; decide
  have hp : potential 2 2 (ofCols [[5, 0], [3, 1]]) = 25 := by
    unfold potential
    rw [Finset.prod_range_succ, Finset.prod_range_succ, Finset.prod_range_zero]
    simp [Matrix.det_unique, Matrix.mul_apply, toMatrix, ofCols]
  obtain ⟨r, h1, -, -, -, h2, -⟩ := C75_one_round
    (e := (⟨realOps, 7, 99 / 100, 60, fun n d A df b => some (liftTruncate n d A df b fun _ _ => 0),
      1, fun _ A _ => A, true, 0⟩ : LehEnv ℝ)) realOps_exact 2 2 (by norm_num) (by norm_num)
    (fun h => absurd h (by norm_num)) (fun _ _ _ _ _ => rfl) (ofCols [[5, 0], [3, 1]]) hA
    (by norm_num) (by norm_num) (1 / 2) 3 (by decide) (by rw [hp]; norm_num) (by rw [hp]; norm_num)
  exact ⟨r, h1 2 le_rfl, h2⟩

end HPLLL.Props
