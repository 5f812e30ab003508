import Verif.Proof.IdemStep
import Verif.Proof.Fuel
import Verif.Props.History
/-!
# Reduction of a basis that is already reduced; completeness of `isreduced` (exact arithmetic)
-/

namespace HPLLL.Props
open HPLLL Spec Matrix

variable {o o' : FPOps ℝ}

theorem exHist_ready (ho : Exact o) (junk : ℝ) (n d : ℕ)
    (A : Mat Int) (hA : FullColumnRank (toMatrix n d A)) (forU : Bool) (method : ℤ)
    (longFlag : Bool) (vd : ℤ) (cs : List (Call ℝ)) (t : Lat ℝ)
    (hr : Runs (newLattice o junk n d A forU method longFlag vd) cs t) (hc : ExHist n d A cs) :
    ExReady n d (lastBasis A cs) t ∧ FullColumnRank (toMatrix n d (lastBasis A cs)) ∧
      t.seysenFlag = method := by
  have h0 : ExReady n d A (newLattice o junk n d A forU method longFlag vd) :=
    ⟨LInv.of_basis A _ _ rfl rfl rfl rfl (fun h => h.elim), Nat.one_pos, fun _ _ _ _ _ => ho.zero, rfl⟩
  obtain ⟨r1, r2, r3, r4⟩ := h0.runs hA (fun c hc => matrixStructure_mono n A (by omega)) hr hc
  exact ⟨r1, r2, r4⟩

theorem fcr_cancel {n d k : ℕ} {M : Matrix (Fin n) (Fin d) ℤ} (hM : FullColumnRank M)
    {X Y : Matrix (Fin d) (Fin k) ℤ} (h : M * X = M * Y) : X = Y := by
  have hinj := LinearIndependent.fintypeLinearCombination_injective hM
  ext i j
  have : (fun i => X i j) = fun i => Y i j := by
    apply hinj
    funext r
    have := congrFun (congrFun h r) j
    simp only [Fintype.linearCombination_apply, Finset.sum_apply, Pi.smul_apply, smul_eq_mul]
    simp only [Matrix.mul_apply] at this
    simpa [mul_comm] using this
  exact congrFun this i

theorem ready_rank {n d : ℕ} {A : Mat Int} {t : Lat ℝ} (h : ExReady n d A t)
    (hA : FullColumnRank (toMatrix n d A)) : FullColumnRank (toMatrix n d t.B) := by
  obtain ⟨W, hW, hB, -⟩ := h.inv.uni
  rw [hB]
  exact fcr_mul_unit hW hA

/-- **C54 (a reduced basis is a fixed point).** Take any history of exact computations, and call
`hlll(δ)`, `δ ≤ 1`, when the current basis is δ-LLL-reduced (size reduction method, ties not
rounded away from zero).  The call returns 0, the basis is unchanged entry by entry, no swap is done,
exactly `d - 1` tests are done (if allowed by `nblov_max`) and `getU()` is unchanged; and it does
return. -/
theorem C54_reduced_is_fixed (ho' : ExactTies o') (ho : Exact o) (junk : ℝ) (n d : ℕ)
    (A : Mat Int) (hA : FullColumnRank (toMatrix n d A)) (forU : Bool) (method : ℤ) (hm : method < 1)
    (longFlag : Bool) (vd : ℤ) (cs : List (Call ℝ)) (t : Lat ℝ)
    (hr : Runs (newLattice o junk n d A forU method longFlag vd) cs t) (hc : ExHist n d A cs)
    (δ : ℝ) (hδ : δ ≤ 1) (hB : LLLReduced δ (toMatrix n d t.getbase.M)) (v : Bool) :
    ∃ s' fuel0, (∀ fuel, fuel0 ≤ fuel → hlll o' fuel δ v t = some (0, s')) ∧
      s'.getbase.M = t.getbase.M ∧ s'.nbswaps = t.nbswaps ∧
      (t.nblov + (d - 1) ≤ t.nblovMax → s'.nblov = t.nblov + (d - 1)) ∧
      (forU = true → (∀ S thr, Call.setNumS S thr ∈ cs → S = 1 ∨ (d : ℤ) ≤ thr + 1) →
        toMatrix d d s'.getU.M = toMatrix d d t.getU.M) := by
  obtain ⟨r1, r2, r3⟩ := exHist_ready ho junk n d A hA forU method longFlag vd cs t hr hc
  obtain ⟨fuel, s', h⟩ := r1.terminates ho' r2 hδ (by rw [r3]; exact hm) v
  have hL := LLLReduced.lovMin hB
  obtain ⟨b1, b2, b3, b4, b5⟩ := r1.noswap ho'.toExact r2 hδ (UniTri.refl n d t.B) (ready_rank r1 r2)
    hL h
  have hBB : s'.B = t.B := b5 ho' (by rw [r3]; exact hm) hB.1
  refine ⟨s', fuel, fun f hf => ?_, hBB, b2, b4, fun hU hS => ?_⟩
  · obtain ⟨k, rfl⟩ := Nat.exists_eq_add_of_le hf
    exact hlll_mono o' fuel k δ v t _ h
  · obtain ⟨-, -, -, u1, -⟩ := C21_histories o junk n d A forU method longFlag vd cs t hr
    have hr2 := Runs.snoc _ _ _ _ _ hr (.hlll o' δ v t s' fuel 0 h)
    obtain ⟨-, -, -, u2, -⟩ := C21_histories o junk n d A forU method longFlag vd _ s' hr2
    have e : lastBasis A (cs ++ [.hlll o' δ v]) = lastBasis A cs := lastBasis_snoc A cs _
    rw [e] at u2
    have v1 := (u1 hU r2).2 hS
    have v2 := (u2 hU r2).2 (by
      intro S thr hm
      rw [List.mem_append] at hm
      rcases hm with hm | hm
      · exact hS S thr hm
      · simp at hm)
    have hE : toMatrix n d (lastBasis A cs) * toMatrix d d s'.getU.M =
        toMatrix n d (lastBasis A cs) * toMatrix d d t.getU.M := by
      rw [v1, v2]; simp only [Lat.getbase, hBB]
    exact fcr_cancel r2 hE

/-- **C54 (idempotence).** In exact arithmetic a second `hlll` with the same or a smaller `δ`
does not change the basis. -/
theorem C54_idempotent (ho' : ExactTies o') (ho : Exact o) (junk : ℝ) (n d : ℕ)
    (A : Mat Int) (hA : FullColumnRank (toMatrix n d A)) (forU : Bool) (method : ℤ) (hm : method < 1)
    (longFlag : Bool) (vd : ℤ) (cs : List (Call ℝ)) (t : Lat ℝ)
    (hr : Runs (newLattice o junk n d A forU method longFlag vd) cs t) (hc : ExHist n d A cs)
    (δ δ' : ℝ) (hδ : δ ≤ 1) (hδ' : δ' ≤ δ) (v v' : Bool) (fuel : ℕ) (st : ℤ) (s1 : Lat ℝ)
    (h1 : hlll o' fuel δ v t = some (st, s1)) (hnb : s1.nblov < t.nblovMax) :
    ∃ s2 fuel0, (∀ fuel, fuel0 ≤ fuel → hlll o' fuel δ' v' s1 = some (0, s2)) ∧
      s2.getbase.M = s1.getbase.M ∧ s2.nbswaps = s1.nbswaps := by
  obtain ⟨-, c2⟩ := C21_resume ho'.toExact ho junk n d A hA forU method longFlag vd cs t hr hc fuel δ hδ
    v st s1 h1
  obtain ⟨-, c3, -⟩ := c2 hnb
  have hR := c3 hm
  have hR' : LLLReduced δ' (toMatrix n d s1.getbase.M) := by
    refine ⟨hR.1, fun i j hij => le_trans ?_ (hR.2 i j hij)⟩
    exact mul_le_mul_of_nonneg_right hδ' (sq_nonneg _)
  obtain ⟨s2, f0, e1, e2, e3, -⟩ := C54_reduced_is_fixed ho' ho junk n d A hA forU method hm longFlag vd
    (cs ++ [.hlll o' δ v]) s1 (Runs.snoc _ _ _ _ _ hr (.hlll o' δ v t s1 fuel st h1))
    ((exHist_snoc A cs (.hlll o' δ v)).2 ⟨hc, ho'.toExact, hδ, trivial⟩) δ' (hδ'.trans hδ) hR' v'
  exact ⟨s2, f0, e1, e2, e3⟩

/-- The matrix form of the change of columns. -/
theorem reducedUpToSize_iff (δ : ℝ) (n d : ℕ) (A : Mat Int) :
    ReducedUpToSize δ (toMatrix n d A) ↔
      ∃ C : Mat Int, UniTri n d A C ∧ LLLReduced δ (toMatrix n d C) := by
  constructor
  · rintro ⟨T, h1, h2, h3⟩
    set C : Mat Int := fun j r => if hj : j < d then if hr : r < n then
      (toMatrix n d A * T) ⟨r, hr⟩ ⟨j, hj⟩ else 0 else 0 with hC
    have e : toMatrix n d C = toMatrix n d A * T := by
      ext r j
      simp [toMatrix, hC]
    refine ⟨C, ?_, by rw [e]; exact h3⟩
    intro j hj
    refine ⟨fun i => if hi : i < d then T ⟨i, hi⟩ ⟨j, hj⟩ else 0, fun r hr => ?_⟩
    have : C j r = (toMatrix n d A * T) ⟨r, hr⟩ ⟨j, hj⟩ := by simp [hC, hj, hr]
    rw [this, Matrix.mul_apply]
    have hsum : ∑ x : Fin d, toMatrix n d A ⟨r, hr⟩ x * T x ⟨j, hj⟩ =
        ∑ x ∈ Finset.range d, A x r * (if hx : x < d then T ⟨x, hx⟩ ⟨j, hj⟩ else 0) := by
      rw [← Fin.sum_univ_eq_sum_range (fun x => A x r * (if hx : x < d then T ⟨x, hx⟩ ⟨j, hj⟩ else 0)) d]
      exact Finset.sum_congr rfl fun x _ => by simp [toMatrix]
    rw [hsum, ← Finset.sum_subset (Finset.range_subset_range.2 (by omega : j + 1 ≤ d))]
    · rw [Finset.sum_range_succ, add_comm]
      congr 1
      · simp [hj, h1]
      · exact Finset.sum_congr rfl fun x _ => by rw [mul_comm]
    · intro x hx hx2
      have hx : x < d := by simpa using hx
      have hx2 : j < x := by
        have : ¬ x < j + 1 := by simpa using hx2
        omega
      rw [dif_pos hx, h2 ⟨x, hx⟩ ⟨j, hj⟩ hx2, mul_zero]
  · rintro ⟨C, h1, h2⟩
    choose! c hc using h1
    refine ⟨Matrix.of fun i j => if i = j then 1 else if i < j then c j i else 0, ?_, ?_, ?_⟩
    · intro i; simp
    · intro i j hji
      have h1 : i ≠ j := fun h => by rw [h] at hji; exact absurd hji (lt_irrefl _)
      have h2 : ¬ i < j := fun h => absurd (h.trans hji) (lt_irrefl _)
      simp [h1, h2]
    · convert h2 using 1
      ext r j
      rw [Matrix.mul_apply]
      show _ = C j r
      rw [hc j j.2 r r.2]
      have hsum : ∑ x : Fin d, toMatrix n d A r x *
          (Matrix.of fun i j : Fin d => if i = j then 1 else if i < j then c j i else 0) x j =
          ∑ x ∈ Finset.range d, A x r * (if x = j then 1 else if x < j then c j x else 0) := by
        rw [← Fin.sum_univ_eq_sum_range
          (fun x => A x r * (if x = (j : ℕ) then 1 else if x < j then c j x else 0)) d]
        exact Finset.sum_congr rfl fun x _ => by
          simp only [toMatrix, Matrix.of_apply, Fin.ext_iff, ← Fin.val_fin_lt]
      rw [hsum, ← Finset.sum_subset (Finset.range_subset_range.2 (by omega : (j : ℕ) + 1 ≤ d))]
      · rw [Finset.sum_range_succ, add_comm]
        congr 1
        · simp
        · refine Finset.sum_congr rfl fun x hx => ?_
          have hx : x < (j : ℕ) := by simpa using hx
          rw [if_neg (by omega), if_pos hx, mul_comm]
      · intro x hx hx2
        have hx2 : (j : ℕ) < x := by
          have : ¬ x < (j : ℕ) + 1 := by simpa using hx2
          omega
        rw [if_neg (by omega), if_neg (by omega), mul_zero]

/-- **C54 (no swap).** In exact arithmetic, both methods and any rounding of ties: on a basis that is
δ-LLL-reduced up to size reduction `hlll(δ)`, if it returns, returns 0 without any swap, after `d - 1`
tests. -/
theorem C54_no_swap (ho' : Exact o') (ho : Exact o) (junk : ℝ) (n d : ℕ)
    (A : Mat Int) (hA : FullColumnRank (toMatrix n d A)) (forU : Bool) (method : ℤ)
    (longFlag : Bool) (vd : ℤ) (cs : List (Call ℝ)) (t : Lat ℝ)
    (hr : Runs (newLattice o junk n d A forU method longFlag vd) cs t) (hc : ExHist n d A cs)
    (δ : ℝ) (hδ : δ ≤ 1) (hB : ReducedUpToSize δ (toMatrix n d t.getbase.M)) (v : Bool)
    (fuel : ℕ) (st : ℤ) (s' : Lat ℝ) (h : hlll o' fuel δ v t = some (st, s')) :
    st = 0 ∧ s'.nbswaps = t.nbswaps ∧
      (t.nblov + (d - 1) ≤ t.nblovMax → s'.nblov = t.nblov + (d - 1)) := by
  obtain ⟨r1, r2, r3⟩ := exHist_ready ho junk n d A hA forU method longFlag vd cs t hr hc
  obtain ⟨C, hu, hC⟩ := (reducedUpToSize_iff δ n d t.B).1 hB
  have hrk := ready_rank r1 r2
  have hdn : d ≤ n := by
    rcases Nat.eq_zero_or_pos d with h0 | h0
    · omega
    · have hg := r1.inv.geo r2
      have := hg.diag (d - 1) (by omega); have := hg.le (d - 1) (by omega); omega
  have hL : LovMin δ n d t.B := (hu.lovMin (gs_ne_zero hrk hdn)).2 (LLLReduced.lovMin hC)
  obtain ⟨b1, b2, b3, b4, b5⟩ := r1.noswap ho' r2 hδ (UniTri.refl n d t.B) hrk hL h
  exact ⟨b1, b2, b4⟩

/-- **C54 (`isreduced` is a decision procedure, exact arithmetic).** On an object after any history
(whatever the previous floating point computations), with the size reduction method and `δ ≤ 1`:
if `isreduced(δ)` returns, it returns 0 exactly when the current basis is δ-LLL-reduced up to
size reduction. -/
theorem C54_isreduced_iff (ho : Exact o) (junk' : ℝ) (n d : ℕ) (hd : 0 < d)
    (A : Mat Int) (forU : Bool) (method : ℤ) (hm : method < 1) (longFlag : Bool) (vd : ℤ)
    (cs : List (Call ℝ)) (t : Lat ℝ)
    (hr : Runs (newLattice o' junk' n d A forU method longFlag vd) cs t)
    (hA : FullColumnRank (toMatrix n d (lastBasis A cs))) (hS : 0 < t.numS)
    (hsf : t.seysenFlag = method) (hnb : d ≤ t.nblovMax)
    (junk : ℝ) (fuel : ℕ) (δ : ℝ) (hδ : δ ≤ 1) (st : ℤ) (s' : Lat ℝ)
    (h : t.isreduced o junk fuel δ = some (st, s')) :
    st = 0 ↔ ReducedUpToSize δ (toMatrix n d t.getbase.M) := by
  constructor
  · rintro rfl
    obtain ⟨-, c2, c3⟩ := C16_isreduced_sound ho junk' n d hd A forU method longFlag vd cs t hr hA hS hsf
      hnb junk fuel δ hδ s' h
    exact (reducedUpToSize_iff δ n d t.B).2 ⟨s'.getbase.M, c3, c2 hm⟩
  · intro hB
    have hR := isreducedPrep_ready (o' := o') ho junk' n d A forU method longFlag vd cs t hr hS junk
    obtain ⟨C, hu, hC⟩ := (reducedUpToSize_iff δ n d t.B).1 hB
    have hrk : FullColumnRank (toMatrix n d t.B) := ready_rank (t := t.isreducedPrep o junk) hR hA
    have hdn : d ≤ n := by
      have hg := hR.inv.geo hA
      have := hg.diag (d - 1) (by omega); have := hg.le (d - 1) (by omega); omega
    have hL : LovMin δ n d t.B := (hu.lovMin (gs_ne_zero hrk hdn)).2 (LLLReduced.lovMin hC)
    unfold Lat.isreduced at h
    split at h
    · simp at h
    · rename_i st1 s1 hl
      simp only [Option.some.injEq, Prod.mk.injEq] at h
      obtain ⟨b1, b2, b3, b4, b5⟩ := hR.noswap ho hA hδ (UniTri.refl n d t.B) hrk hL hl
      have hX := hlll_exit o fuel δ true _ s1 st1 hR.inv (le_of_eq hR.km) hl
      have hd1 : s1.d = d := hX.inv.hd
      have e := b4 (by show 0 + (d - 1) ≤ t.nblovMax; omega)
      have e : s1.nblov = 0 + (d - 1) := e
      rw [if_pos (by omega)] at h
      exact h.1.symm

/-- **C54 (it terminates).** With ties not rounded away from zero `isreduced` returns. -/
theorem C54_isreduced_terminates (ho : ExactTies o) (junk' : ℝ) (n d : ℕ)
    (A : Mat Int) (forU : Bool) (method : ℤ) (hm : method < 1) (longFlag : Bool) (vd : ℤ)
    (cs : List (Call ℝ)) (t : Lat ℝ)
    (hr : Runs (newLattice o' junk' n d A forU method longFlag vd) cs t)
    (hA : FullColumnRank (toMatrix n d (lastBasis A cs))) (hS : 0 < t.numS)
    (hsf : t.seysenFlag = method) (junk : ℝ) (δ : ℝ) (hδ : δ ≤ 1) :
    ∃ fuel r, t.isreduced o junk fuel δ = some r := by
  have hR := isreducedPrep_ready (o' := o') ho.toExact junk' n d A forU method longFlag vd cs t hr hS junk
  obtain ⟨fuel, s', h⟩ := hR.terminates ho hA hδ (by
    show t.seysenFlag < 1; rw [hsf]; exact hm) true
  exact ⟨fuel, (if s'.nblov = s'.d - 1 then 0 else -1, s'.setprec o junk), by
    unfold Lat.isreduced; rw [h]⟩

/-- The hypotheses are met: a real basis, reduced once, then reduced again by other calls. -/
example : ∃ t s', Runs (newLattice realOps 7 2 2 (ofCols [[5, 0], [3, 1]]) true 0 true 0)
      [.setNumS 1 1000000, .setNblovMax 100, .hlll realOps (99 / 100) true] t ∧
    LLLReduced (99 / 100) (toMatrix 2 2 t.getbase.M) ∧
    (∃ f, hlll realOps f (99 / 100) false t = some (0, s')) ∧ s'.getbase.M = t.getbase.M ∧
    s'.nbswaps = t.nbswaps ∧ toMatrix 2 2 s'.getU.M = toMatrix 2 2 t.getU.M ∧
    ∃ f r, t.isreduced realOps 0 f (99 / 100) = some r ∧ r.1 = 0 := by
  have hA : FullColumnRank (toMatrix 2 2 (ofCols [[5, 0], [3, 1]])) := by
    have : (toMatrix 2 2 (ofCols [[5, 0], [3, 1]])).det ≠ 0 := by
      rw [Matrix.det_fin_two]; decide
    exact Matrix.linearIndependent_cols_of_det_ne_zero this
  have hp : potential 2 2 (ofCols [[5, 0], [3, 1]]) = 25 := by
    unfold potential
    rw [Finset.prod_range_succ, Finset.prod_range_succ, Finset.prod_range_zero]
    simp [Matrix.det_unique, Matrix.mul_apply, toMatrix, ofCols]
  obtain ⟨t, h1, h2, _⟩ := C10_total_correctness realOps_exact 7 2 2 (ofCols [[5, 0], [3, 1]]) true 0
    (by norm_num) true 0 1 (by norm_num) 1000000 100 hA (99 / 100) (by norm_num) (by norm_num) true
    (by rw [hp]; norm_num)
  have h1 := h1 54 (by rw [hp]; norm_num)
  have hr : Runs (newLattice realOps 7 2 2 (ofCols [[5, 0], [3, 1]]) true 0 true 0)
      ((([] ++ [.setNumS 1 1000000]) ++ [.setNblovMax 100]) ++ [.hlll realOps (99 / 100) true]) t :=
    .snoc _ _ _ _ _ (.snoc _ _ _ _ _ (.snoc _ _ _ _ _ (.nil _) (.setNumS 1 1000000 _))
      (.setNblovMax 100 _)) (.hlll realOps _ true _ _ 54 0 h1)
  obtain ⟨s', f0, e1, e2, e3, -, e5⟩ := C54_reduced_is_fixed realOps_exact realOps_exact.toExact 7 2 2 _ hA
    true 0 (by norm_num) true 0 _ t hr ⟨by norm_num, realOps_exact.toExact, by norm_num, trivial⟩
    (99 / 100) (by norm_num) h2 false
  obtain ⟨r1, r2, r3⟩ := exHist_ready realOps_exact.toExact 7 2 2 _ hA
    true 0 true 0 _ t hr ⟨by norm_num, realOps_exact.toExact, by norm_num, trivial⟩
  have hcf := hlll_exit realOps 54 (99 / 100) true _ t 0
    (fresh_inv realOps 7 2 2 (ofCols [[5, 0], [3, 1]]) true 0 true 0 1 1000000 100 False (fun h => h.elim))
    (le_refl _) h1
  obtain ⟨f, r, hi⟩ := C54_isreduced_terminates (o' := realOps) realOps_exact 7 2 2 _ true 0 (by norm_num)
    true 0 _ t hr r2 r1.numS r3 0 (99 / 100) (by norm_num)
  refine ⟨t, s', hr, h2, ⟨f0, e1 f0 (le_refl _)⟩, e2, e3, e5 rfl (by simp), f, r, hi, ?_⟩
  refine (C54_isreduced_iff (o' := realOps) realOps_exact.toExact 7 2 2 (by norm_num) _ true 0 (by norm_num)
    true 0 _ t hr r2 r1.numS r3 (by rw [hcf.cfg.nblovMax]; show 2 ≤ 100; norm_num) 0 f (99 / 100)
    (by norm_num) r.1 r.2 hi).2 ?_
  exact ⟨1, by simp, fun i j h => Matrix.one_apply_ne (ne_of_gt h), by rw [Matrix.mul_one]; exact h2⟩

end HPLLL.Props
