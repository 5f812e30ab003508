import Verif.Props.Nullspace
import Verif.Proof.DecLoop
/-!
# C73: `nullspace_direct_decomp` in exact arithmetic

`A` has size `d × n`; its first `d` columns are independent.
-/

namespace HPLLL.Props
open HPLLL Spec Matrix

theorem rank_of_first {d n : ℕ} (hn : d ≤ n) (A : Mat Int) (hA : FullColumnRank (toMatrix d d A)) :
    (toMatrix d n A).rank = d := by
  apply le_antisymm
  · simpa using Matrix.rank_le_height (toMatrix d n A)
  · let f : Fin d → LinearMap.range (toMatrix d n A).mulVecLin := fun j =>
      ⟨(toMatrix d n A).col ⟨j, by omega⟩, by
        refine ⟨Pi.single ⟨j, by omega⟩ 1, ?_⟩
        simp⟩
    have hf : LinearIndependent ℤ f := by
      have h2 : LinearIndependent ℤ ((LinearMap.range (toMatrix d n A).mulVecLin).subtype ∘ f) := by
        have : ((LinearMap.range (toMatrix d n A).mulVecLin).subtype ∘ f) = (toMatrix d d A).col := by
          funext j; rfl
        rw [this]; exact hA
      exact LinearIndependent.of_comp _ h2
    have := hf.fintype_card_le_finrank
    simpa [Matrix.rank] using this

/-- **C73.** In exact arithmetic, let `gamma > 2/sqrt 3` (`1.1547005384` in the code), let the first `d`
columns of `A` be independent, of norms at most `B >= 1`, and `0 < gap <= B^(-d)`.  As soon as
`(1/4 + 1/gamma^2)^N < B^(-d(d+1))`, after at most `N + d + 1` iterations of the main loop (and two of
each loop of a size reduction) `nullspace_direct_decomp` returns `n - d`, and the columns of `C` are a
basis of the integer kernel of `A`. -/
theorem C73_direct_succeeds {o : FPOps ℝ} (ho : ExactTies o) (fp : FPart ℝ) (junk gamma gap B : ℝ)
    (hγ : 0 < gamma) (hγ3 : 1 / gamma ^ 2 ≤ 3 / 4) (hB : 1 ≤ B) (hg : 0 < gap) (d n N fuel : ℕ)
    (hd : 0 < d) (hn : d < n) (hgB : gap * B ^ d ≤ 1) (A : Mat Int) (C : ZMat)
    (hA : FullColumnRank (toMatrix d d A))
    (hcol : ∀ j : Fin d, ∑ i : Fin d, ((toMatrix d d A i j : ℤ) : ℝ) ^ 2 ≤ B ^ 2)
    (hN : (1 / 4 + 1 / gamma ^ 2) ^ N * B ^ (d * (d + 1)) < 1) (hf : N + d + 2 ≤ fuel) :
    ∃ r, nullspaceDirect o fp junk fuel gamma gap d n A C = some r ∧ r.ub = false ∧
      r.ret = (n : ℤ) - d ∧ r.C.rows = n ∧ r.C.cols = n - d ∧
      IsKernelBasis (toMatrix d n A) (toMatrix n (n - d) r.C.M) := by
  obtain ⟨s', h1, h2, h3, h4, h5⟩ := Dec.zDecomp_exact ho (junk := junk) hγ (by linarith) hB hg hd hn hgB fp A
    true hA (fun j hj => by
      have := hcol ⟨j, hj⟩
      unfold Ex.dot bv
      rw [Finset.sum_range]
      refine le_trans (le_of_eq ?_) this
      refine Finset.sum_congr rfl fun i _ => ?_
      rw [if_pos i.2, pow_two]
      rfl) hN hf
  have hrk := rank_of_first hn.le A hA
  have hlen : (zeroCols d n s'.zgetbase.M).length = n - d := by
    apply le_antisymm
    · have hub : s'.ub = false := Dec.zDecomp_safe (s := newZFgas fp d n A true 0)
        ⟨hd, hn, hd, fun h => by simp [newZFgas] at h⟩ rfl hd (by simp [newZFgas]) h1
      obtain ⟨T, W, hAl, hM⟩ := Dec.zDecomp_alg (lo := 0) (Or.inl rfl) h1 hub
      have hK := Null.select_zero (k := (zeroCols d n s'.zgetbase.M).length) hM hAl.inv
        (fun j => ⟨(zeroCols d n s'.zgetbase.M).getD j 0, (Null.zeroCols_getD j.2).1⟩)
        (fun a b hab => by
          simp only [Fin.mk.injEq] at hab
          exact Fin.ext (Null.zeroCols_inj a.2 b.2 hab))
        (fun j i => (Null.zeroCols_getD j.2).2 i i.2)
      have := hK.count
      omega
    · exact Null.zeroCols_length (by omega) h5
  have hrun : nullspaceDirect o fp junk fuel gamma gap d n A C =
      some ⟨(zeroCols d n s'.zgetbase.M).length, ⟨n, n - d, fun j i => s'.zgetU.M
        ((zeroCols d n s'.zgetbase.M).getD j 0) i⟩, s'.ub⟩ := by
    unfold nullspaceDirect
    rw [h1]
    simp only
    rw [if_neg (by rw [hlen]; omega)]
  have hC := C69_direct o fp junk gamma gap fuel d n hd hn A C _ hrun
  have hr0 : (0 : ℤ) ≤ ((zeroCols d n s'.zgetbase.M).length : ℤ) := by omega
  have hb := (C69_direct_basis o fp junk gamma gap fuel d n hd hn A C _ hrun hr0).2 hrk
  refine ⟨_, hrun, hC.1, ?_, rfl, rfl, hb⟩
  simp only
  rw [hlen]; omega

/-- **C73, all large enough fuels.** For `gamma > 2/sqrt 3` strictly the loop always ends. -/
theorem C73_direct_terminates {o : FPOps ℝ} (ho : ExactTies o) (fp : FPart ℝ) (junk gamma gap B : ℝ)
    (hγ : 0 < gamma) (hγ3 : 1 / gamma ^ 2 < 3 / 4) (hB : 1 ≤ B) (hg : 0 < gap) (d n : ℕ)
    (hd : 0 < d) (hn : d < n) (hgB : gap * B ^ d ≤ 1) (A : Mat Int) (C : ZMat)
    (hA : FullColumnRank (toMatrix d d A))
    (hcol : ∀ j : Fin d, ∑ i : Fin d, ((toMatrix d d A i j : ℤ) : ℝ) ^ 2 ≤ B ^ 2) :
    ∃ K : ℕ, ∀ fuel, K ≤ fuel →
      ∃ r, nullspaceDirect o fp junk fuel gamma gap d n A C = some r ∧ r.ret = (n : ℤ) - d ∧
        IsKernelBasis (toMatrix d n A) (toMatrix n (n - d) r.C.M) := by
  have hc0 : 0 ≤ 1 / 4 + 1 / gamma ^ 2 := by positivity
  obtain ⟨N, hN⟩ := exists_pow_lt_of_lt_one (show (0 : ℝ) < 1 / B ^ (d * (d + 1)) by positivity)
    (show 1 / 4 + 1 / gamma ^ 2 < 1 by linarith)
  refine ⟨N + d + 2, fun fuel hf => ?_⟩
  obtain ⟨r, h1, -, h2, -, -, h3⟩ := C73_direct_succeeds ho fp junk gamma gap B hγ hγ3.le hB hg d n N fuel
    hd hn hgB A C hA hcol (by
      rw [lt_div_iff₀ (by positivity)] at hN
      exact hN) hf
  exact ⟨r, h1, h2, h3⟩

/-- The hypotheses are met by `1.1547005384` and the default gap `1e-9`, for `A = (10 7; 3 4 | ...)`. -/
example : ∃ K : ℕ, ∀ fuel, K ≤ fuel →
    ∃ r, nullspaceDirect realOps ⟨fun _ _ => 0, fun _ _ => 0, fun _ _ => 0, fun _ _ => 0, fun _ _ => 0,
        fun _ => 0, 0, 0, fun _ => false, fun _ => 0, fun _ => 0⟩ 0 fuel (11547005384 / 10000000000)
        (1 / 1000000000) 2 4 (ofCols [[10, 3], [7, 4], [3, 8], [5, 9]]) ⟨0, 0, fun _ _ => 0⟩ = some r ∧
      r.ret = 4 - 2 ∧
      IsKernelBasis (toMatrix 2 4 (ofCols [[10, 3], [7, 4], [3, 8], [5, 9]]))
        (toMatrix 4 2 r.C.M) := by
  have := C73_direct_terminates realOps_exact ⟨fun _ _ => 0, fun _ _ => 0, fun _ _ => 0, fun _ _ => 0,
    fun _ _ => 0, fun _ => 0, 0, 0, fun _ => false, fun _ => 0, fun _ => 0⟩ 0
    (11547005384 / 10000000000) (1 / 1000000000) 11 (by norm_num) (by norm_num) (by norm_num)
    (by norm_num) 2 4 (by norm_num) (by norm_num) (by norm_num)
    (ofCols [[10, 3], [7, 4], [3, 8], [5, 9]]) ⟨0, 0, fun _ _ => 0⟩
    (by
      rw [fcr_iff_det]
      have : toMatrix 2 2 (ofCols [[10, 3], [7, 4], [3, 8], [5, 9]]) = !![10, 7; 3, 4] := by
        ext i j; fin_cases i <;> fin_cases j <;> rfl
      rw [this, Matrix.det_fin_two_of]; norm_num)
    (by
      intro j
      have : toMatrix 2 2 (ofCols [[10, 3], [7, 4], [3, 8], [5, 9]]) = !![10, 7; 3, 4] := by
        ext i j; fin_cases i <;> fin_cases j <;> rfl
      rw [this, Fin.sum_univ_two]
      fin_cases j <;> norm_num)
  exact_mod_cast this

end HPLLL.Props
