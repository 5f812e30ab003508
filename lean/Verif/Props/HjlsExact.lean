import Verif.Props.NullExact
import Verif.Proof.HjlsExact
/-!
# C74: `nullspace_hjls` in exact arithmetic, with a constant larger than `2/sqrt 3`

`A` has size `d × n`; its last `d` columns are independent.
-/

namespace HPLLL.Props
open HPLLL Spec Matrix

theorem rank_of_last {d n : ℕ} (hn : d ≤ n) (A : Mat Int)
    (hA : FullColumnRank (toMatrix d d fun j i => A (n - d + j) i)) : (toMatrix d n A).rank = d := by
  apply le_antisymm
  · simpa using Matrix.rank_le_height (toMatrix d n A)
  · let f : Fin d → LinearMap.range (toMatrix d n A).mulVecLin := fun j =>
      ⟨(toMatrix d n A).col ⟨n - d + j, by omega⟩, by
        refine ⟨Pi.single ⟨n - d + j, by omega⟩ 1, ?_⟩
        simp⟩
    have hf : LinearIndependent ℤ f := by
      have h2 : LinearIndependent ℤ ((LinearMap.range (toMatrix d n A).mulVecLin).subtype ∘ f) := by
        have : ((LinearMap.range (toMatrix d n A).mulVecLin).subtype ∘ f) =
            (toMatrix d d fun j i => A (n - d + j) i).col := by
          funext j; rfl
        rw [this]; exact hA
      exact LinearIndependent.of_comp _ h2
    have := hf.fintype_card_le_finrank
    simpa [Matrix.rank] using this

/-- **C74.** In exact arithmetic, let `gamma > 2/sqrt 3`, which the code's `1.1414` is not, let the last
`d` columns of `A` be independent, its rows of norm at most `B >= 1`, and `0 < gap <= B^(-n)`.  As soon as
`(1/4 + 1/gamma^2)^N < B^(-n(n+1))`, after at most `N + n + 1` iterations of the main loop
`nullspace_hjls` returns `n - d`, and the columns of `C` are a basis of the integer kernel of `A`. -/
theorem C74_hjls_succeeds {o : FPOps ℝ} (ho : ExactTies o) (fp : FPart ℝ) (junk gamma gap B : ℝ)
    (hγ : 0 < gamma) (hγ3 : 1 / gamma ^ 2 ≤ 3 / 4) (hB : 1 ≤ B) (hg : 0 < gap) (d n N fuel : ℕ)
    (hd : 0 < d) (hn : d < n) (hgB : gap * B ^ n ≤ 1) (A : Mat Int) (C : ZMat)
    (hA : FullColumnRank (toMatrix d d fun j i => A (n - d + j) i))
    (hrow : ∀ i : Fin d, ∑ j : Fin n, ((toMatrix d n A i j : ℤ) : ℝ) ^ 2 ≤ B ^ 2)
    (hN : (1 / 4 + 1 / gamma ^ 2) ^ N * B ^ (n * (n + 1)) < 1) (hf : N + n + 2 ≤ fuel) :
    ∃ r, nullspaceHjls o fp junk fuel gamma gap d n A C = some r ∧ r.ub = false ∧
      r.ret = (n : ℤ) - d ∧ r.C.rows = n ∧ r.C.cols = n - d ∧
      IsKernelBasis (toMatrix d n A) (toMatrix n (n - d) r.C.M) := by
  obtain ⟨s', h1, h2, h3, h4, h5⟩ := Dec.zDecomp_exact_dec ho (junk := junk) hγ (by linarith) hB hg
    (e := d) (d := n) (n := n + d) (tg := (n : ℤ) - d) rfl hn (by omega) hgB fp (hjlsInput d A)
    false (Null.hjlsInput_fcr hn.le hA) (fun j hj => by
      unfold Ex.dot bv
      by_cases hjd : j < d
      · have := hrow ⟨j, hjd⟩
        rw [Finset.sum_range]
        refine le_trans (le_of_eq ?_) this
        refine Finset.sum_congr rfl fun i _ => ?_
        rw [if_pos i.2, pow_two]
        unfold hjlsInput
        rw [if_pos hjd]
        rfl
      · rw [Finset.sum_eq_single_of_mem (j - d) (by rw [Finset.mem_range]; omega)]
        · unfold hjlsInput
          rw [if_pos (by omega), if_neg hjd, if_pos (by omega)]
          have := one_le_pow₀ hB (n := 2)
          simpa using this
        · intro b _ hb
          unfold hjlsInput
          rw [if_neg hjd, if_neg (show ¬ j = d + b by omega)]
          simp) hN hf
  have hrk := rank_of_last hn.le A hA
  have hub : s'.ub = false := Dec.zDecomp_safe (s := newZFgas fp n (n + d) (hjlsInput d A) false d)
    ⟨by simp [newZFgas]; omega, by simp [newZFgas]; omega, by simp [newZFgas]; omega,
      fun h => by simp [newZFgas] at h⟩ rfl (by simp [newZFgas]; omega) (by simp [newZFgas]) h1
  obtain ⟨T, W, hAl, hM⟩ := Dec.zDecomp_alg (lo := d) (n := n + d) (Or.inr ⟨le_refl _, by omega⟩) h1 hub
  have hl := (Dec.zDecomp_mvs (lo := 0) (s := newZFgas fp n (n + d) (hjlsInput d A) false d)
    (Or.inl rfl) h1).le
  have htr : s'.transf = false := hl.2.2.2.1
  have htW : s'.trW = true := hl.2.2.2.2.2.1
  have hw := hAl.w htW
  have hz := Null.hjls_zero hn hM hAl.inv hAl.t0 hAl.w0 (fun j hj => by
    have := h5.span j (by rw [h3, h4]; omega)
    rw [h2] at this
    exact this)
  have hlen : (zeroCols d (n - d) (matprod d n (n - d) A
      (fun j i => s'.zgetV.M (2 * d + j) (d + i)) fun _ _ => 0)).length = n - d := by
    apply le_antisymm
    · unfold zeroCols
      refine (List.length_filter_le _ _).trans ?_
      simp
    · refine Null.zeroCols_length le_rfl fun j hj i hi => ?_
      rw [matprod_apply _ _ _ (by omega), if_pos ⟨hi, hj⟩, Finset.sum_range]
      rw [← hz ⟨i, hi⟩ ⟨j, hj⟩]
      refine Finset.sum_congr rfl fun k _ => ?_
      rw [← hw]
      unfold Fg.zgetV
      rw [htr]
      rfl
  have hrun : nullspaceHjls o fp junk fuel gamma gap d n A C =
      some (nullCheck d n A ⟨n, n - d, fun j i => s'.zgetV.M (2 * d + j) (d + i)⟩ s'.ub) := by
    unfold nullspaceHjls
    rw [h1]
    simp
  have hret : (nullCheck d n A ⟨n, n - d, fun j i => s'.zgetV.M (2 * d + j) (d + i)⟩ s'.ub).ret =
      (n : ℤ) - d := by
    unfold nullCheck
    simp only
    rw [if_neg (by rw [hlen]; omega), hlen]
    push_cast [hn.le]
    rfl
  have hC := C70_hjls o fp junk gamma gap fuel d n hd hn A C _ hrun
  rcases hC.2 with hc | ⟨-, hr, hc, -⟩
  · rw [hret] at hc; omega
  · exact ⟨_, hrun, hC.1, hret, hr, hc,
      (C70_hjls_basis o fp junk gamma gap fuel d n hd hn A C _ hrun (by rw [hret]; omega)).2 hrk⟩

/-- **C74, all large enough fuels.** For `gamma > 2/sqrt 3` the loop always ends. -/
theorem C74_hjls_terminates {o : FPOps ℝ} (ho : ExactTies o) (fp : FPart ℝ) (junk gamma gap B : ℝ)
    (hγ : 0 < gamma) (hγ3 : 1 / gamma ^ 2 < 3 / 4) (hB : 1 ≤ B) (hg : 0 < gap) (d n : ℕ)
    (hd : 0 < d) (hn : d < n) (hgB : gap * B ^ n ≤ 1) (A : Mat Int) (C : ZMat)
    (hA : FullColumnRank (toMatrix d d fun j i => A (n - d + j) i))
    (hrow : ∀ i : Fin d, ∑ j : Fin n, ((toMatrix d n A i j : ℤ) : ℝ) ^ 2 ≤ B ^ 2) :
    ∃ K : ℕ, ∀ fuel, K ≤ fuel →
      ∃ r, nullspaceHjls o fp junk fuel gamma gap d n A C = some r ∧ r.ret = (n : ℤ) - d ∧
        IsKernelBasis (toMatrix d n A) (toMatrix n (n - d) r.C.M) := by
  have hc0 : 0 ≤ 1 / 4 + 1 / gamma ^ 2 := by positivity
  obtain ⟨N, hN⟩ := exists_pow_lt_of_lt_one (show (0 : ℝ) < 1 / B ^ (n * (n + 1)) by positivity)
    (show 1 / 4 + 1 / gamma ^ 2 < 1 by linarith)
  refine ⟨N + n + 2, fun fuel hf => ?_⟩
  obtain ⟨r, h1, -, h2, -, -, h3⟩ := C74_hjls_succeeds ho fp junk gamma gap B hγ hγ3.le hB hg d n N fuel
    hd hn hgB A C hA hrow (by
      rw [lt_div_iff₀ (by positivity)] at hN
      exact hN) hf
  exact ⟨r, h1, h2, h3⟩

/-- The hypotheses are met by `1.1547005384`, the default gap and the matrix `(2 1 1 1)` on which the
code, with `1.1414`, loops. -/
example (fp : FPart ℝ) (C : ZMat) : ∃ K : ℕ, ∀ fuel, K ≤ fuel →
    ∃ r, nullspaceHjls realOps fp 0 fuel (11547005384 / 10000000000)
        (1 / 1000000000) 1 4 (ofCols [[2], [1], [1], [1]]) C = some r ∧ r.ret = 4 - 1 ∧
      IsKernelBasis (toMatrix 1 4 (ofCols [[2], [1], [1], [1]])) (toMatrix 4 3 r.C.M) := by
  have := C74_hjls_terminates realOps_exact fp 0
    (11547005384 / 10000000000) (1 / 1000000000) 3 (by norm_num) (by norm_num) (by norm_num)
    (by norm_num) 1 4 (by norm_num) (by norm_num) (by norm_num)
    (ofCols [[2], [1], [1], [1]]) C
    (by
      rw [fcr_iff_det]
      have : toMatrix 1 1 (fun j i => ofCols [[2], [1], [1], [1]] (4 - 1 + j) i) = !![1] := by
        ext i j; fin_cases i; fin_cases j; rfl
      rw [this]; simp)
    (by
      intro i
      have : toMatrix 1 4 (ofCols [[2], [1], [1], [1]]) = !![2, 1, 1, 1] := by
        ext i j; fin_cases i; fin_cases j <;> rfl
      rw [this, Fin.sum_univ_four]
      fin_cases i
      have h2 : (![2, 1, 1, 1] : Fin 4 → ℤ) 2 = 1 := rfl
      have h3 : (![2, 1, 1, 1] : Fin 4 → ℤ) 3 = 1 := rfl
      norm_num [h2, h3])
  exact_mod_cast this

end HPLLL.Props
