import Verif.Spec.LLL
import Mathlib.Algebra.BigOperators.Fin
/-! LLL-reduced bases start with a short vector. -/

namespace HPLLL
open Spec Finset InnerProductSpace

variable {n d : ℕ}

theorem inner_gs_self (M : Matrix (Fin n) (Fin d) ℤ) (i : Fin d) :
    inner ℝ (gs M i) (colVec M i) = ‖gs M i‖ ^ 2 := by
  have h := gramSchmidt_def'' ℝ (colVec M) i
  conv_lhs => rw [h]
  rw [inner_add_right, inner_sum, sum_eq_zero, add_zero]
  · exact real_inner_self_eq_norm_sq _
  · intro j hj
    rw [inner_smul_right]
    have : inner ℝ (gs M i) (gramSchmidt ℝ (colVec M) j) = 0 :=
      gramSchmidt_orthogonal ℝ (colVec M) (ne_of_gt (mem_Iio.mp hj))
    rw [this, mul_zero]

theorem inner_gs_lt (M : Matrix (Fin n) (Fin d) ℤ) {i j : Fin d} (h : j < i) :
    inner ℝ (gs M i) (colVec M j) = 0 := gramSchmidt_inv_triangular ℝ (colVec M) h

/-- A nonzero combination is at least as long as some Gram–Schmidt vector. -/
theorem exists_gs_le (M : Matrix (Fin n) (Fin d) ℤ) (z : Fin d → ℤ) (hz : z ≠ 0) :
    ∃ i : Fin d, ‖gs M i‖ ≤ ‖∑ j, (z j : ℝ) • colVec M j‖ := by
  classical
  have hne : (univ.filter fun i : Fin d => z i ≠ 0).Nonempty := by
    obtain ⟨i, hi⟩ := Function.ne_iff.mp hz
    exact ⟨i, by simpa using hi⟩
  set i := (univ.filter fun i : Fin d => z i ≠ 0).max' hne with hi
  have hmem : i ∈ univ.filter fun i : Fin d => z i ≠ 0 := max'_mem _ _
  have hzi : z i ≠ 0 := by simpa using hmem
  have hgt : ∀ j, i < j → z j = 0 := by
    intro j hj
    by_contra hn
    have := le_max' (univ.filter fun i : Fin d => z i ≠ 0) j (by simpa using hn)
    exact absurd this (not_le.mpr hj)
  refine ⟨i, ?_⟩
  have hin : inner ℝ (gs M i) (∑ j, (z j : ℝ) • colVec M j) = z i * ‖gs M i‖ ^ 2 := by
    rw [inner_sum, sum_eq_single i]
    · rw [inner_smul_right, inner_gs_self]
    · intro j _ hj
      rw [inner_smul_right]
      rcases lt_or_gt_of_ne hj with h | h
      · rw [inner_gs_lt M h, mul_zero]
      · rw [hgt j h]; simp
    · intro h; exact absurd (mem_univ i) h
  have hcs := abs_real_inner_le_norm (gs M i) (∑ j, (z j : ℝ) • colVec M j)
  rw [hin, abs_mul] at hcs
  have h1 : (1 : ℝ) ≤ |(z i : ℝ)| := by
    have : (1 : ℤ) ≤ |z i| := Int.one_le_abs hzi
    exact_mod_cast this
  have hp := norm_nonneg (gs M i)
  rcases hp.eq_or_lt with h0 | h0
  · rw [← h0]; exact norm_nonneg _
  · rw [abs_of_nonneg (sq_nonneg ‖gs M i‖)] at hcs
    have h2 : ‖gs M i‖ * ‖gs M i‖ ≤ ‖gs M i‖ * ‖∑ j, (z j : ℝ) • colVec M j‖ := by nlinarith
    exact le_of_mul_le_mul_left h2 h0

theorem gs_zero (M : Matrix (Fin n) (Fin d) ℤ) (i : Fin d) (hi : (i : ℕ) = 0) :
    gs M i = colVec M i := by
  have h := gramSchmidt_def'' ℝ (colVec M) i
  have he : Iio i = ∅ := by
    ext j; simp only [mem_Iio, Fin.lt_def, notMem_empty, iff_false]; omega
  rw [he, sum_empty, add_zero] at h
  exact h.symm

theorem first_le_gs {δ : ℝ} (hδ : 1 / 4 < δ) {M : Matrix (Fin n) (Fin d) ℤ} (h : LLLReduced δ M)
    (i0 : Fin d) (h0 : (i0 : ℕ) = 0) : ∀ (m : ℕ) (i : Fin d), (i : ℕ) = m →
    ‖colVec M i0‖ ^ 2 ≤ (1 / (δ - 1 / 4)) ^ m * ‖gs M i‖ ^ 2 := by
  intro m
  induction m with
  | zero =>
    intro i hi
    have : i = i0 := by ext; omega
    rw [this, gs_zero M i0 h0]; simp
  | succ m ih =>
    intro i hi
    set j : Fin d := ⟨m, by omega⟩ with hj
    have h1 := ih j rfl
    have h2 := h.2 i j (by simp [hj, hi])
    have h3 := h.1 i j (by rw [Fin.lt_def]; simp [hj]; omega)
    have h4 : mu M i j ^ 2 ≤ 1 / 4 := by
      have := abs_le.mp h3
      nlinarith
    have hpos : 0 < δ - 1 / 4 := by linarith
    have hn := sq_nonneg ‖gs M j‖
    have h5 : (δ - 1 / 4) * ‖gs M j‖ ^ 2 ≤ ‖gs M i‖ ^ 2 := by nlinarith
    have h6 : ‖gs M j‖ ^ 2 ≤ 1 / (δ - 1 / 4) * ‖gs M i‖ ^ 2 := by
      rw [one_div, inv_mul_eq_div, le_div_iff₀ hpos]; linarith
    calc _ ≤ _ := h1
      _ ≤ (1 / (δ - 1 / 4)) ^ m * (1 / (δ - 1 / 4) * ‖gs M i‖ ^ 2) :=
        mul_le_mul_of_nonneg_left h6 (by positivity)
      _ = _ := by rw [pow_succ]; ring

theorem normsq_colVec (M : Matrix (Fin n) (Fin d) ℤ) (j : Fin d) :
    ‖colVec M j‖ ^ 2 = ∑ i, (M i j : ℝ) ^ 2 := by
  rw [EuclideanSpace.norm_sq_eq]
  refine sum_congr rfl fun i _ => ?_
  simp [colVec]

/-- Short first vector. -/
theorem LLLReduced.first_short {δ : ℝ} (hδ : 1 / 4 < δ) (hδ1 : δ ≤ 1)
    {M : Matrix (Fin n) (Fin d) ℤ} (h : LLLReduced δ M)
    (i0 : Fin d) (h0 : (i0 : ℕ) = 0) (v : Fin n → ℤ) (hv : v ∈ lattice M) (hv0 : v ≠ 0) :
    ∑ i, (M i i0 : ℝ) ^ 2 ≤ (1 / (δ - 1 / 4)) ^ (d - 1) * ∑ i, (v i : ℝ) ^ 2 := by
  unfold lattice at hv
  rw [Submodule.mem_span_range_iff_exists_fun] at hv
  obtain ⟨z, hz⟩ := hv
  have hz0 : z ≠ 0 := by
    rintro rfl; apply hv0; rw [← hz]; simp
  obtain ⟨i, hi⟩ := exists_gs_le M z hz0
  have hvn : ‖∑ j, (z j : ℝ) • colVec M j‖ ^ 2 = ∑ i, (v i : ℝ) ^ 2 := by
    rw [EuclideanSpace.norm_sq_eq]
    refine sum_congr rfl fun r _ => ?_
    rw [← hz]
    simp [colVec, Finset.sum_apply]
  rw [← normsq_colVec, ← hvn]
  have h1 := first_le_gs hδ h i0 h0 i i rfl
  have hpos : 0 < δ - 1 / 4 := by linarith
  have hα : 1 ≤ 1 / (δ - 1 / 4) := by rw [le_div_iff₀ hpos]; linarith
  calc _ ≤ _ := h1
    _ ≤ (1 / (δ - 1 / 4)) ^ (d - 1) * ‖gs M i‖ ^ 2 :=
      mul_le_mul_of_nonneg_right (pow_le_pow_right₀ hα (by omega)) (sq_nonneg _)
    _ ≤ _ := mul_le_mul_of_nonneg_left (by
        have := norm_nonneg (gs M i)
        nlinarith) (by positivity)

end HPLLL
