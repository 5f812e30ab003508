import Verif.Proof.Short
import Verif.Proof.Gen
/-! LLL-reduced bases and independent short vectors of the lattice. -/

namespace HPLLL
open Spec Finset InnerProductSpace

variable {n d : ℕ}

/-- A combination whose last nonzero coefficient is at `i` is at least as long as `b*_i`. -/
theorem gs_le_of_last (M : Matrix (Fin n) (Fin d) ℤ) (z : Fin d → ℤ) (i : Fin d) (hzi : z i ≠ 0)
    (hgt : ∀ j, i < j → z j = 0) : ‖gs M i‖ ≤ ‖∑ j, (z j : ℝ) • colVec M j‖ := by
  have hin : inner ℝ (gs M i) (∑ j, (z j : ℝ) • colVec M j) = z i * ‖gs M i‖ ^ 2 := by
    rw [inner_sum, sum_eq_single i]
    · rw [inner_smul_right, inner_gs_self]
    · intro j _ hj
      rw [inner_smul_right]
      rcases lt_or_gt_of_ne hj with h | h
      · rw [inner_gs_lt M h, mul_zero]
      · rw [hgt j h]; simp
    · intro h; exact absurd (mem_univ i) h
  have hcs := abs_real_inner_le_norm (gs M i) (∑ j, (z j : ℝ) • colVec M j)
  rw [hin, abs_mul] at hcs
  have h1 : (1 : ℝ) ≤ |(z i : ℝ)| := by
    have : (1 : ℤ) ≤ |z i| := Int.one_le_abs hzi
    exact_mod_cast this
  have hp := norm_nonneg (gs M i)
  rcases hp.eq_or_lt with h0 | h0
  · rw [← h0]; exact norm_nonneg _
  · rw [abs_of_nonneg (sq_nonneg ‖gs M i‖)] at hcs
    have h2 : ‖gs M i‖ * ‖gs M i‖ ≤ ‖gs M i‖ * ‖∑ j, (z j : ℝ) • colVec M j‖ := by nlinarith
    exact le_of_mul_le_mul_left h2 h0

theorem gs_le_gs {δ : ℝ} (hδ : 1 / 4 < δ) {M : Matrix (Fin n) (Fin d) ℤ} (h : LLLReduced δ M)
    (l : Fin d) : ∀ (m : ℕ) (i : Fin d), (i : ℕ) = l + m →
    ‖gs M l‖ ^ 2 ≤ (1 / (δ - 1 / 4)) ^ m * ‖gs M i‖ ^ 2 := by
  intro m
  induction m with
  | zero =>
    intro i hi
    have : i = l := by ext; omega
    rw [this]; simp
  | succ m ih =>
    intro i hi
    set j : Fin d := ⟨l + m, by omega⟩ with hj
    have h1 := ih j rfl
    have h2 := h.2 i j (by simp [hj, hi]; omega)
    have h3 := h.1 i j (by rw [Fin.lt_def]; simp [hj]; omega)
    have h4 : mu M i j ^ 2 ≤ 1 / 4 := by
      have := abs_le.mp h3
      nlinarith
    have hpos : 0 < δ - 1 / 4 := by linarith
    have hn := sq_nonneg ‖gs M j‖
    have h5 : (δ - 1 / 4) * ‖gs M j‖ ^ 2 ≤ ‖gs M i‖ ^ 2 := by nlinarith
    have h6 : ‖gs M j‖ ^ 2 ≤ 1 / (δ - 1 / 4) * ‖gs M i‖ ^ 2 := by
      rw [one_div, inv_mul_eq_div, le_div_iff₀ hpos]; linarith
    calc _ ≤ _ := h1
      _ ≤ (1 / (δ - 1 / 4)) ^ m * (1 / (δ - 1 / 4) * ‖gs M i‖ ^ 2) :=
        mul_le_mul_of_nonneg_left h6 (by positivity)
      _ = _ := by rw [pow_succ]; ring

/-- `‖b_j‖² = ‖b*_j‖² + ∑_{l<j} μ_jl² ‖b*_l‖²`. -/
theorem normsq_colVec_gs (M : Matrix (Fin n) (Fin d) ℤ) (j : Fin d) :
    ‖colVec M j‖ ^ 2 = ‖gs M j‖ ^ 2 + ∑ l ∈ Iio j, mu M j l ^ 2 * ‖gs M l‖ ^ 2 := by
  have h := gramSchmidt_def'' ℝ (colVec M) j
  have h' : colVec M j = gs M j + ∑ l ∈ Iio j, mu M j l • gs M l := by
    conv_lhs => rw [h]
    rfl
  have ho : ∀ a b : Fin d, a ≠ b → inner ℝ (gs M a) (gs M b) = 0 := fun a b hab =>
    gramSchmidt_orthogonal ℝ (colVec M) hab
  have h0 : inner ℝ (gs M j) (∑ l ∈ Iio j, mu M j l • gs M l) = 0 := by
    rw [inner_sum]
    refine sum_eq_zero fun l hl => ?_
    rw [inner_smul_right, ho j l (ne_of_gt (mem_Iio.1 hl)), mul_zero]
  have hS : ‖∑ l ∈ Iio j, mu M j l • gs M l‖ ^ 2 = ∑ l ∈ Iio j, mu M j l ^ 2 * ‖gs M l‖ ^ 2 := by
    rw [← real_inner_self_eq_norm_sq, sum_inner]
    refine sum_congr rfl fun a ha => ?_
    rw [inner_sum, sum_eq_single a]
    · rw [inner_smul_left, inner_smul_right, real_inner_self_eq_norm_sq]
      simp only [conj_trivial]; ring
    · intro b _ hb
      rw [inner_smul_left, inner_smul_right, ho a b hb.symm]; simp
    · intro hna; exact absurd ha hna
  rw [← hS, h', norm_add_sq_real, h0]; ring

theorem geo_bound {β : ℝ} (hβ : 4 / 3 ≤ β) (j : ℕ) :
    1 + 1 / 4 * ∑ i ∈ range j, β ^ (i + 1) ≤ β ^ j := by
  induction j with
  | zero => simp
  | succ j ih =>
    rw [sum_range_succ, mul_add]
    have hp : 0 < β ^ j := by positivity
    have e : β ^ (j + 1) = β ^ j * β := pow_succ _ _
    rw [e]
    nlinarith

/-- A vector of the reduced basis against the Gram–Schmidt vectors after it. -/
theorem col_le_gs {δ : ℝ} (hδ : 1 / 4 < δ) (hδ1 : δ ≤ 1) {M : Matrix (Fin n) (Fin d) ℤ}
    (h : LLLReduced δ M) (j i : Fin d) (hji : j ≤ i) :
    ‖colVec M j‖ ^ 2 ≤ (1 / (δ - 1 / 4)) ^ (i : ℕ) * ‖gs M i‖ ^ 2 := by
  have hpos : 0 < δ - 1 / 4 := by linarith
  set β := 1 / (δ - 1 / 4) with hβd
  have hβ : 4 / 3 ≤ β := by rw [hβd, le_div_iff₀ hpos]; linarith
  have hβ0 : 0 < β := by linarith
  have hji' : (j : ℕ) ≤ i := hji
  have hj := gs_le_gs hδ h j (i - j) i (by omega)
  rw [normsq_colVec_gs]
  have hb : ∑ l ∈ Iio j, mu M j l ^ 2 * ‖gs M l‖ ^ 2 ≤
      1 / 4 * (∑ t ∈ range j, β ^ (t + 1)) * (β ^ ((i : ℕ) - j) * ‖gs M i‖ ^ 2) := by
    have h1 : ∀ l ∈ Iio j, mu M j l ^ 2 * ‖gs M l‖ ^ 2 ≤
        1 / 4 * β ^ ((j : ℕ) - l) * (β ^ ((i : ℕ) - j) * ‖gs M i‖ ^ 2) := by
      intro l hl
      have hlt : l < j := mem_Iio.1 hl
      have hlt' : (l : ℕ) < j := hlt
      have h3 := h.1 j l hlt
      have h4 : mu M j l ^ 2 ≤ 1 / 4 := by
        have := abs_le.mp h3
        nlinarith
      have h5 := gs_le_gs hδ h l (i - l) i (by omega)
      have e : (i : ℕ) - l = ((j : ℕ) - l) + ((i : ℕ) - j) := by omega
      rw [e, pow_add] at h5
      calc mu M j l ^ 2 * ‖gs M l‖ ^ 2 ≤ 1 / 4 * ‖gs M l‖ ^ 2 :=
            mul_le_mul_of_nonneg_right h4 (sq_nonneg _)
        _ ≤ 1 / 4 * (β ^ ((j : ℕ) - l) * β ^ ((i : ℕ) - j) * ‖gs M i‖ ^ 2) :=
            mul_le_mul_of_nonneg_left h5 (by norm_num)
        _ = _ := by ring
    refine (sum_le_sum h1).trans (le_of_eq ?_)
    rw [← sum_mul, ← mul_sum]
    congr 2
    have : ∑ l ∈ Iio j, β ^ ((j : ℕ) - l) = ∑ l ∈ range j, β ^ ((j : ℕ) - l) := by
      refine sum_bij (fun l _ => (l : ℕ)) (fun l hl => ?_) (fun a _ b _ hab => Fin.ext hab) (fun b hb => ?_)
        (fun _ _ => rfl)
      · exact mem_range.2 (Fin.lt_def.1 (mem_Iio.1 hl))
      · have hb' := mem_range.1 hb
        exact ⟨⟨b, by have := j.2; omega⟩, mem_Iio.2 hb', rfl⟩
    rw [this, ← sum_range_reflect]
    refine sum_congr rfl fun t ht => ?_
    have := mem_range.1 ht
    congr 1; omega
  have hg := geo_bound hβ j
  have hX : 0 ≤ β ^ ((i : ℕ) - j) * ‖gs M i‖ ^ 2 := by positivity
  calc _ ≤ β ^ ((i : ℕ) - j) * ‖gs M i‖ ^ 2 +
        1 / 4 * (∑ t ∈ range j, β ^ (t + 1)) * (β ^ ((i : ℕ) - j) * ‖gs M i‖ ^ 2) := add_le_add hj hb
    _ = (1 + 1 / 4 * ∑ t ∈ range j, β ^ (t + 1)) * (β ^ ((i : ℕ) - j) * ‖gs M i‖ ^ 2) := by ring
    _ ≤ β ^ (j : ℕ) * (β ^ ((i : ℕ) - j) * ‖gs M i‖ ^ 2) := mul_le_mul_of_nonneg_right hg hX
    _ = β ^ (i : ℕ) * ‖gs M i‖ ^ 2 := by
        rw [← mul_assoc, ← pow_add]; congr 2; omega

/-- The first `k` vectors of a reduced basis are not much longer than any `k` independent vectors of
the lattice. -/
theorem LLLReduced.minima {δ : ℝ} (hδ : 1 / 4 < δ) (hδ1 : δ ≤ 1)
    {M : Matrix (Fin n) (Fin d) ℤ} (h : LLLReduced δ M) {k : ℕ} (x : Fin k → Fin n → ℤ)
    (hx : ∀ t, x t ∈ lattice M) (hxi : LinearIndependent ℤ x) (N : ℝ)
    (hN : ∀ t, ∑ i, (x t i : ℝ) ^ 2 ≤ N) (j : Fin d) (hj : (j : ℕ) < k) :
    ∑ i, (M i j : ℝ) ^ 2 ≤ (1 / (δ - 1 / 4)) ^ (d - 1) * N := by
  classical
  have hz : ∀ t, ∃ z : Fin d → ℤ, ∑ l, z l • (fun i => M i l) = x t := by
    intro t
    have := hx t
    unfold lattice at this
    rw [Submodule.mem_span_range_iff_exists_fun] at this
    exact this
  choose z hz using hz
  -- one of the vectors has a nonzero coefficient at or after k - 1
  obtain ⟨t, l, hl, hne⟩ : ∃ (t : Fin k) (l : Fin d), k - 1 ≤ (l : ℕ) ∧ z t l ≠ 0 := by
    by_contra hcon
    push Not at hcon
    let Z : Matrix (Fin (k - 1)) (Fin k) ℤ := Matrix.of fun a t => if ha : a.1 < d then z t ⟨a, ha⟩ else 0
    have hno := not_fcr_of_lt (by omega) Z
    apply hno
    unfold FullColumnRank
    rw [Fintype.linearIndependent_iff] at hxi ⊢
    intro g hg t
    refine hxi g ?_ t
    have hcol : ∀ l : Fin d, ∑ t, g t * z t l = 0 := by
      intro l
      by_cases hlk : l.1 < k - 1
      · have := congrFun hg ⟨l, hlk⟩
        simpa [Z, Finset.sum_apply] using this
      · exact sum_eq_zero fun t _ => by rw [hcon t l (by omega), mul_zero]
    funext i
    have : ∀ t, x t i = ∑ l, z t l * M i l := by
      intro t; rw [← hz t]; simp [Finset.sum_apply]
    simp only [Finset.sum_apply, Pi.smul_apply, Pi.zero_apply, smul_eq_mul, this]
    calc ∑ t, g t * ∑ l, z t l * M i l = ∑ t, ∑ l, g t * z t l * M i l :=
          sum_congr rfl fun t _ => by rw [mul_sum]; exact sum_congr rfl fun l _ => by ring
      _ = ∑ l, ∑ t, g t * z t l * M i l := sum_comm
      _ = ∑ l, (∑ t, g t * z t l) * M i l := sum_congr rfl fun l _ => by rw [sum_mul]
      _ = 0 := sum_eq_zero fun l _ => by rw [hcol l, zero_mul]
  have hnem : (univ.filter fun i : Fin d => z t i ≠ 0).Nonempty := ⟨l, by simpa using hne⟩
  set m := (univ.filter fun i : Fin d => z t i ≠ 0).max' hnem with hm
  have hmem : m ∈ univ.filter fun i : Fin d => z t i ≠ 0 := max'_mem _ _
  have hlm : l ≤ m := le_max' _ _ (by simpa using hne)
  have hgt : ∀ i, m < i → z t i = 0 := by
    intro i hi
    by_contra hn
    have := le_max' (univ.filter fun i : Fin d => z t i ≠ 0) i (by simpa using hn)
    exact absurd this (not_le.mpr hi)
  have h1 := gs_le_of_last M (z t) m (by simpa using hmem) hgt
  have hvn : ‖∑ j, (z t j : ℝ) • colVec M j‖ ^ 2 = ∑ i, (x t i : ℝ) ^ 2 := by
    rw [EuclideanSpace.norm_sq_eq]
    refine sum_congr rfl fun r _ => ?_
    rw [← hz t]
    simp [colVec, Finset.sum_apply]
  have hjm : j ≤ m := by
    have h1 : (l : ℕ) ≤ m := hlm
    rw [Fin.le_def]; omega
  have h2 := col_le_gs hδ hδ1 h j m hjm
  rw [← normsq_colVec]
  have hpos : 0 < δ - 1 / 4 := by linarith
  have hα : 1 ≤ 1 / (δ - 1 / 4) := by rw [le_div_iff₀ hpos]; linarith
  calc _ ≤ _ := h2
    _ ≤ (1 / (δ - 1 / 4)) ^ (d - 1) * ‖gs M m‖ ^ 2 :=
      mul_le_mul_of_nonneg_right (pow_le_pow_right₀ hα (by omega)) (sq_nonneg _)
    _ ≤ _ := mul_le_mul_of_nonneg_left (by
        have := norm_nonneg (gs M m)
        have := hN t
        rw [← hvn] at this
        nlinarith) (by positivity)

end HPLLL
