import Verif.Spec.Seysen
import Verif.Proof.Short
import Verif.Proof.ExactGen
/-! Seysen reduction in terms of Gram–Schmidt vectors. -/

namespace HPLLL
open Spec Finset

variable {n d : ℕ}

theorem QRv.inner_gs {str : ℕ → ℤ} {B : Mat Int} {V R : Mat ℝ} (hdn : d ≤ n)
    (h : QRv n str B V R d) (k i : Fin d) :
    inner ℝ (gs (toMatrix n d B) k) (colVec (toMatrix n d B) i) =
      R k k * (if (k : ℕ) ≤ i then R i k else 0) := by
  rw [inner_ofE, ← Ex.app_dot n V d h.vnorm]
  unfold Ex.dot
  rw [sum_eq_single (k : ℕ)]
  · rw [h.app_gs hdn, if_pos rfl, ofE_colVec, h.app_eq i i.2]
  · intro b _ hb; rw [h.app_gs hdn, if_neg hb]; ring
  · intro hm; simp only [mem_range] at hm; have := k.2; omega

theorem mem_seysenBlk (i : Fin d) (t : ℕ) (j : Fin d) :
    j ∈ seysenBlk d i t ↔ seyLo i t ≤ (j : ℕ) ∧ (j : ℕ) < seyHi i t := by
  simp [seysenBlk, seyLo, seyHi]

theorem QRv.seysenCol {str : ℕ → ℤ} {B : Mat Int} {V R : Mat ℝ} {c : ℝ} (hdn : d ≤ n)
    (h : QRv n str B V R d) (i : Fin d) (hr : SeyRed c i R) : SeysenCol c (toMatrix n d B) i := by
  intro t
  obtain ⟨x, x1, x2⟩ := hr t
  have hhi := seyHi_le i t
  refine ⟨fun j => x j, fun j hj => ?_, fun k hk => ?_⟩
  · obtain ⟨a, b⟩ := (mem_seysenBlk i t j).mp hj
    exact x1 j a b
  · obtain ⟨a, b⟩ := (mem_seysenBlk i t k).mp hk
    rw [inner_sub_right, inner_sum, h.inner_gs hdn, if_pos (by omega), x2 k a b]
    have e : ∀ j ∈ seysenBlk d i t, inner ℝ (gs (toMatrix n d B) k)
        (x j • colVec (toMatrix n d B) j) =
        R k k * (if (k : ℕ) ≤ j then R j k * x j else 0) := by
      intro j _
      rw [inner_smul_right, h.inner_gs hdn]
      split <;> ring
    rw [sum_congr rfl e, ← mul_sum, ← mul_sub, sub_eq_zero.mpr, mul_zero]
    have e2 : ∑ j ∈ seysenBlk d i t, (if (k : ℕ) ≤ j then R j k * x j else 0) =
        ∑ j ∈ Ico (k : ℕ) (seyHi i t), R j k * x j := by
      rw [← sum_filter]
      refine sum_bij (fun (j : Fin d) _ => (j : ℕ)) ?_ ?_ ?_ ?_
      · intro j hj
        obtain ⟨h1, h2⟩ := mem_filter.mp hj
        obtain ⟨h3, h4⟩ := (mem_seysenBlk i t j).mp h1
        exact mem_Ico.mpr ⟨h2, h4⟩
      · intro j _ j' _ e; exact Fin.ext e
      · intro j hj
        have := mem_Ico.mp hj
        have hi := i.2
        exact ⟨⟨j, by omega⟩, mem_filter.mpr ⟨(mem_seysenBlk i t _).mpr ⟨by simp only []; omega,
          by simp only []; omega⟩, by simp only []; omega⟩, rfl⟩
      · intro j _; rfl
    exact e2.symm

/-- Consecutive coefficients of a Seysen-reduced column. -/
theorem SeysenCol.mu_prev {c : ℝ} {M : Matrix (Fin n) (Fin d) ℤ} {i j : Fin d} (h : SeysenCol c M i)
    (hij : (j : ℕ) + 1 = i) : |mu M i j| ≤ c := by
  -- the first nonempty block ends at `i`
  have hex : ∃ t, (i : ℕ) % 2 ^ (t + 1) ≠ 0 := by
    refine ⟨i, ?_⟩
    rw [Nat.mod_eq_of_lt ((Nat.lt_two_pow_self (n := (i : ℕ))).trans_le
      (Nat.pow_le_pow_right (by decide) (by omega)))]
    omega
  obtain ⟨t, ht1, ht2⟩ : ∃ t, (i : ℕ) % 2 ^ (t + 1) ≠ 0 ∧ (i : ℕ) % 2 ^ t = 0 := by
    refine ⟨Nat.find hex, Nat.find_spec hex, ?_⟩
    rcases hf : Nat.find hex with _ | k
    · simp [Nat.mod_one]
    · have := Nat.find_min hex (m := k) (by omega)
      simpa using this
  have hlo : seyLo i t < i := by unfold seyLo; omega
  have hhi : seyHi i t = i := by unfold seyHi; omega
  obtain ⟨x, x1, x2⟩ := h t
  have hj : j ∈ seysenBlk d i t := (mem_seysenBlk i t j).mpr ⟨by omega, by omega⟩
  have e := x2 j hj
  rw [inner_sub_right, inner_sum, sum_eq_single j, inner_smul_right, inner_gs_self, sub_eq_zero] at e
  · unfold mu
    rw [e]
    by_cases h0 : ‖gs M j‖ ^ 2 = 0
    · rw [h0, div_zero, abs_zero]; exact (abs_nonneg _).trans (x1 j hj)
    · rw [mul_div_assoc, div_self h0, mul_one]; exact x1 j hj
  · intro k hk hkj
    obtain ⟨a, b⟩ := (mem_seysenBlk i t k).mp hk
    rw [inner_smul_right, inner_gs_lt M (by
      rw [Fin.lt_def]
      have : (k : ℕ) ≠ j := fun e => hkj (Fin.ext e)
      omega), mul_zero]
  · intro hn; exact absurd hj hn

/-- Lovász conditions and bounded consecutive coefficients: the first vector is short. -/
theorem lovasz_first_short {c δ : ℝ} (hc : c ^ 2 < δ) (hδ1 : δ ≤ 1)
    {M : Matrix (Fin n) (Fin d) ℤ} (hl : LovaszCond δ M)
    (hm : ∀ i j : Fin d, (j : ℕ) + 1 = i → |mu M i j| ≤ c)
    (i0 : Fin d) (h0 : (i0 : ℕ) = 0) (v : Fin n → ℤ) (hv : v ∈ lattice M) (hv0 : v ≠ 0) :
    ∑ i, (M i i0 : ℝ) ^ 2 ≤ (1 / (δ - c ^ 2)) ^ (d - 1) * ∑ i, (v i : ℝ) ^ 2 := by
  have hg : 0 < δ - c ^ 2 := by linarith
  have hge : 1 ≤ 1 / (δ - c ^ 2) := by
    rw [le_div_iff₀ hg]; nlinarith [sq_nonneg c]
  have key : ∀ (m : ℕ) (i : Fin d), (i : ℕ) = m →
      ‖colVec M i0‖ ^ 2 ≤ (1 / (δ - c ^ 2)) ^ m * ‖gs M i‖ ^ 2 := by
    intro m
    induction m with
    | zero =>
      intro i hi
      have : i = i0 := by ext; omega
      rw [this, gs_zero M i0 h0]; simp
    | succ m ih =>
      intro i hi
      have h1 := ih ⟨m, by omega⟩ rfl
      have h2 := hl i ⟨m, by omega⟩ (by simp only []; omega)
      have h3 := hm i ⟨m, by omega⟩ (by simp only []; omega)
      have h4 : mu M i ⟨m, by omega⟩ ^ 2 ≤ c ^ 2 := by
        rw [← sq_abs]; exact pow_le_pow_left₀ (abs_nonneg _) h3 2
      set g := ‖gs M (⟨m, by omega⟩ : Fin d)‖ ^ 2 with hgdef
      have hg0 : 0 ≤ g := sq_nonneg _
      have h5 : (δ - c ^ 2) * g ≤ ‖gs M i‖ ^ 2 := by nlinarith
      have h6 : g ≤ 1 / (δ - c ^ 2) * ‖gs M i‖ ^ 2 := by
        rw [div_mul_eq_mul_div, one_mul, le_div_iff₀ hg]; linarith
      calc _ ≤ (1 / (δ - c ^ 2)) ^ m * g := h1
        _ ≤ (1 / (δ - c ^ 2)) ^ m * (1 / (δ - c ^ 2) * ‖gs M i‖ ^ 2) :=
          mul_le_mul_of_nonneg_left h6 (pow_nonneg (by linarith) m)
        _ = _ := by rw [pow_succ]; ring
  unfold lattice at hv
  rw [Submodule.mem_span_range_iff_exists_fun] at hv
  obtain ⟨z, hz⟩ := hv
  have hz0 : z ≠ 0 := by
    rintro rfl; apply hv0; rw [← hz]; simp
  obtain ⟨i, hi⟩ := exists_gs_le M z hz0
  have hvn : ‖∑ j, (z j : ℝ) • colVec M j‖ ^ 2 = ∑ i, (v i : ℝ) ^ 2 := by
    rw [EuclideanSpace.norm_sq_eq]
    refine sum_congr rfl fun r _ => ?_
    rw [← hz]
    simp [colVec]
  have h7 := key i i rfl
  rw [normsq_colVec] at h7
  refine h7.trans ?_
  have h8 : ‖gs M i‖ ^ 2 ≤ ∑ i, (v i : ℝ) ^ 2 := by
    rw [← hvn]; exact pow_le_pow_left₀ (norm_nonneg _) hi 2
  exact mul_le_mul (pow_le_pow_right₀ hge (by have := i.2; omega)) h8 (sq_nonneg _)
    (pow_nonneg (by linarith) _)

end HPLLL
