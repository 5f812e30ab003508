import Verif.Proof.ExactHist
import Verif.Proof.Seysen
/-! Gram–Schmidt under integer unitriangular changes; reduction of reduced bases. -/

namespace HPLLL
open Spec Finset InnerProductSpace

variable {E : Type*} [NormedAddCommGroup E] [InnerProductSpace ℝ E]

/-- Component of `v` orthogonal to the first `k` Gram–Schmidt vectors. -/
noncomputable def gsRem (f : ℕ → E) (k : ℕ) (v : E) : E :=
  v - ∑ i ∈ range k, (inner ℝ (gramSchmidt ℝ f i) v / ‖gramSchmidt ℝ f i‖ ^ 2) • gramSchmidt ℝ f i

theorem gsRem_add (f : ℕ → E) (k : ℕ) (v w : E) : gsRem f k (v + w) = gsRem f k v + gsRem f k w := by
  unfold gsRem
  simp only [inner_add_right, add_div, add_smul, sum_add_distrib]
  abel

theorem gsRem_smul (f : ℕ → E) (k : ℕ) (c : ℝ) (v : E) : gsRem f k (c • v) = c • gsRem f k v := by
  unfold gsRem
  simp only [inner_smul_right, smul_sub, smul_sum, smul_smul, mul_div_assoc]

theorem gsRem_self (f : ℕ → E) (k : ℕ) : gsRem f k (f k) = gramSchmidt ℝ f k := by
  unfold gsRem
  have := gramSchmidt_def'' ℝ f k
  rw [sub_eq_iff_eq_add]
  conv_lhs => rw [this]
  congr 1
  refine sum_congr ?_ fun _ _ => ?_
  · ext; simp
  · norm_cast

theorem gsRem_gs (f : ℕ → E) (k i : ℕ) (hi : i < k) : gsRem f k (gramSchmidt ℝ f i) = 0 := by
  unfold gsRem
  rw [sum_eq_single i]
  · rw [real_inner_self_eq_norm_sq]
    by_cases h : ‖gramSchmidt ℝ f i‖ ^ 2 = 0
    · have : gramSchmidt ℝ f i = 0 := by simpa using h
      simp [this]
    · rw [div_self h, one_smul, sub_self]
  · intro j _ hj
    rw [gramSchmidt_orthogonal ℝ f hj]; simp
  · intro h; simp only [mem_range] at h; omega

theorem gsRem_sum (f : ℕ → E) (k : ℕ) {ι : Type*} (S : Finset ι) (g : ι → E) :
    gsRem f k (∑ i ∈ S, g i) = ∑ i ∈ S, gsRem f k (g i) := by
  classical
  induction S using Finset.induction_on with
  | empty => simp [gsRem]
  | insert a S ha ih => rw [sum_insert ha, sum_insert ha, gsRem_add, ih]

theorem gsRem_lt (f : ℕ → E) (k i : ℕ) (hi : i < k) : gsRem f k (f i) = 0 := by
  have h := gsRem_self f i
  unfold gsRem at h
  rw [sub_eq_iff_eq_add] at h
  rw [h, gsRem_add, gsRem_gs f k i hi, gsRem_sum]
  rw [sum_eq_zero, add_zero]
  intro j hj
  rw [gsRem_smul, gsRem_gs f k j (by have := mem_range.mp hj; omega), smul_zero]

/-- Adding to each vector a combination of the previous ones keeps the Gram–Schmidt vectors. -/
theorem gs_unitri (f g : ℕ → E) (m : ℕ)
    (h : ∀ j < m, ∃ c : ℕ → ℝ, g j = f j + ∑ i ∈ range j, c i • f i) :
    ∀ j < m, gramSchmidt ℝ g j = gramSchmidt ℝ f j := by
  intro j
  induction j using Nat.strong_induction_on with
  | _ j ih =>
    intro hj
    obtain ⟨c, hc⟩ := h j hj
    have e : gsRem g j (g j) = gsRem f j (g j) := by
      unfold gsRem
      congr 1
      refine sum_congr rfl fun i hi => ?_
      have := mem_range.mp hi
      rw [ih i this (by omega)]
    rw [← gsRem_self g j, e, hc, gsRem_add, gsRem_self, gsRem_sum, sum_eq_zero, add_zero]
    intro i hi
    rw [gsRem_smul, gsRem_lt f j i (mem_range.mp hi), smul_zero]

theorem gsn_inner_lt (f : ℕ → E) {i j : ℕ} (h : i < j) : inner ℝ (gramSchmidt ℝ f j) (f i) = 0 := by
  exact gramSchmidt_inv_triangular ℝ f h

theorem gsn_inner_self (f : ℕ → E) (j : ℕ) :
    inner ℝ (gramSchmidt ℝ f j) (f j) = ‖gramSchmidt ℝ f j‖ ^ 2 := by
  have h := gsRem_self f j
  unfold gsRem at h
  rw [sub_eq_iff_eq_add] at h
  conv_lhs => rw [h]
  rw [inner_add_right, real_inner_self_eq_norm_sq, inner_sum, sum_eq_zero, add_zero]
  intro i hi
  rw [inner_smul_right, gramSchmidt_orthogonal ℝ f (by have := mem_range.mp hi; omega), mul_zero]

/-- The coefficient on the last vector changes by an integer combination coefficient. -/
theorem inner_gs_unitri (f : ℕ → E) (k : ℕ) (c : ℕ → ℝ) :
    inner ℝ (gramSchmidt ℝ f k) (f (k + 1) + ∑ i ∈ range (k + 1), c i • f i) =
      inner ℝ (gramSchmidt ℝ f k) (f (k + 1)) + c k * ‖gramSchmidt ℝ f k‖ ^ 2 := by
  rw [inner_add_right, inner_sum, sum_range_succ, inner_smul_right, gsn_inner_self, sum_eq_zero, zero_add]
  intro i hi
  rw [inner_smul_right, gsn_inner_lt f (mem_range.mp hi), mul_zero]

/-- Column `j` as a vector. -/
noncomputable def colN (n : ℕ) (B : Mat Int) (j : ℕ) : EuclideanSpace ℝ (Fin n) :=
  WithLp.toLp 2 fun i => (B j i : ℝ)

theorem colVec_colN {n d : ℕ} (B : Mat Int) (j : Fin d) : colVec (toMatrix n d B) j = colN n B j := rfl

theorem gs_nat {n d : ℕ} (B : Mat Int) (i : Fin d) :
    gs (toMatrix n d B) i = gramSchmidt ℝ (colN n B) i := by
  induction i using WellFoundedLT.induction with
  | ind i ih =>
    have h1 := gramSchmidt_def'' ℝ (colVec (toMatrix n d B)) i
    have h2 := gramSchmidt_def'' ℝ (colN n B) (i : ℕ)
    unfold gs
    refine add_right_cancel (h1.symm.trans (h2.trans (congrArg _ (Eq.symm ?_))))
    refine sum_bij (fun j _ => (j : ℕ)) ?_ ?_ ?_ ?_
    · intro j hj; simpa using hj
    · intro a _ b _ h; exact Fin.ext h
    · intro b hb
      have hb : b < (i : ℕ) := by simpa using hb
      exact ⟨⟨b, by omega⟩, by simpa [Fin.lt_def] using hb, rfl⟩
    · intro j hj
      have := ih j (by simpa using hj)
      unfold gs at this
      rw [this, colVec_colN]

theorem mu_nat {n d : ℕ} (B : Mat Int) (i j : Fin d) :
    mu (toMatrix n d B) i j = inner ℝ (gramSchmidt ℝ (colN n B) j) (colN n B i) /
      ‖gramSchmidt ℝ (colN n B) j‖ ^ 2 := by
  unfold mu; rw [gs_nat, colVec_colN]

theorem UniTri.colN {n d : ℕ} {A B : Mat Int} (h : UniTri n d A B) {j : ℕ} (hj : j < d) :
    ∃ c : ℕ → ℤ, HPLLL.colN n B j = HPLLL.colN n A j + ∑ i ∈ range j, (c i : ℝ) • HPLLL.colN n A i := by
  obtain ⟨c, hc⟩ := h j hj
  refine ⟨c, ?_⟩
  ext r
  have := hc r r.2
  simp only [HPLLL.colN, PiLp.add_apply, WithLp.ofLp_sum, WithLp.ofLp_smul, Finset.sum_apply,
    Pi.smul_apply, smul_eq_mul]
  rw [this]; push_cast; rfl

theorem UniTri.gs {n d : ℕ} {A B : Mat Int} (h : UniTri n d A B) {j : ℕ} (hj : j < d) :
    gramSchmidt ℝ (HPLLL.colN n B) j = gramSchmidt ℝ (HPLLL.colN n A) j := by
  refine gs_unitri _ _ d (fun j hj => ?_) j hj
  obtain ⟨c, hc⟩ := h.colN hj
  exact ⟨fun i => c i, hc⟩

/-- Lovász conditions that hold after any size reduction. -/
def LovMin (δ : ℝ) (n d : ℕ) (A : Mat Int) : Prop :=
  ∀ k, k + 1 < d → ∀ c : ℤ,
    δ * ‖gramSchmidt ℝ (HPLLL.colN n A) k‖ ^ 2 ≤ ‖gramSchmidt ℝ (HPLLL.colN n A) (k + 1)‖ ^ 2 +
      (inner ℝ (gramSchmidt ℝ (HPLLL.colN n A) k) (HPLLL.colN n A (k + 1)) /
        ‖gramSchmidt ℝ (HPLLL.colN n A) k‖ ^ 2 + c) ^ 2 * ‖gramSchmidt ℝ (HPLLL.colN n A) k‖ ^ 2

theorem sq_le_sq_add_int {x : ℝ} (h : |x| ≤ 1 / 2) (c : ℤ) : x ^ 2 ≤ (x + c) ^ 2 := by
  rcases eq_or_ne c 0 with rfl | hc
  · simp
  · rw [abs_le] at h
    have : 0 ≤ (c : ℝ) * (2 * x + c) := by
      rcases lt_or_gt_of_ne hc with h0 | h0
      · have : (c : ℝ) ≤ -1 := by exact_mod_cast Int.le_sub_one_iff.mpr h0
        nlinarith
      · have : (1 : ℝ) ≤ c := by exact_mod_cast h0
        nlinarith
    nlinarith

theorem LLLReduced.lovMin {n d : ℕ} {δ : ℝ} {A : Mat Int} (h : LLLReduced δ (toMatrix n d A)) :
    LovMin δ n d A := by
  intro k hk c
  have h1 := h.1 ⟨k + 1, hk⟩ ⟨k, by omega⟩ (by rw [Fin.lt_def]; simp)
  have h2 := h.2 ⟨k + 1, hk⟩ ⟨k, by omega⟩ rfl
  rw [gs_nat, gs_nat, mu_nat] at h2
  rw [mu_nat] at h1
  simp only [] at h1 h2
  have h3 := sq_le_sq_add_int h1 c
  have h4 := mul_le_mul_of_nonneg_right h3 (sq_nonneg ‖gramSchmidt ℝ (HPLLL.colN n A) k‖)
  linarith

/-- The condition does not depend on the size reduction. -/
theorem UniTri.lovMin {n d : ℕ} {δ : ℝ} {A B : Mat Int} (h : UniTri n d A B)
    (hG : ∀ k < d, gramSchmidt ℝ (HPLLL.colN n A) k ≠ 0) : LovMin δ n d A ↔ LovMin δ n d B := by
  have key : ∀ k, k + 1 < d → ∃ c0 : ℤ, inner ℝ (gramSchmidt ℝ (HPLLL.colN n B) k) (HPLLL.colN n B (k + 1)) /
        ‖gramSchmidt ℝ (HPLLL.colN n B) k‖ ^ 2 =
      inner ℝ (gramSchmidt ℝ (HPLLL.colN n A) k) (HPLLL.colN n A (k + 1)) /
        ‖gramSchmidt ℝ (HPLLL.colN n A) k‖ ^ 2 + c0 := by
    intro k hk
    obtain ⟨c, hc⟩ := h.colN hk
    refine ⟨c k, ?_⟩
    rw [h.gs (by omega), hc, inner_gs_unitri _ k (fun i => (c i : ℝ)), add_div, mul_div_cancel_right₀]
    have := hG k (by omega)
    positivity
  constructor
  · intro hL k hk c
    obtain ⟨c0, h0⟩ := key k hk
    have := hL k hk (c0 + c)
    rw [h0, h.gs hk, h.gs (by omega : k < d)]
    push_cast at this
    rw [add_assoc]; exact this
  · intro hL k hk c
    obtain ⟨c0, h0⟩ := key k hk
    have := hL k hk (c - c0)
    rw [h0, h.gs hk, h.gs (by omega : k < d)] at this
    push_cast at this
    rw [show ∀ x y z : ℝ, x + y + (z - y) = x + z by intros; ring] at this
    exact this

theorem UniTri.mono {n d d' : ℕ} {A B : Mat Int} (h : UniTri n d A B) (hd : d' ≤ d) : UniTri n d' A B :=
  fun j hj => h j (by omega)

theorem LovMin.mono {n d d' : ℕ} {δ : ℝ} {A : Mat Int} (h : LovMin δ n d A) (hd : d' ≤ d) : LovMin δ n d' A :=
  fun k hk => h k (by omega)

end HPLLL
