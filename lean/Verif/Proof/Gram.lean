import Verif.Proof.Refl
import Verif.Proof.IntOps
import Mathlib.LinearAlgebra.Matrix.ToLinearEquiv
import Mathlib.Analysis.Matrix.PosDef
import Mathlib.Algebra.Order.Star.Real
import Mathlib.LinearAlgebra.Matrix.Block
/-! Gram determinants of the first `k` columns. -/

namespace HPLLL
open Spec Finset Matrix

/-- Column `j` as a real vector (zero outside the `n` rows). -/
def bv (n : ℕ) (B : Mat Int) (j : ℕ) : ℕ → ℝ := fun r => if r < n then (B j r : ℝ) else 0

/-- Determinant of the Gram matrix of the first `k` columns. -/
def gd (n : ℕ) (B : Mat Int) (k : ℕ) : ℤ := ((toMatrix n k B)ᵀ * toMatrix n k B).det

/-- Real Gram determinant of a family of vectors. -/
noncomputable def gdet (n : ℕ) (w : ℕ → ℕ → ℝ) (k : ℕ) : ℝ :=
  (Matrix.of fun i j : Fin k => Ex.dot n (w i) (w j)).det

theorem gdet_congr {n k : ℕ} {w w' : ℕ → ℕ → ℝ}
    (h : ∀ i < k, ∀ j < k, Ex.dot n (w i) (w j) = Ex.dot n (w' i) (w' j)) :
    gdet n w k = gdet n w' k := by
  unfold gdet
  congr 1
  ext i j
  exact h i i.2 j j.2

theorem gd_eq_gdet (n : ℕ) (B : Mat Int) (k : ℕ) : (gd n B k : ℝ) = gdet n (bv n B) k := by
  unfold gd gdet
  have : (((toMatrix n k B)ᵀ * toMatrix n k B).det : ℝ)
      = (((toMatrix n k B)ᵀ * toMatrix n k B).map (Int.castRingHom ℝ)).det :=
    (RingHom.map_det (Int.castRingHom ℝ) _)
  rw [this]
  congr 1
  ext i j
  simp only [Matrix.map_apply, Matrix.mul_apply, Matrix.transpose_apply, toMatrix, Matrix.of_apply,
    eq_intCast, Int.cast_sum, Int.cast_mul, Ex.dot, bv]
  rw [← Fin.sum_univ_eq_sum_range (fun r => (if r < n then (B i r : ℝ) else 0) *
    (if r < n then (B j r : ℝ) else 0)) n]
  exact Finset.sum_congr rfl fun r _ => by simp

/-- Gram determinant of an upper triangular family. -/
theorem gdet_tri (n k : ℕ) (hk : k ≤ n) (w : ℕ → ℕ → ℝ) (h : ∀ j < k, ∀ r, j < r → r < n → w j r = 0) :
    gdet n w k = ∏ j ∈ range k, w j j * w j j := by
  let T : Matrix (Fin k) (Fin k) ℝ := Matrix.of fun i j => w j i
  have hT : (Matrix.of fun i j : Fin k => Ex.dot n (w i) (w j)) = Tᵀ * T := by
    ext i j
    simp only [Matrix.mul_apply, Matrix.transpose_apply, Matrix.of_apply, T]
    rw [Fin.sum_univ_eq_sum_range (fun r => w i r * w j r) k]
    unfold Ex.dot
    symm
    apply Finset.sum_subset (by intro r; simp only [mem_range]; omega)
    intro r hr hr'
    simp only [mem_range] at hr hr'
    rw [h i i.2 r (by omega) hr]; ring
  unfold gdet
  rw [hT, Matrix.det_mul, Matrix.det_transpose]
  have : T.det = ∏ j : Fin k, w j j := by
    rw [Matrix.det_of_upperTriangular]
    · rfl
    · intro i j hij
      simp only [T, Matrix.of_apply]
      exact h j j.2 i hij (by omega)
  rw [this, ← Finset.prod_mul_distrib, ← Fin.prod_univ_eq_prod_range (fun j => w j j * w j j)]

/-- The same with an arbitrary last vector. -/
theorem gdet_tri_succ (n k : ℕ) (hk : k < n) (w : ℕ → ℕ → ℝ)
    (h : ∀ j < k, ∀ r, j < r → r < n → w j r = 0) :
    gdet n w (k + 1) = (∏ j ∈ range k, w j j * w j j) * Ex.tail n k (w k) := by
  let u : ℕ → ℝ := fun r => if r < k then w k r else if r = k then Real.sqrt (Ex.tail n k (w k)) else 0
  let w' : ℕ → ℕ → ℝ := fun j => if j = k then u else w j
  have e1 : gdet n w (k + 1) = gdet n w' (k + 1) := by
    have key : ∀ j < k, Ex.dot n (w j) (w k) = Ex.dot n (w j) u := by
      intro j hj
      refine Ex.dot_congr fun r hr => ?_
      by_cases hjr : j < r
      · rw [h j hj r hjr hr]; ring
      · simp only [u]; rw [if_pos (by omega)]
    have kk : Ex.dot n (w k) (w k) = Ex.dot n u u := by
      rw [Ex.dot_split n k hk.le, Ex.dot_split n k hk.le u u]
      have a1 : Ex.dot k (w k) (w k) = Ex.dot k u u :=
        Ex.dot_congr fun r hr => by simp only [u, if_pos hr]
      have a2 : ∑ i ∈ range (n - k), u (k + i) * u (k + i) = Ex.tail n k (w k) := by
        rw [Finset.sum_eq_single 0]
        · simp only [u, add_zero, lt_irrefl, if_false, if_true]
          exact Real.mul_self_sqrt (Ex.tail_nonneg _ _ _)
        · intro b _ hb
          simp only [u]; rw [if_neg (by omega), if_neg (by omega)]; ring
        · intro h; simp at h; omega
      rw [a1, a2]; rfl
    apply gdet_congr
    intro i hi j hj
    by_cases hik : i = k <;> by_cases hjk : j = k
    · subst hik; subst hjk; simp only [w', if_true]; exact kk
    · subst hik; simp only [w', if_true, hjk, if_false]
      rw [Ex.dot_comm, key j (by omega), Ex.dot_comm]
    · subst hjk; simp only [w', if_true, hik, if_false]
      exact key i (by omega)
    · simp only [w', hik, hjk, if_false]
  rw [e1, gdet_tri n (k + 1) (by omega), prod_range_succ]
  · congr 1
    · refine prod_congr rfl fun j hj => ?_
      have : j ≠ k := by have := mem_range.mp hj; omega
      simp only [w', this, if_false]
    · simp only [w', u, if_true, lt_irrefl, if_false]
      exact Real.mul_self_sqrt (Ex.tail_nonneg _ _ _)
  · intro j hj r hjr hr
    by_cases hjk : j = k
    · subst hjk; simp only [w', u, if_true]; rw [if_neg (by omega), if_neg (by omega)]
    · simp only [w', hjk, if_false]; exact h j (by omega) r hjr hr

/-! ### Behaviour under the integer operations -/

theorem toMatrix_congr {n k : ℕ} {B B' : Mat Int} (h : ∀ j < k, ∀ r < n, B j r = B' j r) :
    toMatrix n k B = toMatrix n k B' := by
  ext r j; exact h j j.2 r r.2

theorem gd_congr {n k : ℕ} {B B' : Mat Int} (h : ∀ j < k, ∀ r < n, B j r = B' j r) :
    gd n B k = gd n B' k := by
  unfold gd; rw [toMatrix_congr h]

theorem gd_axpy (n : ℕ) (M : Mat Int) (κ i : ℕ) (hi : i < κ) (c : Int) (l : ℕ)
    (hl : ∀ r, l ≤ r → r < n → M i r = 0) (k : ℕ) : gd n (axpy M κ i c l) k = gd n M k := by
  by_cases hk : κ < k
  · unfold gd
    have := toMatrix_axpy n k M ⟨κ, hk⟩ ⟨i, by omega⟩ (by simp [Fin.ext_iff]; omega) c l hl
    simp only at this
    rw [this]
    apply gram_det_mul_unit
    rw [det_transvection_of_ne _ _ (by simp [Fin.ext_iff]; omega)]
    exact isUnit_one
  · apply gd_congr
    intro j hj r _
    unfold axpy; rw [setCol_ne _ _ (by omega)]

theorem gd_colswap (n : ℕ) (M : Mat Int) (κ k : ℕ) (h0 : 0 < κ) (hk : k ≠ κ) :
    gd n (colswap M (κ - 1) κ) k = gd n M k := by
  by_cases h : κ < k
  · unfold gd
    have := toMatrix_colswap n k M ⟨κ - 1, by omega⟩ ⟨κ, h⟩
    simp only at this
    rw [this]
    apply gram_det_mul_unit
    rw [det_swapMat _ _ (by simp [Fin.ext_iff]; omega)]
    decide
  · apply gd_congr
    intro j hj r _
    unfold colswap
    rw [if_neg (by omega), if_neg (by omega)]

theorem fullColumnRank_sub {n d k : ℕ} {B : Mat Int} (hkd : k ≤ d)
    (h : FullColumnRank (toMatrix n d B)) : FullColumnRank (toMatrix n k B) := by
  have := h.comp (fun a : Fin k => (⟨a, by omega⟩ : Fin d))
      (fun a b hab => by simpa [Fin.ext_iff] using hab)
  exact this

theorem gd_ne_zero {n k : ℕ} {B : Mat Int} (h : FullColumnRank (toMatrix n k B)) :
    gd n B k ≠ 0 := by
  intro h0
  unfold gd at h0
  obtain ⟨v, hv, hv0⟩ := Matrix.exists_mulVec_eq_zero_iff.mpr h0
  have h1 : (toMatrix n k B).mulVec v = 0 := by
    have h2 : v ⬝ᵥ (((toMatrix n k B)ᵀ * toMatrix n k B).mulVec v) = 0 := by rw [hv0]; simp
    rw [← Matrix.mulVec_mulVec, Matrix.dotProduct_mulVec, Matrix.vecMul_transpose] at h2
    exact dotProduct_self_eq_zero.mp h2
  apply hv
  have h3 := Fintype.linearIndependent_iff.mp h v
  funext i
  apply h3
  ext r
  have := congrFun h1 r
  simp only [Matrix.mulVec, dotProduct, Pi.zero_apply] at this
  simp only [Finset.sum_apply, Pi.smul_apply, smul_eq_mul, Pi.zero_apply]
  rw [← this]
  exact Finset.sum_congr rfl fun x _ => by
    show v x * B x r = B x r * v x
    ring

theorem gd_nonneg (n : ℕ) (B : Mat Int) (k : ℕ) : 0 ≤ gd n B k := by
  have h : 0 ≤ (gd n B k : ℝ) := by
    unfold gd
    have : (((toMatrix n k B)ᵀ * toMatrix n k B).det : ℝ)
        = ((((toMatrix n k B).map (Int.castRingHom ℝ))ᴴ) *
            ((toMatrix n k B).map (Int.castRingHom ℝ))).det := by
      rw [show (((toMatrix n k B)ᵀ * toMatrix n k B).det : ℝ)
        = (((toMatrix n k B)ᵀ * toMatrix n k B).map (Int.castRingHom ℝ)).det from
          (RingHom.map_det (Int.castRingHom ℝ) _), Matrix.map_mul]
      congr 2
    rw [this]
    exact (Matrix.posSemidef_conjTranspose_mul_self _).det_nonneg
  exact_mod_cast h

theorem gd_pos {n d k : ℕ} {B : Mat Int} (hk : k ≤ d) (h : FullColumnRank (toMatrix n d B)) :
    0 < gd n B k :=
  lt_of_le_of_ne (gd_nonneg n B k) (Ne.symm (gd_ne_zero (fullColumnRank_sub hk h)))

end HPLLL
