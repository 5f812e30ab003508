import Verif.Proof.Cond
import Verif.Proof.HhAll
import Verif.Proof.GSLink
import Verif.Spec.Cond
/-! `lcond`, `ratio` and the printed `delta` in exact arithmetic. -/

namespace HPLLL
open Spec Finset Matrix

variable {o : FPOps ℝ}

theorem hhAllCol_R (ho : Exact o) (n d κ : ℕ) (B : Mat Int) (p : FPart ℝ) :
    (∀ c, c ≠ κ → (hhAllCol o n d B κ p).R c = p.R c) ∧
      ∀ i, κ < i → i < d → (hhAllCol o n d B κ p).R κ i = 0 := by
  constructor
  · intro c hc
    have h1 : ∀ (l : List ℕ) (q : FPart ℝ),
        (l.foldl (fun p k => hhAllApply o n κ k p) q).R c = q.R c := by
      intro l
      induction l with
      | nil => intro q; rfl
      | cons a l ih =>
        intro q
        rw [List.foldl_cons, ih]
        simp [hhAllApply, fmasub, setCol, hc]
    simp only [hhAllCol, householderV, setCol, hc, if_false]
    split
    all_goals
      funext r
      simp [setEntry_apply, hc, h1, fsetcolZ, setCol]
  · intro i h1 h2
    simp only [hhAllCol, setCol, if_true]
    rw [if_pos ⟨h1, h2⟩, ho.zero]

/-- Below the diagonal, `householder` leaves zeros. -/
theorem householder_lower (ho : Exact o) (s : Lat ℝ) (i j : ℕ) (hij : j < i) (hi : i < s.d) :
    (s.householder o).fp.R j i = 0 := by
  have : ∀ m, m ≤ s.d → ∀ j < m, j < i →
      ((List.range m).foldl (fun p κ => hhAllCol o s.n s.d s.B κ p) s.fp).R j i = 0 := by
    intro m
    induction m with
    | zero => intro _ j hj; omega
    | succ m ih =>
      intro hm j hj hji
      rw [List.range_succ, List.foldl_append, List.foldl_cons, List.foldl_nil]
      by_cases h : j = m
      · subst h
        exact (hhAllCol_R ho s.n s.d j s.B _).2 i hji hi
      · rw [(hhAllCol_R ho s.n s.d m s.B _).1 j h]
        exact ih (by omega) j (by omega) hji
  exact this s.d (le_refl _) j (by omega) hij

/-- What `householder` computes, in the terms of the specification. -/
theorem householder_facts (ho : Exact o) (s : Lat ℝ) (hA : FullColumnRank (toMatrix s.n s.d s.B))
    (hdn : s.d ≤ s.n) :
    let R := (s.householder o).fp.R
    (∀ i j, j < i → i < s.d → R j i = 0) ∧ (∀ i < s.d, R i i ≠ 0) ∧
      (∀ i : Fin s.d, |R i i| = ‖gs (toMatrix s.n s.d s.B) i‖) ∧
      (∀ i j : Fin s.d, j < i → mu (toMatrix s.n s.d s.B) i j = R i j / R j j) ∧
      (toReal s.d R)ᵀ * toReal s.d R =
        ((toMatrix s.n s.d s.B)ᵀ * toMatrix s.n s.d s.B).map (Int.cast : ℤ → ℝ) := by
  have hq := hhAll_spec ho s.B s.fp hA hdn s.d (le_refl _)
  simp only [] at hq
  refine ⟨fun i j => householder_lower ho s i j, hq.rdiag, fun i => ?_, fun i j hj => ?_, ?_⟩
  · have := hq.norm_gs hdn i
    rw [← Real.sqrt_sq (norm_nonneg (gs (toMatrix s.n s.d s.B) i)), this, Real.sqrt_mul_self_eq_abs]
    rfl
  · exact hq.mu_eq hdn i j hj
  · ext i j
    have h := hq.gram hdn i j i.2 j.2
    simp only [Matrix.mul_apply, Matrix.transpose_apply, toReal, Matrix.of_apply, Matrix.map_apply,
      toMatrix, Int.cast_sum, Int.cast_mul]
    rw [Fin.sum_univ_eq_sum_range (fun r => (s.householder o).fp.R i r * (s.householder o).fp.R j r),
      Fin.sum_univ_eq_sum_range (fun r => (s.B i r : ℝ) * (s.B j r : ℝ)) s.n, ← h]
    refine sum_congr rfl fun r hr => ?_
    have hr := mem_range.1 hr
    have e : ∀ c : Fin s.d, (s.householder o).fp.R c r = if r ≤ c then (s.householder o).fp.R c r else 0 := by
      intro c
      split
      · rfl
      · exact householder_lower ho s r c (by omega) hr
    rw [e i, e j]; rfl

/-- The inverse of an upper triangular matrix is upper triangular. -/
theorem toReal_inv_lower (d : ℕ) (R : Mat ℝ) (hup : ∀ i j, j < i → i < d → R j i = 0)
    (hd : ∀ i < d, R i i ≠ 0) (k j : Fin d) (h : ¬ k ≤ j) : (toReal d R)⁻¹ k j = 0 := by
  have hb : (toReal d R).BlockTriangular id := fun i j hij => hup i j hij i.2
  haveI : Invertible (toReal d R) := by
    refine Matrix.invertibleOfIsUnitDet _ ?_
    rw [toReal_det d R hup, isUnit_iff_ne_zero, prod_ne_zero_iff]
    exact fun i _ => hd i i.2
  exact Matrix.blockTriangular_inv_of_blockTriangular hb (not_le.1 h)

theorem condF_eq (d : ℕ) (R : Mat ℝ) (hup : ∀ i j, j < i → i < d → R j i = 0)
    (hd : ∀ i < d, R i i ≠ 0) :
    condF (toReal d R) = Real.sqrt (∑ i : Fin d, ∑ j : Fin d,
      (∑ k : Fin d, |toReal d R i k| * if k ≤ j then |(toReal d R)⁻¹ k j| else 0) ^ 2) := by
  unfold condF frobNorm
  congr 1
  refine sum_congr rfl fun i _ => sum_congr rfl fun j _ => ?_
  rw [Matrix.mul_apply]
  congr 1
  refine sum_congr rfl fun k _ => ?_
  simp only [absM, Matrix.map_apply]
  split
  · rfl
  · rename_i h
    rw [toReal_inv_lower d R hup hd k j h, abs_zero]

/-- With zeros in the strictly lower part of `iR`, the condition number. -/
theorem condOf_zero (ho : Exact o) (d : ℕ) (R X : Mat ℝ)
    (hup : ∀ i j, j < i → i < d → R j i = 0) (hd : ∀ i < d, R i i ≠ 0)
    (hX : ∀ j k, j < k → k < d → X j k = 0) : condOf o d R X = condF (toReal d R) := by
  rw [condOf_eq ho d R X hup hd, condF_eq d R hup hd]
  congr 1
  refine sum_congr rfl fun i _ => sum_congr rfl fun j _ => ?_
  congr 1
  refine sum_congr rfl fun k _ => ?_
  congr 1
  split
  · rfl
  · rename_i h
    rw [hX j k (not_le.1 h) k.2, abs_zero]

/-- Whatever the strictly lower part of `iR` contains, at least the condition number. -/
theorem condOf_ge (ho : Exact o) (d : ℕ) (R X : Mat ℝ)
    (hup : ∀ i j, j < i → i < d → R j i = 0) (hd : ∀ i < d, R i i ≠ 0) :
    condF (toReal d R) ≤ condOf o d R X := by
  rw [condOf_eq ho d R X hup hd, condF_eq d R hup hd]
  apply Real.sqrt_le_sqrt
  refine sum_le_sum fun i _ => sum_le_sum fun j _ => ?_
  refine pow_le_pow_left₀ (sum_nonneg fun k _ => ?_) (sum_le_sum fun k _ => ?_) 2
  · split <;> positivity
  · refine mul_le_mul_of_nonneg_left ?_ (abs_nonneg _)
    split
    · exact le_refl _
    · exact abs_nonneg _

/-- One entry below the diagonal is a lower bound. -/
theorem condOf_ge_junk (ho : Exact o) (d : ℕ) (R X : Mat ℝ)
    (hup : ∀ i j, j < i → i < d → R j i = 0) (hd : ∀ i < d, R i i ≠ 0) (k j : Fin d) (hkj : j < k) :
    |R k k| * |X j k| ≤ condOf o d R X := by
  rw [condOf_eq ho d R X hup hd]
  apply Real.le_sqrt_of_sq_le
  have h1 : |R k k| * |X j k| ≤ ∑ k' : Fin d, |toReal d R k k'| *
      if k' ≤ j then |(toReal d R)⁻¹ k' j| else |X j k'| := by
    refine le_trans (le_of_eq ?_) (single_le_sum (f := fun k' : Fin d => |toReal d R k k'| *
      if k' ≤ j then |(toReal d R)⁻¹ k' j| else |X j k'|) (fun k' _ => ?_) (mem_univ k))
    · simp only [if_neg (not_le.2 hkj)]; rfl
    · split <;> positivity
  refine le_trans (pow_le_pow_left₀ (by positivity) h1 2) ?_
  refine le_trans (single_le_sum (f := fun j' : Fin d => (∑ k' : Fin d, |toReal d R k k'| *
      if k' ≤ j' then |(toReal d R)⁻¹ k' j'| else |X j' k'|) ^ 2) (fun _ _ => sq_nonneg _) (mem_univ j)) ?_
  exact single_le_sum (f := fun i : Fin d => ∑ j' : Fin d, (∑ k' : Fin d, |toReal d R i k'| *
      if k' ≤ j' then |(toReal d R)⁻¹ k' j'| else |X j' k'|) ^ 2)
      (fun _ _ => sum_nonneg fun _ _ => sq_nonneg _) (mem_univ k)

/-- The condition number is at least 1. -/
theorem condF_ge_one (d : ℕ) (h0 : 0 < d) (R : Mat ℝ) (hup : ∀ i j, j < i → i < d → R j i = 0)
    (hd : ∀ i < d, R i i ≠ 0) : 1 ≤ condF (toReal d R) := by
  have hu : IsUnit (toReal d R).det := by
    rw [toReal_det d R hup, isUnit_iff_ne_zero, prod_ne_zero_iff]
    exact fun i _ => hd i i.2
  have h1 : ∀ i : Fin d, 1 ≤ (absM (toReal d R) * absM (toReal d R)⁻¹) i i := by
    intro i
    have : (toReal d R * (toReal d R)⁻¹) i i = 1 := by rw [Matrix.mul_nonsing_inv _ hu]; simp
    rw [Matrix.mul_apply] at this
    rw [Matrix.mul_apply, ← this]
    refine sum_le_sum fun k _ => ?_
    simp only [absM, Matrix.map_apply, ← abs_mul]
    exact le_abs_self _
  unfold condF frobNorm
  apply Real.le_sqrt_of_sq_le
  set P := absM (toReal d R) * absM (toReal d R)⁻¹
  have h2 := h1 ⟨0, h0⟩
  refine le_trans ?_ (single_le_sum (f := fun i : Fin d => ∑ j : Fin d, P i j ^ 2)
    (fun _ _ => sum_nonneg fun _ _ => sq_nonneg _) (mem_univ ⟨0, h0⟩))
  refine le_trans ?_ (single_le_sum (f := fun j : Fin d => P ⟨0, h0⟩ j ^ 2)
    (fun _ _ => sq_nonneg _) (mem_univ ⟨0, h0⟩))
  nlinarith

end HPLLL
