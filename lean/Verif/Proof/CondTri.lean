import Verif.Proof.CondMain
import Verif.Model.Trunc
/-! `lcond(TRIANGULAR_PROPER)`, the ratios and the printed `delta`, exact arithmetic. -/

namespace HPLLL
open Spec Finset Matrix

variable {o : FPOps ℝ}

/-- A running maximum. -/
theorem forRange_maxR (f : ℕ → ℝ) (c0 : ℝ) {a b : ℕ} (hab : a ≤ b) :
    let m := forRange a b (fun i c => if c < f i then f i else c) c0
    c0 ≤ m ∧ (∀ i, a ≤ i → i < b → f i ≤ m) ∧ (m = c0 ∨ ∃ i, a ≤ i ∧ i < b ∧ m = f i) := by
  refine forRange_ind (fun b m => c0 ≤ m ∧ (∀ i, a ≤ i → i < b → f i ≤ m) ∧
    (m = c0 ∨ ∃ i, a ≤ i ∧ i < b ∧ m = f i)) hab _ _
    ⟨le_refl _, fun i _ _ => by omega, Or.inl rfl⟩ ?_
  intro i t h1 h2 ⟨ha, hb, hc⟩
  split
  · rename_i h
    refine ⟨le_trans ha h.le, fun k hk hk' => ?_, Or.inr ⟨i, h1, by omega, rfl⟩⟩
    by_cases e : k = i
    · rw [e]
    · exact le_trans (hb k hk (by omega)) h.le
  · rename_i h
    refine ⟨ha, fun k hk hk' => ?_, ?_⟩
    · by_cases e : k = i
      · rw [e]; exact not_lt.1 h
      · exact hb k hk (by omega)
    · rcases hc with hc | ⟨k, hk, hk', e⟩
      · exact Or.inl hc
      · exact Or.inr ⟨k, hk, by omega, e⟩

/-- A running maximum on two indices: an upper bound of the start and of all the terms. -/
theorem forRange_maxR2 (f : ℕ → ℕ → ℝ) (lo hi : ℕ → ℕ) (c0 : ℝ) {a b : ℕ} (hab : a ≤ b)
    (hlh : ∀ j, lo j ≤ hi j) :
    let m := forRange a b (fun j c => forRange (lo j) (hi j) (fun i c => if c < f j i then f j i else c) c) c0
    c0 ≤ m ∧ (∀ j, a ≤ j → j < b → ∀ i, lo j ≤ i → i < hi j → f j i ≤ m) ∧
      (m = c0 ∨ ∃ j i, a ≤ j ∧ j < b ∧ lo j ≤ i ∧ i < hi j ∧ m = f j i) := by
  refine forRange_ind (fun b m => c0 ≤ m ∧
    (∀ j, a ≤ j → j < b → ∀ i, lo j ≤ i → i < hi j → f j i ≤ m) ∧
      (m = c0 ∨ ∃ j i, a ≤ j ∧ j < b ∧ lo j ≤ i ∧ i < hi j ∧ m = f j i)) hab _ _
    ⟨le_refl _, fun i _ _ => by omega, Or.inl rfl⟩ ?_
  intro j t h1 h2 ⟨ha, hb, hc⟩
  obtain ⟨k1, k2, k3⟩ := forRange_maxR (f j) t (hlh j)
  refine ⟨le_trans ha k1, fun j' h1' h2' i hi1 hi2 => ?_, ?_⟩
  · by_cases e : j' = j
    · subst e; exact k2 i hi1 hi2
    · exact le_trans (hb j' h1' (by omega) i hi1 hi2) k1
  · rcases k3 with k3 | ⟨i, hi1, hi2, e⟩
    · rw [k3]
      rcases hc with hc | ⟨j', i, e1, e2, e3, e4, e5⟩
      · exact Or.inl hc
      · exact Or.inr ⟨j', i, e1, by omega, e3, e4, e5⟩
    · exact Or.inr ⟨j, i, h1, by omega, hi1, hi2, e⟩

theorem triEta_spec (ho : Exact o) (d : ℕ) (R : Mat ℝ) :
    0 ≤ triEta o d R ∧ (∀ j < d, ∀ i < j, |R j i / R i i| ≤ triEta o d R) ∧
      (triEta o d R = 0 ∨ ∃ j < d, ∃ i < j, triEta o d R = |R j i / R i i|) := by
  unfold triEta
  have e : ∀ (x y : ℝ), (if o.lt x y then y else x) = if x < y then y else x := by
    intro x y; simp [ho.lt]
  simp only [ho.abs, ho.div, ho.zero, e]
  by_cases h0 : 1 ≤ d
  · obtain ⟨h1, h2, h3⟩ := forRange_maxR2 (fun j i => |R j i / R i i|) (fun _ => 0) (fun j => j) 0 h0
      (fun _ => Nat.zero_le _)
    refine ⟨h1, fun j hj i hi => h2 j (by omega) hj i (Nat.zero_le _) hi, ?_⟩
    rcases h3 with h3 | ⟨j, i, -, a, -, b, c⟩
    · exact Or.inl h3
    · exact Or.inr ⟨j, a, i, b, c⟩
  · rw [forRange_empty (by omega)]
    exact ⟨le_refl _, fun j hj => by omega, Or.inl rfl⟩

theorem triMaxquo_spec (ho : Exact o) (d : ℕ) (R : Mat ℝ) :
    (∀ j < d, ∀ i < d, |R j j / R i i| ≤ triMaxquo o d R) ∧
      (triMaxquo o d R = 0 ∨ ∃ j < d, ∃ i < d, triMaxquo o d R = |R j j / R i i|) := by
  unfold triMaxquo
  have e : ∀ (x y : ℝ), (if o.lt x y then y else x) = if x < y then y else x := by
    intro x y; simp [ho.lt]
  simp only [ho.abs, ho.div, ho.zero, e]
  obtain ⟨-, h2, h3⟩ := forRange_maxR2 (fun j i => |R j j / R i i|) (fun _ => 0) (fun _ => d) 0
    (Nat.zero_le d) (fun _ => Nat.zero_le _)
  refine ⟨fun j hj i hi => h2 j (Nat.zero_le _) hj i (Nat.zero_le _) hi, ?_⟩
  rcases h3 with h3 | ⟨j, i, -, a, -, b, c⟩
  · exact Or.inl h3
  · exact Or.inr ⟨j, a, i, b, c⟩

/-- Tail sums of a column of the inverse of a triangular matrix whose rows are dominated by their
diagonal entry. -/
theorem tri_tail (d : ℕ) (T Q : Matrix (Fin d) (Fin d) ℝ) (hT : ∀ i j, j < i → T i j = 0)
    (hQ : ∀ i j, j < i → Q i j = 0) (hQT : T * Q = 1) (hd : ∀ i, T i i ≠ 0)
    (hη : ∀ i j, |T i j| ≤ |T i i|) (j : Fin d) :
    ∀ m : ℕ, ∀ i : Fin d, (i : ℕ) + m = j →
      ∑ k ∈ univ.filter (fun k => i ≤ k), |Q k j| ≤ 2 ^ m / |T j j| := by
  have hdiag : |Q j j| = 1 / |T j j| := by
    have := congrFun (congrFun hQT j) j
    rw [Matrix.mul_apply, sum_eq_single j, Matrix.one_apply_eq] at this
    · rw [eq_div_iff (abs_ne_zero.2 (hd j)), ← abs_mul, mul_comm, this, abs_one]
    · intro b _ hb
      rcases lt_or_gt_of_ne hb with h | h
      · rw [hT j b h, zero_mul]
      · rw [hQ b j h, mul_zero]
    · simp
  intro m
  induction m with
  | zero =>
    intro i hi
    have : i = j := Fin.ext (by omega)
    subst this
    rw [sum_eq_single i]
    · rw [hdiag, pow_zero]
    · intro b hb hb'
      have : i < b := lt_of_le_of_ne (mem_filter.1 hb).2 (Ne.symm hb')
      rw [hQ b i this, abs_zero]
    · intro h; exact absurd (mem_filter.2 ⟨mem_univ _, le_refl _⟩) h
  | succ m ih =>
    intro i hi
    have hi1 : (i : ℕ) + 1 < d := by have := j.2; omega
    have hs := ih ⟨i + 1, hi1⟩ (by simp only []; omega)
    have hsplit : univ.filter (fun k : Fin d => i ≤ k) =
        insert i (univ.filter (fun k : Fin d => (⟨i + 1, hi1⟩ : Fin d) ≤ k)) := by
      ext k
      simp only [mem_filter, mem_univ, true_and, mem_insert, Fin.le_def, Fin.ext_iff]
      omega
    rw [hsplit, sum_insert (by simp [Fin.le_def])]
    set S := ∑ k ∈ univ.filter (fun k : Fin d => (⟨i + 1, hi1⟩ : Fin d) ≤ k), |Q k j| with hS
    have hij : i ≠ j := by intro h; subst h; omega
    have hQij : |Q i j| ≤ S := by
      have h0 := congrFun (congrFun hQT i) j
      rw [Matrix.mul_apply, Matrix.one_apply_ne hij] at h0
      have h1 : T i i * Q i j = - ∑ k ∈ univ.filter (fun k : Fin d => (⟨i + 1, hi1⟩ : Fin d) ≤ k),
          T i k * Q k j := by
        have h2 : ∑ k, T i k * Q k j = ∑ k ∈ univ.filter (fun k : Fin d => i ≤ k), T i k * Q k j := by
          symm
          apply sum_subset (subset_univ _)
          intro k _ hk
          have : k < i := by
            by_contra h
            exact hk (mem_filter.2 ⟨mem_univ _, not_lt.1 h⟩)
          rw [hT i k this, zero_mul]
        rw [h2, hsplit, sum_insert (by simp [Fin.le_def])] at h0
        linarith
      have h3 : |T i i| * |Q i j| ≤ |T i i| * S := by
        rw [← abs_mul, h1, abs_neg, hS, mul_sum]
        refine le_trans (abs_sum_le_sum_abs _ _) (sum_le_sum fun k _ => ?_)
        rw [abs_mul]
        exact mul_le_mul_of_nonneg_right (hη i k) (abs_nonneg _)
      exact le_of_mul_le_mul_left h3 (abs_pos.2 (hd i))
    rw [pow_succ]
    have : 2 ^ m * 2 / |T j j| = 2 ^ m / |T j j| + 2 ^ m / |T j j| := by ring
    rw [this]
    linarith

/-- The bound behind `lcond(TRIANGULAR_PROPER)`. -/
theorem condF_tri_le (d : ℕ) (R : Mat ℝ) (hup : ∀ i j, j < i → i < d → R j i = 0)
    (hd : ∀ i < d, R i i ≠ 0) (hη : ∀ j < d, ∀ i < j, |R j i / R i i| ≤ 1) (q : ℝ)
    (hq : ∀ j < d, ∀ i < d, |R j j / R i i| ≤ q) (hq0 : 0 ≤ q) :
    condF (toReal d R) ≤ d * (q * 2 ^ (d - 1)) := by
  have hu : IsUnit (toReal d R).det := by
    rw [toReal_det d R hup, isUnit_iff_ne_zero, prod_ne_zero_iff]
    exact fun i _ => hd i i.2
  have hdom : ∀ i j : Fin d, |toReal d R i j| ≤ |toReal d R i i| := by
    intro i j
    rcases lt_trichotomy i j with h | h | h
    · have := hη j j.2 i h
      rw [abs_div, div_le_one (abs_pos.2 (hd i i.2))] at this
      exact this
    · rw [h]
    · have : toReal d R i j = 0 := hup i j h i.2
      rw [this, abs_zero]; exact abs_nonneg _
  have hent : ∀ i j : Fin d, (absM (toReal d R) * absM (toReal d R)⁻¹) i j ≤ q * 2 ^ (d - 1) := by
    intro i j
    have hnn : 0 ≤ q * 2 ^ (d - 1) := by positivity
    by_cases hij : i ≤ j
    · have ht := tri_tail d (toReal d R) (toReal d R)⁻¹ (fun a b h => hup a b h a.2)
        (fun a b h => toReal_inv_lower d R hup hd a b (not_le.2 h)) (Matrix.mul_nonsing_inv _ hu)
        (fun a => hd a a.2) hdom j (j - i) i (by rw [Fin.le_def] at hij; omega)
      rw [Matrix.mul_apply]
      have h1 : ∑ k, absM (toReal d R) i k * absM (toReal d R)⁻¹ k j ≤
          |toReal d R i i| * ∑ k ∈ univ.filter (fun k => i ≤ k), |(toReal d R)⁻¹ k j| := by
        rw [mul_sum]
        rw [← sum_subset (subset_univ (univ.filter (fun k : Fin d => i ≤ k)))]
        · refine sum_le_sum fun k _ => ?_
          simp only [absM, Matrix.map_apply]
          exact mul_le_mul_of_nonneg_right (hdom i k) (abs_nonneg _)
        · intro k _ hk
          have : k < i := by
            by_contra h
            exact hk (mem_filter.2 ⟨mem_univ _, not_lt.1 h⟩)
          have : toReal d R i k = 0 := hup i k this i.2
          simp only [absM, Matrix.map_apply, this, abs_zero, zero_mul]
      refine le_trans h1 (le_trans (mul_le_mul_of_nonneg_left ht (abs_nonneg _)) ?_)
      have h2 : |toReal d R i i| * (2 ^ ((j : ℕ) - i) / |toReal d R j j|) =
          |R i i / R j j| * 2 ^ ((j : ℕ) - i) := by
        rw [abs_div]
        simp only [toReal, Matrix.of_apply]
        ring
      rw [h2]
      refine mul_le_mul (hq i i.2 j j.2) ?_ (by positivity) hq0
      exact pow_le_pow_right₀ (by norm_num) (by have := j.2; omega)
    · refine le_trans (le_of_eq ?_) hnn
      rw [Matrix.mul_apply]
      refine sum_eq_zero fun k _ => ?_
      simp only [absM, Matrix.map_apply]
      by_cases hk : k < i
      · have : toReal d R i k = 0 := hup i k hk i.2
        rw [this, abs_zero, zero_mul]
      · rw [toReal_inv_lower d R hup hd k j, abs_zero, mul_zero]
        intro h
        exact hij (le_trans (not_lt.1 hk) h)
  have hnn : ∀ i j : Fin d, 0 ≤ (absM (toReal d R) * absM (toReal d R)⁻¹) i j := by
    intro i j
    rw [Matrix.mul_apply]
    exact sum_nonneg fun k _ => mul_nonneg (abs_nonneg _) (abs_nonneg _)
  unfold condF frobNorm
  rw [Real.sqrt_le_left (by positivity)]
  calc ∑ i, ∑ j, (absM (toReal d R) * absM (toReal d R)⁻¹) i j ^ 2
      ≤ ∑ _i : Fin d, ∑ _j : Fin d, (q * 2 ^ (d - 1)) ^ 2 :=
        sum_le_sum fun i _ => sum_le_sum fun j _ => pow_le_pow_left₀ (hnn i j) (hent i j) 2
    _ = (d * (q * 2 ^ (d - 1))) ^ 2 := by
        simp only [sum_const, card_univ, Fintype.card_fin, nsmul_eq_mul]; ring

/-- The upper triangular part of the basis, as `lcond(TRIANGULAR_PROPER)` copies it. -/
theorem triCopy_apply (ho : Exact o) (d : ℕ) (B : Mat Int) (R : Mat ℝ) (c r : ℕ) (hc : c < d)
    (hr : r ≤ c) :
    forRange 0 d (fun j R => fsetcolZ o R j (B j) (j + 1)) R c r = B c r := by
  have := forRange_ind (fun m (T : Mat ℝ) => c < m → T c r = B c r) (Nat.zero_le d)
    (fun j R => fsetcolZ o R j (B j) (j + 1)) R (by omega) ?_
  · exact this hc
  · intro i T _ _ h hc'
    simp only [fsetcolZ, setCol]
    by_cases e : c = i
    · subst e; rw [if_pos rfl, if_pos (by omega), ho.ofZ]
    · rw [if_neg e]; exact h (by omega)

/-- `triEta` and `triMaxquo` only read the upper triangular part. -/
theorem triEta_congr (d : ℕ) (R R' : Mat ℝ) (h : ∀ c < d, ∀ r ≤ c, R c r = R' c r) :
    triEta o d R = triEta o d R' := by
  unfold triEta forRange
  apply List.foldl_ext
  intro e j hj
  apply List.foldl_ext
  intro e i hi
  simp only [List.mem_range'_1] at hj hi
  simp only [h j (by omega) i (by omega), h i (by omega) i (by omega)]

theorem triMaxquo_congr (d : ℕ) (R R' : Mat ℝ) (h : ∀ c < d, ∀ r ≤ c, R c r = R' c r) :
    triMaxquo o d R = triMaxquo o d R' := by
  unfold triMaxquo forRange
  apply List.foldl_ext
  intro e j hj
  apply List.foldl_ext
  intro e i hi
  simp only [List.mem_range'_1] at hj hi
  simp only [h j (by omega) j (by omega), h i (by omega) i (by omega)]

end HPLLL
