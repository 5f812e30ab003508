import Mathlib.Analysis.Real.Sqrt
import Mathlib.Algebra.BigOperators.Ring.Finset
import Mathlib.Algebra.Order.BigOperators.Ring.Finset
import Mathlib.Tactic.Ring
import Mathlib.Tactic.Linarith
import Mathlib.Tactic.FieldSimp
/-! Real vectors as functions `ℕ → ℝ` (first `n` entries), reflections and chains of reflections. -/

namespace HPLLL.Ex

open Finset

/-- Scalar product of the first `n` entries. -/
def dot (n : ℕ) (u v : ℕ → ℝ) : ℝ := ∑ r ∈ range n, u r * v r

/-- Reflection `x - (v·x) v` (a true reflection when `v·v = 2`). -/
def refl (n : ℕ) (v x : ℕ → ℝ) : ℕ → ℝ := fun r => x r - dot n v x * v r

/-- The Householder vector stored in column `k`: rows `k..n-1`. -/
def vv (n : ℕ) (V : ℕ → ℕ → ℝ) (k : ℕ) : ℕ → ℝ := fun r => if k ≤ r ∧ r < n then V k r else 0

/-- The first `k` stored reflections applied in order. -/
def app (n : ℕ) (V : ℕ → ℕ → ℝ) : ℕ → (ℕ → ℝ) → (ℕ → ℝ)
  | 0, x => x
  | k + 1, x => refl n (vv n V k) (app n V k x)

theorem dot_comm (n u v) : dot n u v = dot n v u := by
  unfold dot; exact sum_congr rfl fun _ _ => mul_comm _ _

theorem dot_add_left (n : ℕ) (u v w : ℕ → ℝ) :
    dot n (fun r => u r + v r) w = dot n u w + dot n v w := by
  unfold dot; rw [← sum_add_distrib]; exact sum_congr rfl fun _ _ => by ring

theorem dot_add_right (n : ℕ) (u v w : ℕ → ℝ) :
    dot n w (fun r => u r + v r) = dot n w u + dot n w v := by
  rw [dot_comm, dot_add_left, dot_comm n u, dot_comm n v]

theorem dot_smul_left (n : ℕ) (c : ℝ) (u w : ℕ → ℝ) :
    dot n (fun r => c * u r) w = c * dot n u w := by
  unfold dot; rw [mul_sum]; exact sum_congr rfl fun _ _ => by ring

theorem dot_smul_right (n : ℕ) (c : ℝ) (u w : ℕ → ℝ) :
    dot n w (fun r => c * u r) = c * dot n w u := by
  rw [dot_comm, dot_smul_left, dot_comm]

theorem dot_self_nonneg (n : ℕ) (u : ℕ → ℝ) : 0 ≤ dot n u u :=
  sum_nonneg fun _ _ => mul_self_nonneg _

theorem dot_self_eq_zero {n : ℕ} {u : ℕ → ℝ} (h : dot n u u = 0) : ∀ r < n, u r = 0 := by
  intro r hr
  have := (sum_eq_zero_iff_of_nonneg (fun i _ => mul_self_nonneg (u i))).mp h r (by simpa using hr)
  simpa using this

theorem dot_congr {n : ℕ} {u u' v v' : ℕ → ℝ} (h : ∀ r < n, u r * v r = u' r * v' r) :
    dot n u v = dot n u' v' := by
  unfold dot; exact sum_congr rfl fun r hr => h r (by simpa using hr)

/-- Reflections preserve scalar products. -/
theorem dot_refl (n : ℕ) (v x y : ℕ → ℝ) (hv : dot n v v = 2) :
    dot n (refl n v x) (refl n v y) = dot n x y := by
  have e1 : dot n (refl n v x) (refl n v y) =
      dot n x y - dot n v y * dot n x v - dot n v x * dot n v y
        + dot n v x * dot n v y * dot n v v := by
    simp only [dot, refl, mul_sum, sum_mul, ← sum_sub_distrib, ← sum_add_distrib]
    refine sum_congr rfl fun r _ => ?_
    ring_nf
    simp only [mul_sum, sum_mul, mul_assoc, mul_comm, mul_left_comm]
    ring
  rw [e1, hv, dot_comm n x v]; ring

theorem refl_add (n : ℕ) (v x y : ℕ → ℝ) :
    refl n v (fun r => x r + y r) = fun r => refl n v x r + refl n v y r := by
  funext r; simp only [refl, dot_add_right]; ring

theorem refl_smul (n : ℕ) (v x : ℕ → ℝ) (c : ℝ) :
    refl n v (fun r => c * x r) = fun r => c * refl n v x r := by
  funext r; simp only [refl, dot_smul_right]; ring

theorem app_add (n : ℕ) (V : ℕ → ℕ → ℝ) (k : ℕ) (x y : ℕ → ℝ) :
    app n V k (fun r => x r + y r) = fun r => app n V k x r + app n V k y r := by
  induction k with
  | zero => rfl
  | succ k ih => simp only [app, ih, refl_add]

theorem app_smul (n : ℕ) (V : ℕ → ℕ → ℝ) (k : ℕ) (c : ℝ) (x : ℕ → ℝ) :
    app n V k (fun r => c * x r) = fun r => c * app n V k x r := by
  induction k with
  | zero => rfl
  | succ k ih => simp only [app, ih, refl_smul]

theorem app_dot (n : ℕ) (V : ℕ → ℕ → ℝ) (k : ℕ)
    (hv : ∀ j < k, dot n (vv n V j) (vv n V j) = 2) (x y : ℕ → ℝ) :
    dot n (app n V k x) (app n V k y) = dot n x y := by
  induction k with
  | zero => rfl
  | succ k ih =>
    simp only [app]
    rw [dot_refl _ _ _ _ (hv k (by omega)), ih (fun j hj => hv j (by omega))]

/-- Rows above the reflection are not touched. -/
theorem app_succ_lt (n : ℕ) (V : ℕ → ℕ → ℝ) (k : ℕ) (x : ℕ → ℝ) (r : ℕ) (hr : r < k) :
    app n V (k + 1) x r = app n V k x r := by
  simp only [app, refl, vv]
  rw [if_neg (by omega)]; ring

theorem app_stable (n : ℕ) (V : ℕ → ℕ → ℝ) {k m : ℕ} (x : ℕ → ℝ) (r : ℕ) (hr : r < k)
    (hkm : k ≤ m) : app n V m x r = app n V k x r := by
  induction hkm with
  | refl => rfl
  | @step m hm ih =>
    have hm' : k ≤ m := hm
    rw [app_succ_lt _ _ _ _ _ (by omega), ih]

theorem app_congrV (n : ℕ) (V V' : ℕ → ℕ → ℝ) (k : ℕ) (h : ∀ j < k, V j = V' j) (x : ℕ → ℝ) :
    app n V k x = app n V' k x := by
  induction k with
  | zero => rfl
  | succ k ih =>
    simp only [app]
    rw [ih (fun j hj => h j (by omega))]
    have : vv n V k = vv n V' k := by funext r; simp only [vv, h k (by omega)]
    rw [this]

/-- Support is preserved. -/
theorem app_supp (n : ℕ) (V : ℕ → ℕ → ℝ) (k m : ℕ) (x : ℕ → ℝ)
    (hx : ∀ r, m ≤ r → x r = 0) (hv : ∀ j < k, ∀ r, m ≤ r → r < n → V j r = 0) (r : ℕ)
    (hr : m ≤ r) : app n V k x r = 0 := by
  induction k with
  | zero => exact hx r hr
  | succ k ih =>
    simp only [app, refl]
    rw [ih (fun j hj => hv j (by omega))]
    simp only [vv]
    split
    · rw [hv k (by omega) r hr (by omega)]; ring
    · ring

/-- A vector already zero from row `k` on is not changed by later reflections. -/
theorem app_fix (n : ℕ) (V : ℕ → ℕ → ℝ) (k m : ℕ) (x : ℕ → ℝ) (hkm : k ≤ m)
    (hx : ∀ r, k ≤ r → app n V k x r = 0) : app n V m x = app n V k x := by
  induction hkm with
  | refl => rfl
  | @step m hm ih =>
    simp only [app]
    have hm' : k ≤ m := hm
    rw [ih]
    funext r
    have : dot n (vv n V m) (app n V k x) = 0 := by
      unfold dot
      refine sum_eq_zero fun r _ => ?_
      by_cases h : k ≤ r
      · rw [hx r h]; ring
      · simp only [vv]; rw [if_neg (by omega)]; ring
    simp only [refl, this]; ring

/-- Splitting a scalar product at row `k`. -/
theorem dot_split (n k : ℕ) (hk : k ≤ n) (u v : ℕ → ℝ) :
    dot n u v = dot k u v + ∑ i ∈ range (n - k), u (k + i) * v (k + i) := by
  unfold dot
  obtain ⟨m, rfl⟩ := Nat.exists_eq_add_of_le hk
  rw [sum_range_add]; simp

/-- Sum of squares of the rows `k..n-1`. -/
def tail (n k : ℕ) (x : ℕ → ℝ) : ℝ := ∑ i ∈ range (n - k), x (k + i) * x (k + i)

theorem tail_nonneg (n k : ℕ) (x : ℕ → ℝ) : 0 ≤ tail n k x :=
  sum_nonneg fun _ _ => mul_self_nonneg _

theorem tail_succ (n k : ℕ) (x : ℕ → ℝ) (hk : k < n) :
    tail n k x = x k * x k + tail n (k + 1) x := by
  unfold tail
  obtain ⟨m, hm⟩ : ∃ m, n - k = m + 1 := ⟨n - k - 1, by omega⟩
  rw [hm, sum_range_succ', show n - (k + 1) = m by omega]
  simp only [add_zero]
  rw [add_comm]
  congr 1
  exact sum_congr rfl fun i _ => by rw [show k + (i + 1) = k + 1 + i by omega]

/-- The part below row `k` keeps its norm under reflection number `k`. -/
theorem tail_app (n : ℕ) (V : ℕ → ℕ → ℝ) (k : ℕ) (hk : k ≤ n)
    (hv : dot n (vv n V k) (vv n V k) = 2) (x : ℕ → ℝ) :
    tail n k (app n V (k + 1) x) = tail n k (app n V k x) := by
  have h1 : dot n (app n V (k + 1) x) (app n V (k + 1) x)
      = dot n (app n V k x) (app n V k x) := by
    simp only [app]; exact dot_refl _ _ _ _ hv
  rw [dot_split n k hk, dot_split n k hk] at h1
  have h2 : dot k (app n V (k + 1) x) (app n V (k + 1) x)
      = dot k (app n V k x) (app n V k x) :=
    dot_congr fun r hr => by rw [app_succ_lt _ _ _ _ _ hr]
  rw [h2] at h1
  unfold tail
  linarith

end HPLLL.Ex
