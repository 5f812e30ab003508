import Verif.Proof.FpErrQR
import Mathlib.Analysis.InnerProductSpace.GramSchmidtOrtho
/-! A basis close to one with a reduced triangular factor: uniform distortion, Gram–Schmidt. -/

namespace HPLLL.Cert
open Spec Finset Err

/-- The columns `b` are close to `Q R`, and `R` (upper triangular) is reduced. -/
structure Near (n d : ℕ) (R : ℕ → ℕ → ℝ) (b : ℕ → E n) (Q : E n ≃ₗᵢ[ℝ] E n) (c η e : ℝ) : Prop where
  dn : d ≤ n
  c1 : 1 ≤ c
  η0 : 0 ≤ η
  e0 : 0 ≤ e
  e1 : e < 1
  up : ∀ j i, j < i → R j i = 0
  diag : ∀ k < d, R k k ≠ 0
  lov : ∀ k, k + 1 < d → |R k k| ≤ c * |R (k + 1) (k + 1)|
  siz : ∀ k < d, ∀ i < k, |R k i| ≤ η * |R i i|
  near : ∀ j < d, ‖Q (vc n (R j)) - b j‖ ≤ e * ‖b j‖

/-- Real combination of the columns of `R`. -/
def comb (d : ℕ) (R : ℕ → ℕ → ℝ) (y : ℕ → ℝ) : ℕ → ℝ := fun r => ∑ j ∈ range d, y j * R j r

/-- Real combination of vectors. -/
noncomputable def vcomb {n : ℕ} (d : ℕ) (b : ℕ → E n) (y : ℕ → ℝ) : E n := ∑ j ∈ range d, y j • b j

theorem vc_comb (n d : ℕ) (R : ℕ → ℕ → ℝ) (y : ℕ → ℝ) :
    vc n (comb d R y) = ∑ j ∈ range d, y j • vc n (R j) := by
  unfold comb
  induction d with
  | zero => ext i; simp [vc]
  | succ d ih =>
    rw [sum_range_succ, ← ih, vc_smul, vc_add]
    exact vc_congr fun r _ => sum_range_succ _ _

theorem abs_le_norm {n r : ℕ} (hr : r < n) (x : ℕ → ℝ) : |x r| ≤ ‖vc n x‖ := by
  rw [← inner_uv hr x]
  have := abs_real_inner_le_norm (vc n x) (vc n (uv r))
  rwa [norm_uv hr, mul_one] at this

theorem norm_le_sum (n : ℕ) (x : ℕ → ℝ) : ‖vc n x‖ ≤ ∑ r ∈ range n, |x r| := by
  have e : vc n x = ∑ r ∈ range n, x r • vc n (uv r) := by
    ext i
    rw [show (∑ r ∈ range n, x r • vc n (uv r)) i = ∑ r ∈ range n, (x r • vc n (uv r)) i by
      simp [WithLp.ofLp_sum]]
    rw [Finset.sum_eq_single (i : ℕ)]
    · simp [vc, uv]
    · intro r _ hr
      simp [vc, uv, Ne.symm hr]
    · intro h; exact absurd (mem_range.mpr i.2) h
  rw [e]
  refine (norm_sum_le _ _).trans (sum_le_sum fun r hr => ?_)
  rw [norm_smul, norm_uv (mem_range.mp hr), mul_one, Real.norm_eq_abs]

theorem geo (c η : ℝ) (m : ℕ) :
    c ^ m + η * ∑ t ∈ range m, c ^ (t + 1) * (c * (1 + η)) ^ (m - 1 - t) = (c * (1 + η)) ^ m := by
  induction m with
  | zero => simp
  | succ m ih =>
    rw [sum_range_succ, show m + 1 - 1 - m = 0 by omega, pow_zero, mul_one]
    have : ∑ t ∈ range m, c ^ (t + 1) * (c * (1 + η)) ^ (m + 1 - 1 - t) =
        (c * (1 + η)) * ∑ t ∈ range m, c ^ (t + 1) * (c * (1 + η)) ^ (m - 1 - t) := by
      rw [mul_sum]
      refine sum_congr rfl fun t ht => ?_
      have := mem_range.mp ht
      rw [show m + 1 - 1 - t = (m - 1 - t) + 1 by omega, pow_succ]; ring
    rw [this, pow_succ (c * (1 + η)), ← ih]; ring

theorem geo' {c η : ℝ} (hc : 1 ≤ c) (hη : 0 ≤ η) (m : ℕ) :
    1 + η * ∑ t ∈ range m, c ^ (t + 1) ≤ (c * (1 + η)) ^ m := by
  rw [← geo]
  have h1 : 1 ≤ c ^ m := one_le_pow₀ hc
  have hq : 1 ≤ c * (1 + η) := by nlinarith
  refine add_le_add h1 (mul_le_mul_of_nonneg_left (sum_le_sum fun t _ => ?_) hη)
  have : 1 ≤ (c * (1 + η)) ^ (m - 1 - t) := one_le_pow₀ hq
  have : 0 ≤ c ^ (t + 1) := by positivity
  nlinarith

namespace Near

variable {n d : ℕ} {R : ℕ → ℕ → ℝ} {b : ℕ → E n} {Q : E n ≃ₗᵢ[ℝ] E n} {c η e : ℝ}

theorem lov' (h : Near n d R b Q c η e) (i t : ℕ) (hi : i + t < d) :
    |R i i| ≤ c ^ t * |R (i + t) (i + t)| := by
  induction t with
  | zero => simp
  | succ t ih =>
    have h1 := ih (by omega)
    have h2 := h.lov (i + t) (by omega)
    have : 0 ≤ c ^ t := by have := h.c1; positivity
    calc _ ≤ _ := h1
      _ ≤ c ^ t * (c * |R (i + t + 1) (i + t + 1)|) := mul_le_mul_of_nonneg_left h2 this
      _ = _ := by rw [pow_succ]; ring_nf

theorem q1 (h : Near n d R b Q c η e) : 1 ≤ c * (1 + η) := by
  have := h.c1; have := h.η0; nlinarith

theorem comb_row (h : Near n d R b Q c η e) (y : ℕ → ℝ) {i : ℕ} (hi : i < d) :
    comb d R y i = y i * R i i + ∑ t ∈ range (d - 1 - i), y (i + 1 + t) * R (i + 1 + t) i := by
  unfold comb
  obtain ⟨m, rfl⟩ : ∃ m, d = i + 1 + m := ⟨d - (i + 1), by omega⟩
  rw [sum_range_add, sum_range_succ, show i + 1 + m - 1 - i = m by omega]
  rw [Finset.sum_eq_zero, zero_add]
  intro j hj
  rw [h.up j i (mem_range.mp hj), mul_zero]

/-- Back substitution. -/
theorem coef (h : Near n d R b Q c η e) (y : ℕ → ℝ) : ∀ m i, i + m + 1 = d →
    |y i| * |R i i| ≤ (c * (1 + η)) ^ m * ‖vc n (comb d R y)‖ := by
  intro m
  induction m using Nat.strong_induction_on with
  | _ m ih =>
    intro i hi
    have hdn := h.dn
    set W := ‖vc n (comb d R y)‖ with hW
    have hW0 : 0 ≤ W := norm_nonneg _
    have h1 := h.comb_row y (show i < d by omega)
    rw [show d - 1 - i = m by omega] at h1
    have h2 : y i * R i i = comb d R y i - ∑ t ∈ range m, y (i + 1 + t) * R (i + 1 + t) i := by
      linarith
    rw [← abs_mul, h2]
    have hw : |comb d R y i| ≤ W := abs_le_norm (by omega) _
    have hterm : ∀ t ∈ range m, |y (i + 1 + t) * R (i + 1 + t) i| ≤
        η * (c ^ (t + 1) * (c * (1 + η)) ^ (m - 1 - t)) * W := by
      intro t ht
      have ht := mem_range.mp ht
      have a1 := ih (m - 1 - t) (by omega) (i + 1 + t) (by omega)
      have a2 := h.siz (i + 1 + t) (by omega) i (by omega)
      have a3 := h.lov' i (t + 1) (by omega)
      rw [show i + (t + 1) = i + 1 + t by ring] at a3
      have hη := h.η0
      have hc : 0 ≤ c ^ (t + 1) := by have := h.c1; positivity
      rw [abs_mul]
      calc |y (i + 1 + t)| * |R (i + 1 + t) i| ≤ |y (i + 1 + t)| * (η * |R i i|) :=
            mul_le_mul_of_nonneg_left a2 (abs_nonneg _)
        _ ≤ |y (i + 1 + t)| * (η * (c ^ (t + 1) * |R (i + 1 + t) (i + 1 + t)|)) :=
            mul_le_mul_of_nonneg_left (mul_le_mul_of_nonneg_left a3 hη) (abs_nonneg _)
        _ = η * c ^ (t + 1) * (|y (i + 1 + t)| * |R (i + 1 + t) (i + 1 + t)|) := by ring
        _ ≤ η * c ^ (t + 1) * ((c * (1 + η)) ^ (m - 1 - t) * W) :=
            mul_le_mul_of_nonneg_left a1 (by positivity)
        _ = _ := by ring
    have hs : |∑ t ∈ range m, y (i + 1 + t) * R (i + 1 + t) i| ≤
        η * (∑ t ∈ range m, c ^ (t + 1) * (c * (1 + η)) ^ (m - 1 - t)) * W := by
      refine (Finset.abs_sum_le_sum_abs _ _).trans ((sum_le_sum hterm).trans (le_of_eq ?_))
      rw [mul_sum, sum_mul]
    refine (abs_sub _ _).trans ((add_le_add hw hs).trans ?_)
    have hg := geo c η m
    have hc1 : 1 ≤ c ^ m := one_le_pow₀ h.c1
    nlinarith

/-- The rest of a column is not much larger than its last entry. -/
theorem col_abs (h : Near n d R b Q c η e) {j : ℕ} (hj : j < d) :
    ∑ i ∈ range (j + 1), |R j i| ≤ (c * (1 + η)) ^ j * |R j j| := by
  rw [sum_range_succ]
  have h1 : ∑ i ∈ range j, |R j i| ≤ η * (∑ t ∈ range j, c ^ (t + 1)) * |R j j| := by
    rw [← Finset.sum_range_reflect (fun t => c ^ (t + 1)), mul_sum, sum_mul]
    refine sum_le_sum fun i hi => ?_
    have hi := mem_range.mp hi
    have a2 := h.siz j hj i hi
    have a3 := h.lov' i (j - i) (by omega)
    rw [show i + (j - i) = j by omega] at a3
    rw [show j - 1 - i + 1 = j - i by omega]
    refine a2.trans ((mul_le_mul_of_nonneg_left a3 h.η0).trans (le_of_eq (by ring)))
  have h2 := geo' h.c1 h.η0 j
  have := abs_nonneg (R j j)
  nlinarith

theorem col_norm (h : Near n d R b Q c η e) {j : ℕ} (hj : j < d) :
    ‖vc n (R j)‖ ≤ (c * (1 + η)) ^ j * |R j j| := by
  refine (norm_le_sum n _).trans (le_trans (le_of_eq ?_) (h.col_abs hj))
  obtain ⟨m, hm⟩ : ∃ m, n = j + 1 + m := ⟨n - (j + 1), by have := h.dn; omega⟩
  rw [hm, sum_range_add]
  conv_rhs => rw [← add_zero (∑ i ∈ range (j + 1), |R j i|)]
  congr 1
  exact sum_eq_zero fun t _ => by rw [h.up j (j + 1 + t) (by omega), abs_zero]

theorem err (h : Near n d R b Q c η e) {j : ℕ} (hj : j < d) :
    ‖b j - Q (vc n (R j))‖ ≤ e / (1 - e) * ‖vc n (R j)‖ := by
  have h1 := h.near j hj
  have he := h.e1
  have h0 := h.e0
  rw [norm_sub_rev] at h1
  have h2 : ‖b j‖ ≤ ‖vc n (R j)‖ + e * ‖b j‖ := by
    have : b j = Q (vc n (R j)) + (b j - Q (vc n (R j))) := by abel
    calc ‖b j‖ = ‖Q (vc n (R j)) + (b j - Q (vc n (R j)))‖ := by rw [← this]
      _ ≤ ‖Q (vc n (R j))‖ + ‖b j - Q (vc n (R j))‖ := norm_add_le _ _
      _ ≤ _ := by rw [LinearIsometryEquiv.norm_map]; linarith
  have hp : 0 < 1 - e := by linarith
  refine h1.trans ?_
  rw [div_mul_eq_mul_div, le_div_iff₀ hp]
  nlinarith

theorem distortion_nonneg (h : Near n d R b Q c η e) : 0 ≤ distortion d c η e := by
  have h0 := h.e0
  have h1 := h.e1
  have := h.q1
  have hp : 0 < 1 - e := by linarith
  unfold distortion; positivity

/-- Every real combination is distorted by a factor close to 1. -/
theorem dist (h : Near n d R b Q c η e) (y : ℕ → ℝ) :
    ‖vcomb d b y - Q (vc n (comb d R y))‖ ≤ distortion d c η e * ‖vc n (comb d R y)‖ := by
  set W := ‖vc n (comb d R y)‖ with hW
  have hW0 : 0 ≤ W := norm_nonneg _
  have h1e : 0 < 1 - e := by have := h.e1; linarith
  have h0 := h.e0
  rw [vc_comb, map_sum]
  unfold vcomb
  rw [← sum_sub_distrib]
  have hterm : ∀ j ∈ range d, ‖y j • b j - Q (y j • vc n (R j))‖ ≤
      e / (1 - e) * (c * (1 + η)) ^ (d - 1) * W := by
    intro j hj
    have hj := mem_range.mp hj
    rw [map_smul, ← smul_sub, norm_smul, Real.norm_eq_abs]
    have a1 := h.err hj
    have a2 := h.col_norm hj
    have a3 := h.coef y (d - 1 - j) j (by omega)
    have hq : 0 ≤ (c * (1 + η)) ^ j := by have := h.q1; positivity
    have he : 0 ≤ e / (1 - e) := by positivity
    calc |y j| * ‖b j - Q (vc n (R j))‖ ≤ |y j| * (e / (1 - e) * ((c * (1 + η)) ^ j * |R j j|)) :=
          mul_le_mul_of_nonneg_left (a1.trans (mul_le_mul_of_nonneg_left a2 he)) (abs_nonneg _)
      _ = e / (1 - e) * (c * (1 + η)) ^ j * (|y j| * |R j j|) := by ring
      _ ≤ e / (1 - e) * (c * (1 + η)) ^ j * ((c * (1 + η)) ^ (d - 1 - j) * W) :=
          mul_le_mul_of_nonneg_left a3 (by positivity)
      _ = e / (1 - e) * ((c * (1 + η)) ^ (j + (d - 1 - j))) * W := by rw [pow_add]; ring
      _ = _ := by rw [show j + (d - 1 - j) = d - 1 by omega]
  refine (norm_sum_le _ _).trans ((sum_le_sum hterm).trans (le_of_eq ?_))
  rw [sum_const, card_range, nsmul_eq_mul]
  unfold distortion; ring

theorem lower (h : Near n d R b Q c η e) (y : ℕ → ℝ) :
    (1 - distortion d c η e) * ‖vc n (comb d R y)‖ ≤ ‖vcomb d b y‖ := by
  have h1 := h.dist y
  have e : Q (vc n (comb d R y)) = vcomb d b y - (vcomb d b y - Q (vc n (comb d R y))) := by abel
  have h2 : ‖vc n (comb d R y)‖ ≤ ‖vcomb d b y‖ + ‖vcomb d b y - Q (vc n (comb d R y))‖ := by
    rw [← LinearIsometryEquiv.norm_map Q (vc n (comb d R y))]
    nth_rewrite 1 [e]
    exact norm_sub_le _ _
  linarith

theorem upper (h : Near n d R b Q c η e) (y : ℕ → ℝ) :
    ‖vcomb d b y‖ ≤ (1 + distortion d c η e) * ‖vc n (comb d R y)‖ := by
  have h1 := h.dist y
  have e : vcomb d b y = Q (vc n (comb d R y)) + (vcomb d b y - Q (vc n (comb d R y))) := by abel
  have h2 : ‖vcomb d b y‖ ≤ ‖vc n (comb d R y)‖ + ‖vcomb d b y - Q (vc n (comb d R y))‖ := by
    rw [← LinearIsometryEquiv.norm_map Q (vc n (comb d R y))]
    nth_rewrite 1 [e]
    exact norm_add_le _ _
  linarith

theorem inner_near (h : Near n d R b Q c η e) (y z : ℕ → ℝ) :
    |inner ℝ (vcomb d b y) (vcomb d b z) - inner ℝ (vc n (comb d R y)) (vc n (comb d R z))| ≤
      (2 * distortion d c η e + distortion d c η e ^ 2) * (‖vc n (comb d R y)‖ * ‖vc n (comb d R z)‖) := by
  set g := distortion d c η e with hg
  have hg0 : 0 ≤ g := h.distortion_nonneg
  have h1 := h.dist y
  have h2 := h.dist z
  rw [← hg] at h1 h2
  set p := Q (vc n (comb d R y)) with hp
  set q := Q (vc n (comb d R z)) with hq
  set a := vcomb d b y
  set a' := vcomb d b z
  have hpn : ‖p‖ = ‖vc n (comb d R y)‖ := LinearIsometryEquiv.norm_map _ _
  have hqn : ‖q‖ = ‖vc n (comb d R z)‖ := LinearIsometryEquiv.norm_map _ _
  have hpq : inner ℝ (vc n (comb d R y)) (vc n (comb d R z)) = inner ℝ p q :=
    (LinearIsometryEquiv.inner_map_map Q _ _).symm
  rw [hpq, ← hpn, ← hqn]
  rw [← hpn] at h1
  rw [← hqn] at h2
  have e : inner ℝ a a' - inner ℝ p q = inner ℝ (a - p) q + inner ℝ p (a' - q) +
      inner ℝ (a - p) (a' - q) := by
    simp only [inner_sub_left, inner_sub_right]; ring
  rw [e]
  have b1 := (abs_real_inner_le_norm (a - p) q).trans (mul_le_mul_of_nonneg_right h1 (norm_nonneg q))
  have b2 := (abs_real_inner_le_norm p (a' - q)).trans (mul_le_mul_of_nonneg_left h2 (norm_nonneg p))
  have b3 := (abs_real_inner_le_norm (a - p) (a' - q)).trans
    (mul_le_mul h1 h2 (norm_nonneg _) (mul_nonneg hg0 (norm_nonneg _)))
  refine (abs_add_le _ _).trans ((add_le_add ((abs_add_le _ _).trans (add_le_add b1 b2)) b3).trans
    (le_of_eq ?_))
  ring

end Near
end HPLLL.Cert
