import Verif.Proof.FpCert
/-! Exact Gram–Schmidt quantities of a basis close to one with a reduced triangular factor. -/

namespace HPLLL.Cert
open Spec Finset Err InnerProductSpace

variable {n d : ℕ}

/-! ### combinations -/

theorem vcomb_congr {b : ℕ → E n} {y z : ℕ → ℝ} (h : ∀ j < d, y j = z j) : vcomb d b y = vcomb d b z :=
  sum_congr rfl fun j hj => by rw [h j (mem_range.mp hj)]

theorem vcomb_sub (b : ℕ → E n) (y z : ℕ → ℝ) :
    vcomb d b (fun l => y l - z l) = vcomb d b y - vcomb d b z := by
  unfold vcomb; rw [← sum_sub_distrib]; exact sum_congr rfl fun j _ => sub_smul _ _ _

theorem vcomb_smul (b : ℕ → E n) (a : ℝ) (y : ℕ → ℝ) :
    vcomb d b (fun l => a * y l) = a • vcomb d b y := by
  unfold vcomb; rw [smul_sum]; exact sum_congr rfl fun j _ => mul_smul _ _ _

theorem vcomb_sum {ι : Type*} (b : ℕ → E n) (S : Finset ι) (y : ι → ℕ → ℝ) :
    vcomb d b (fun l => ∑ i ∈ S, y i l) = ∑ i ∈ S, vcomb d b (y i) := by
  unfold vcomb
  rw [sum_comm]
  exact sum_congr rfl fun j _ => sum_smul

theorem vcomb_uv (b : ℕ → E n) {k : ℕ} (hk : k < d) : vcomb d b (uv k) = b k := by
  unfold vcomb
  rw [Finset.sum_eq_single k]
  · simp [uv]
  · intro j _ hj; simp [uv, hj]
  · intro h; exact absurd (mem_range.mpr hk) h

/-! ### Gram–Schmidt vectors as combinations -/

variable {b : ℕ → E n}

/-- The Gram–Schmidt vectors of `b 0, ..., b (d-1)`. -/
noncomputable def gsv (d : ℕ) (b : ℕ → E n) (k : Fin d) : E n := gramSchmidt ℝ (fun j : Fin d => b j) k

theorem rep_aux {m : ℕ} (k : Fin d) (hm : m ≤ k) (a : Fin d → ℝ)
    (hr : ∀ i : Fin d, (i : ℕ) < m → ∃ y : ℕ → ℝ, y i = 1 ∧ (∀ l, (i : ℕ) < l → y l = 0) ∧
      gsv d b i = vcomb d b y) :
    ∃ y : ℕ → ℝ, y k = 1 ∧ (∀ l, m ≤ l → l ≠ k → y l = 0) ∧
      b k - ∑ i ∈ univ.filter (fun i : Fin d => (i : ℕ) < m), a i • gsv d b i = vcomb d b y := by
  classical
  choose! Y h1 h2 h3 using hr
  have hz : ∀ l, m ≤ l → ∑ i ∈ univ.filter (fun i : Fin d => (i : ℕ) < m), a i * Y i l = 0 :=
    fun l hl => sum_eq_zero fun i hi => by
      have hi := (mem_filter.mp hi).2
      rw [h2 i hi l (by omega), mul_zero]
  refine ⟨fun l => uv k l - ∑ i ∈ univ.filter (fun i : Fin d => (i : ℕ) < m), a i * Y i l, ?_, ?_, ?_⟩
  · simp only []; rw [hz k hm]; simp [uv]
  · intro l hl hk; simp only []; rw [hz l hl]; simp [uv, hk]
  · rw [vcomb_sub, vcomb_uv b k.2, vcomb_sum]
    congr 1
    refine sum_congr rfl fun i hi => ?_
    rw [vcomb_smul, ← h3 i (mem_filter.mp hi).2]

/-- Gram–Schmidt coefficient. -/
noncomputable def muv (d : ℕ) (b : ℕ → E n) (k i : Fin d) : ℝ :=
  inner ℝ (gsv d b i) (b k) / ‖gsv d b i‖ ^ 2

theorem gsv_def (k : Fin d) : gsv d b k = b k -
    ∑ i ∈ univ.filter (fun i : Fin d => (i : ℕ) < k), muv d b k i • gsv d b i := by
  have := gramSchmidt_def'' ℝ (fun j : Fin d => b j) k
  rw [eq_sub_iff_add_eq]
  conv_rhs => rw [this]
  unfold gsv
  congr 1
  have : univ.filter (fun i : Fin d => (i : ℕ) < k) = Iio k := by
    ext i; rw [mem_filter, mem_Iio, Fin.lt_def]; exact ⟨fun h => h.2, fun h => ⟨mem_univ _, h⟩⟩
  rw [this]
  refine sum_congr rfl fun i _ => ?_
  unfold muv gsv
  norm_cast

theorem rep_gs (k : Fin d) : ∃ y : ℕ → ℝ, y k = 1 ∧ (∀ l, (k : ℕ) < l → y l = 0) ∧
    gsv d b k = vcomb d b y := by
  induction k using WellFoundedLT.induction with
  | ind k ih =>
    obtain ⟨y, h1, h2, h3⟩ := rep_aux (b := b) k (le_refl _) (muv d b k)
      (fun i hi => ih i (Fin.lt_def.mpr hi))
    exact ⟨y, h1, fun l hl => h2 l hl.le (by omega), by rw [gsv_def, h3]⟩

theorem gsv_orth {i j : Fin d} (h : i ≠ j) : inner ℝ (gsv d b i) (gsv d b j) = 0 :=
  gramSchmidt_orthogonal ℝ _ h

theorem gsv_b_lt {i k : Fin d} (h : i < k) : inner ℝ (gsv d b k) (b i) = 0 :=
  gramSchmidt_inv_triangular (𝕜 := ℝ) (fun j : Fin d => b j) h

theorem gsv_b_self (k : Fin d) : inner ℝ (gsv d b k) (b k) = ‖gsv d b k‖ ^ 2 := by
  have : b k = gsv d b k + ∑ i ∈ univ.filter (fun i : Fin d => (i : ℕ) < k), muv d b k i • gsv d b i := by
    rw [gsv_def k]; abel
  have e : inner ℝ (gsv d b k) (b k) = inner ℝ (gsv d b k) (gsv d b k +
      ∑ i ∈ univ.filter (fun i : Fin d => (i : ℕ) < k), muv d b k i • gsv d b i) := by rw [← this]
  rw [e, inner_add_right, real_inner_self_eq_norm_sq, inner_sum, Finset.sum_eq_zero, add_zero]
  intro i hi
  have hi := (mem_filter.mp hi).2
  rw [inner_smul_right, gsv_orth (by intro h; rw [h] at hi; omega), mul_zero]

/-- Inner product of `b*_k` with a combination supported by the indices up to `k`. -/
theorem gsv_comb (k : Fin d) (y : ℕ → ℝ) (h1 : ∀ l, (k : ℕ) < l → y l = 0) :
    inner ℝ (gsv d b k) (vcomb d b y) = y k * ‖gsv d b k‖ ^ 2 := by
  unfold vcomb
  rw [inner_sum, Finset.sum_eq_single (k : ℕ)]
  · rw [inner_smul_right, gsv_b_self]
  · intro j hj hjk
    have hj := mem_range.mp hj
    rcases Nat.lt_or_ge (k : ℕ) j with h | h
    · rw [h1 j h, zero_smul, inner_zero_right]
    · rw [inner_smul_right, gsv_b_lt (i := ⟨j, hj⟩) (Fin.lt_def.mpr (by simp only []; omega)), mul_zero]
  · intro h; exact absurd (mem_range.mpr k.2) h

/-! ### triangular solve -/

/-- Combination giving the diagonal: `R (sol k) = R_kk e_k`. -/
noncomputable def sol (R : ℕ → ℕ → ℝ) (k : ℕ) : ℕ → ℝ :=
  fun r => uv k r - ∑ l : Fin k, R k l / R l l * sol R l r
termination_by k
decreasing_by exact l.2

theorem sol_eq (R : ℕ → ℕ → ℝ) (k r : ℕ) :
    sol R k r = uv k r - ∑ l ∈ range k, R k l / R l l * sol R l r := by
  rw [sol, Fin.sum_univ_eq_sum_range (fun l => R k l / R l l * sol R l r)]

theorem sol_gt (R : ℕ → ℕ → ℝ) (k : ℕ) : ∀ r, k < r → sol R k r = 0 := by
  induction k using Nat.strong_induction_on with
  | _ k ih =>
    intro r hr
    rw [sol_eq, Finset.sum_eq_zero, sub_zero]
    · simp only [uv]; rw [if_neg (by omega)]
    · intro l hl
      have hl := mem_range.mp hl
      rw [ih l hl r (by omega), mul_zero]

theorem sol_self (R : ℕ → ℕ → ℝ) (k : ℕ) : sol R k k = 1 := by
  rw [sol_eq, Finset.sum_eq_zero, sub_zero]
  · simp [uv]
  · intro l hl
    rw [sol_gt R l k (mem_range.mp hl), mul_zero]

theorem comb_sub (R : ℕ → ℕ → ℝ) (y z : ℕ → ℝ) (r : ℕ) :
    comb d R (fun l => y l - z l) r = comb d R y r - comb d R z r := by
  unfold comb; rw [← sum_sub_distrib]; exact sum_congr rfl fun j _ => sub_mul _ _ _

theorem comb_sum {ι : Type*} (R : ℕ → ℕ → ℝ) (S : Finset ι) (a : ι → ℝ) (y : ι → ℕ → ℝ) (r : ℕ) :
    comb d R (fun l => ∑ i ∈ S, a i * y i l) r = ∑ i ∈ S, a i * comb d R (y i) r := by
  unfold comb
  simp only [sum_mul, mul_sum]
  rw [sum_comm]
  refine sum_congr rfl fun i _ => sum_congr rfl fun j _ => by ring

theorem comb_uv (R : ℕ → ℕ → ℝ) {k : ℕ} (hk : k < d) (r : ℕ) : comb d R (uv k) r = R k r := by
  unfold comb
  rw [Finset.sum_eq_single k]
  · simp [uv]
  · intro j _ hj; simp [uv, hj]
  · intro h; exact absurd (mem_range.mpr hk) h

namespace Near

variable {R : ℕ → ℕ → ℝ} {Q : E n ≃ₗᵢ[ℝ] E n} {c η e : ℝ}

theorem sol_comb (h : Near n d R b Q c η e) : ∀ k, k < d → ∀ r,
    comb d R (sol R k) r = if r = k then R k k else 0 := by
  intro k
  induction k using Nat.strong_induction_on with
  | _ k ih =>
    intro hk r
    have e1 : sol R k = fun l => uv k l - ∑ i ∈ range k, R k i / R i i * sol R i l :=
      funext fun l => sol_eq R k l
    rw [e1, comb_sub, comb_uv R hk, comb_sum]
    have : ∀ i ∈ range k, R k i / R i i * comb d R (sol R i) r = if r = i then R k r else 0 := by
      intro i hi
      have hi := mem_range.mp hi
      rw [ih i hi (by omega) r]
      have := h.diag i (by omega)
      split
      · rename_i hr; subst hr; field_simp
      · ring
    rw [sum_congr rfl this]
    by_cases hr : r < k
    · rw [Finset.sum_eq_single r]
      · rw [if_pos rfl, if_neg (by omega)]; ring
      · intro j _ hj; rw [if_neg (Ne.symm hj)]
      · intro hm; exact absurd (mem_range.mpr hr) hm
    · rw [Finset.sum_eq_zero, sub_zero]
      · by_cases h2 : r = k
        · rw [if_pos h2, h2]
        · rw [if_neg h2, h.up k r (by omega)]
      · intro i hi
        have := mem_range.mp hi
        rw [if_neg (by omega)]

theorem sol_norm (h : Near n d R b Q c η e) {k : ℕ} (hk : k < d) :
    ‖vc n (comb d R (sol R k))‖ = |R k k| := by
  have e1 : vc n (comb d R (sol R k)) = R k k • vc n (uv k) := by
    rw [vc_smul]
    refine vc_congr fun r _ => ?_
    rw [h.sol_comb k hk r]
    unfold uv; split <;> simp
  have := h.dn
  rw [e1, norm_smul, norm_uv (by omega), mul_one, Real.norm_eq_abs]

/-- Row `k` of a combination supported by the indices up to `k`. -/
theorem comb_last (h : Near n d R b Q c η e) {k : ℕ} (hk : k < d) {y : ℕ → ℝ}
    (hy : ∀ l, k < l → y l = 0) : comb d R y k = y k * R k k := by
  rw [h.comb_row y hk, Finset.sum_eq_zero, add_zero]
  intro t _
  rw [hy _ (by omega), zero_mul]

theorem comb_gt (h : Near n d R b Q c η e) {i k : ℕ} (hik : i < k) {y : ℕ → ℝ}
    (hy : ∀ l, i < l → y l = 0) : comb d R y k = 0 := by
  unfold comb
  refine sum_eq_zero fun j _ => ?_
  by_cases hj : i < j
  · rw [hy j hj, zero_mul]
  · rw [h.up j k (by omega), mul_zero]

theorem gs_lower (h : Near n d R b Q c η e) (hg : distortion d c η e < 1) (k : Fin d) :
    (1 - distortion d c η e) * |R k k| ≤ ‖gsv d b k‖ := by
  obtain ⟨y, h1, h2, h3⟩ := rep_gs (b := b) k
  rw [h3]
  refine le_trans ?_ (h.lower y)
  refine mul_le_mul_of_nonneg_left ?_ (by linarith)
  have := abs_le_norm (n := n) (r := k) (by have := h.dn; omega) (comb d R y)
  rwa [h.comb_last k.2 h2, h1, one_mul] at this

theorem gs_pos (h : Near n d R b Q c η e) (hg : distortion d c η e < 1) (k : Fin d) : 0 < ‖gsv d b k‖ :=
  lt_of_lt_of_le (mul_pos (by linarith) (abs_pos.mpr (h.diag k k.2))) (h.gs_lower hg k)

theorem gs_upper (h : Near n d R b Q c η e) (hg : distortion d c η e < 1) (k : Fin d) :
    ‖gsv d b k‖ ≤ (1 + distortion d c η e) * |R k k| := by
  have h1 := h.upper (sol R k)
  rw [h.sol_norm k.2] at h1
  refine le_trans ?_ h1
  have h2 := gsv_comb (b := b) k (sol R k) (sol_gt R k)
  rw [sol_self, one_mul] at h2
  have h3 := real_inner_le_norm (gsv d b k) (vcomb d b (sol R k))
  rw [h2] at h3
  have := h.gs_pos hg k
  nlinarith

/-- Exact Lovász condition. -/
theorem gs_lovasz (h : Near n d R b Q c η e) (hg : distortion d c η e < 1) {δ : ℝ} (hδ : 0 ≤ δ)
    (k k' : Fin d) (hk : (k : ℕ) + 1 = k')
    (hl : δ * R k k ^ 2 ≤ R k' k' ^ 2 + R k' k ^ 2) :
    δ * ((1 - distortion d c η e) / (1 + distortion d c η e)) ^ 2 * ‖gsv d b k‖ ^ 2 ≤
      ‖gsv d b k'‖ ^ 2 + muv d b k' k ^ 2 * ‖gsv d b k‖ ^ 2 := by
  set g := distortion d c η e with hgd
  have hg0 : 0 ≤ g := h.distortion_nonneg
  obtain ⟨y, h1, h2, h3⟩ := rep_aux (b := b) (m := (k : ℕ)) k' (by omega) (muv d b k')
    (fun i _ => rep_gs i)
  have hp : vcomb d b y = gsv d b k' + muv d b k' k • gsv d b k := by
    rw [← h3, gsv_def k']
    have : univ.filter (fun i : Fin d => (i : ℕ) < k') =
        insert k (univ.filter (fun i : Fin d => (i : ℕ) < k)) := by
      ext i; simp only [mem_filter, mem_univ, true_and, mem_insert, Fin.ext_iff]; omega
    rw [this, sum_insert (by simp)]
    abel
  have hne : k' ≠ k := by intro hh; rw [hh] at hk; omega
  have hnorm : ‖vcomb d b y‖ ^ 2 = ‖gsv d b k'‖ ^ 2 + muv d b k' k ^ 2 * ‖gsv d b k‖ ^ 2 := by
    rw [hp, norm_add_sq_real, inner_smul_right, gsv_orth hne, norm_smul, mul_pow, Real.norm_eq_abs,
      sq_abs]
    ring
  rw [← hnorm]
  have hlow := h.lower y
  rw [← hgd] at hlow
  have hR : R k' k' ^ 2 + R k' k ^ 2 ≤ ‖vc n (comb d R y)‖ ^ 2 := by
    have e1 : comb d R y k' = R k' k' := by
      rw [h.comb_last k'.2 (fun l hl => h2 l (by omega) (by omega)), h1, one_mul]
    have e2 : comb d R y k = R k' k := by
      rw [h.comb_row y k.2, h2 k (le_refl _) (by omega), zero_mul, zero_add,
        Finset.sum_eq_single 0]
      · rw [show (k : ℕ) + 1 + 0 = k' by omega, h1, one_mul]
      · intro t _ ht; rw [h2 _ (by omega) (by omega), zero_mul]
      · intro hm; exfalso; apply hm; rw [mem_range]; have := k'.2; omega
    rw [norm_sq_vc, ← e1, ← e2]
    have hdn := h.dn
    have hsub : ({(k' : ℕ), (k : ℕ)} : Finset ℕ) ⊆ range n := by
      intro x hx
      rw [mem_insert, mem_singleton] at hx
      rw [mem_range]; rcases hx with rfl | rfl <;> omega
    have := sum_le_sum_of_subset_of_nonneg (f := fun r => comb d R y r * comb d R y r) hsub
      (fun r _ _ => mul_self_nonneg _)
    rw [sum_pair (by omega)] at this
    calc _ = comb d R y k' * comb d R y k' + comb d R y k * comb d R y k := by ring
      _ ≤ _ := this
  have hup := h.gs_upper hg k
  rw [← hgd] at hup
  have hn0 := norm_nonneg (vc n (comb d R y))
  have hb0 := norm_nonneg (gsv d b k)
  have h5 : ((1 - g) * ‖vc n (comb d R y)‖) ^ 2 ≤ ‖vcomb d b y‖ ^ 2 :=
    pow_le_pow_left₀ (mul_nonneg (by linarith) hn0) hlow 2
  have h6 : ‖gsv d b k‖ ^ 2 ≤ ((1 + g) * |R k k|) ^ 2 := pow_le_pow_left₀ hb0 hup 2
  rw [mul_pow, sq_abs] at h6
  have h1g : 0 < 1 + g := by linarith
  calc δ * ((1 - g) / (1 + g)) ^ 2 * ‖gsv d b k‖ ^ 2
      ≤ δ * ((1 - g) / (1 + g)) ^ 2 * ((1 + g) ^ 2 * R k k ^ 2) :=
        mul_le_mul_of_nonneg_left h6 (by positivity)
    _ = (1 - g) ^ 2 * (δ * R k k ^ 2) := by field_simp
    _ ≤ (1 - g) ^ 2 * ‖vc n (comb d R y)‖ ^ 2 :=
        mul_le_mul_of_nonneg_left (hl.trans hR) (by positivity)
    _ = ((1 - g) * ‖vc n (comb d R y)‖) ^ 2 := by ring
    _ ≤ _ := h5

/-- Exact size condition (with a term for the length of the reduced vector). -/
theorem gs_size (h : Near n d R b Q c η e) (hg : distortion d c η e < 1) (k i : Fin d) (hik : i < k) :
    |muv d b k i| * ‖gsv d b i‖ ≤ η * ‖gsv d b i‖ +
      (2 * distortion d c η e + distortion d c η e ^ 2) / (1 - distortion d c η e) ^ 2 * (c * (1 + η)) ^ (d - 1) *
        ‖gsv d b k‖ := by
  set g := distortion d c η e with hgd
  have hg0 : 0 ≤ g := h.distortion_nonneg
  have hg1 : 0 < 1 - g := by linarith
  have hik' : (i : ℕ) < k := hik
  have hpos := h.gs_pos hg i
  -- `b_k` as a combination of the `sol l`
  have hbk : b k = ∑ l ∈ range ((k : ℕ) + 1), (R k l / R l l) • vcomb d b (sol R l) := by
    have e1 : uv (k : ℕ) = fun r => ∑ l ∈ range ((k : ℕ) + 1), R k l / R l l * sol R l r := by
      funext r
      rw [sum_range_succ, div_self (h.diag k k.2), one_mul, sol_eq R k r]; ring
    rw [← vcomb_uv b k.2, e1, vcomb_sum]
    exact sum_congr rfl fun l _ => vcomb_smul _ _ _
  obtain ⟨y, y1, y2, y3⟩ := rep_gs (b := b) i
  have hyn : ‖vc n (comb d R y)‖ ≤ ‖gsv d b i‖ / (1 - g) := by
    rw [le_div_iff₀ hg1, y3, mul_comm]; exact h.lower y
  -- terms
  have hterm : ∀ l ∈ range ((k : ℕ) + 1), |inner ℝ (gsv d b i) ((R k l / R l l) • vcomb d b (sol R l))| ≤
      (if l = (i : ℕ) then η * ‖gsv d b i‖ ^ 2 else 0) +
        |R k l| * ((2 * g + g ^ 2) * (‖gsv d b i‖ / (1 - g))) := by
    intro l hl
    have hl := mem_range.mp hl
    have hld : l < d := by have := k.2; omega
    have hr0 : 0 < |R l l| := abs_pos.mpr (h.diag l hld)
    have hnn : 0 ≤ |R k l| * ((2 * g + g ^ 2) * (‖gsv d b i‖ / (1 - g))) := by positivity
    rw [inner_smul_right, abs_mul, abs_div]
    rcases Nat.lt_trichotomy l i with hlt | heq | hgt
    · rw [gsv_comb i (sol R l) (fun t ht => sol_gt R l t (by omega)), sol_gt R l i hlt, zero_mul,
        abs_zero, mul_zero, if_neg (by omega), zero_add]
      exact hnn
    · rw [if_pos heq, heq, gsv_comb i (sol R i) (sol_gt R i), sol_self, one_mul,
        abs_of_nonneg (by positivity : 0 ≤ ‖gsv d b i‖ ^ 2)]
      rw [heq] at hr0
      have a := h.siz k k.2 i hik'
      have a' : |R k i| / |R i i| ≤ η := by rw [div_le_iff₀ hr0]; exact a
      have := mul_le_mul_of_nonneg_right a' (by positivity : 0 ≤ ‖gsv d b i‖ ^ 2)
      rw [heq] at hnn
      linarith
    · rw [if_neg (by omega), zero_add, y3]
      have a := h.inner_near y (sol R l)
      have e0 : inner ℝ (vc n (comb d R y)) (vc n (comb d R (sol R l))) = 0 := by
        rw [inner_vc]
        refine sum_eq_zero fun r _ => ?_
        rw [h.sol_comb l hld r]
        split
        · rename_i hr; rw [hr, h.comb_gt hgt y2, zero_mul]
        · rw [mul_zero]
      rw [e0, sub_zero, h.sol_norm hld, ← hgd] at a
      rw [← y3] at a ⊢
      calc |R k l| / |R l l| * |inner ℝ (gsv d b i) (vcomb d b (sol R l))|
          ≤ |R k l| / |R l l| * ((2 * g + g ^ 2) * (‖vc n (comb d R y)‖ * |R l l|)) :=
            mul_le_mul_of_nonneg_left a (by positivity)
        _ = |R k l| * ((2 * g + g ^ 2) * ‖vc n (comb d R y)‖) := by field_simp
        _ ≤ _ := mul_le_mul_of_nonneg_left (mul_le_mul_of_nonneg_left hyn (by positivity))
            (abs_nonneg _)
  have hsum : |inner ℝ (gsv d b i) (b k)| ≤ η * ‖gsv d b i‖ ^ 2 +
      (c * (1 + η)) ^ (d - 1) * |R k k| * ((2 * g + g ^ 2) * (‖gsv d b i‖ / (1 - g))) := by
    rw [hbk, inner_sum]
    refine (Finset.abs_sum_le_sum_abs _ _).trans ((sum_le_sum hterm).trans ?_)
    rw [sum_add_distrib, sum_ite_eq' (range ((k : ℕ) + 1)) (i : ℕ), if_pos (mem_range.mpr (by omega)),
      ← sum_mul]
    have a := h.col_abs k.2
    have hq : (c * (1 + η)) ^ (k : ℕ) ≤ (c * (1 + η)) ^ (d - 1) :=
      pow_le_pow_right₀ h.q1 (by have := k.2; omega)
    have a' := a.trans (mul_le_mul_of_nonneg_right hq (abs_nonneg _))
    have hnn : 0 ≤ (2 * g + g ^ 2) * (‖gsv d b i‖ / (1 - g)) := by positivity
    have := mul_le_mul_of_nonneg_right a' hnn
    linarith
  have hmu : |muv d b k i| * ‖gsv d b i‖ = |inner ℝ (gsv d b i) (b k)| / ‖gsv d b i‖ := by
    unfold muv
    rw [abs_div, abs_of_nonneg (by positivity : 0 ≤ ‖gsv d b i‖ ^ 2)]
    field_simp
  rw [hmu, div_le_iff₀ hpos]
  refine hsum.trans ?_
  have hRk : |R k k| ≤ ‖gsv d b k‖ / (1 - g) := by
    rw [le_div_iff₀ hg1, mul_comm]; exact h.gs_lower hg k
  have hq0 : 0 ≤ (c * (1 + η)) ^ (d - 1) := by have := h.q1; positivity
  have := mul_le_mul_of_nonneg_right (mul_le_mul_of_nonneg_left hRk hq0)
    (by positivity : 0 ≤ (2 * g + g ^ 2) * (‖gsv d b i‖ / (1 - g)))
  calc _ ≤ η * ‖gsv d b i‖ ^ 2 + (c * (1 + η)) ^ (d - 1) * (‖gsv d b k‖ / (1 - g)) *
        ((2 * g + g ^ 2) * (‖gsv d b i‖ / (1 - g))) := by linarith
    _ = _ := by field_simp

/-- The first vector against any nonzero integer combination. -/
theorem first (h : Near n d R b Q c η e) (hg : distortion d c η e < 1) (hd : 0 < d) (z : ℕ → ℤ)
    (hz : ∃ j < d, z j ≠ 0) :
    (1 - e) * (1 - distortion d c η e) * ‖b 0‖ ≤ c ^ (d - 1) * ‖vcomb d b (fun j => (z j : ℝ))‖ := by
  classical
  have hdn := h.dn
  -- last non zero coefficient
  obtain ⟨k, hk, hzk, hlast⟩ : ∃ k, k < d ∧ z k ≠ 0 ∧ ∀ l, k < l → l < d → z l = 0 := by
    have hne : ((range d).filter fun j => z j ≠ 0).Nonempty := by
      obtain ⟨j, hj, hzj⟩ := hz
      exact ⟨j, mem_filter.mpr ⟨mem_range.mpr hj, hzj⟩⟩
    refine ⟨((range d).filter fun j => z j ≠ 0).max' hne, ?_, ?_, ?_⟩
    · exact mem_range.mp (mem_filter.mp (max'_mem _ hne)).1
    · exact (mem_filter.mp (max'_mem _ hne)).2
    · intro l hl hld
      by_contra hc
      have := le_max' ((range d).filter fun j => z j ≠ 0) l (mem_filter.mpr ⟨mem_range.mpr hld, hc⟩)
      omega
  have hrow : comb d R (fun j => (z j : ℝ)) k = z k * R k k := by
    rw [h.comb_row _ hk, Finset.sum_eq_zero, add_zero]
    intro t ht
    have := mem_range.mp ht
    rw [hlast _ (by omega) (by omega)]; simp
  have h1 : |R k k| ≤ ‖vc n (comb d R (fun j => (z j : ℝ)))‖ := by
    have := abs_le_norm (n := n) (r := k) (by omega) (comb d R (fun j => (z j : ℝ)))
    rw [hrow, abs_mul] at this
    have hz1 : (1 : ℝ) ≤ |(z k : ℝ)| := by
      have : 1 ≤ |z k| := Int.one_le_abs hzk
      exact_mod_cast this
    have := abs_nonneg (R k k)
    nlinarith
  have h2 := h.lower (fun j => (z j : ℝ))
  have h3 := h.lov' 0 k (by omega)
  rw [zero_add] at h3
  have h4 : c ^ k ≤ c ^ (d - 1) := pow_le_pow_right₀ h.c1 (by omega)
  have h5 : (1 - e) * ‖b 0‖ ≤ |R 0 0| := by
    have a := h.near 0 hd
    have a2 := h.col_norm hd
    rw [pow_zero, one_mul] at a2
    have : ‖b 0‖ ≤ ‖Q (vc n (R 0))‖ + ‖Q (vc n (R 0)) - b 0‖ := by
      have e1 : b 0 = Q (vc n (R 0)) - (Q (vc n (R 0)) - b 0) := by abel
      nth_rewrite 1 [e1]
      exact norm_sub_le _ _
    rw [LinearIsometryEquiv.norm_map] at this
    linarith
  have hg1 : 0 < 1 - distortion d c η e := by linarith
  have hc0 : 0 ≤ c ^ (d - 1) := by have := h.c1; positivity
  calc (1 - e) * (1 - distortion d c η e) * ‖b 0‖ = (1 - distortion d c η e) * ((1 - e) * ‖b 0‖) := by ring
    _ ≤ (1 - distortion d c η e) * (c ^ (d - 1) * ‖vc n (comb d R (fun j => (z j : ℝ)))‖) :=
      mul_le_mul_of_nonneg_left (h5.trans (h3.trans (mul_le_mul h4 h1 (abs_nonneg _) hc0))) hg1.le
    _ = c ^ (d - 1) * ((1 - distortion d c η e) * ‖vc n (comb d R (fun j => (z j : ℝ)))‖) := by ring
    _ ≤ _ := mul_le_mul_of_nonneg_left h2 hc0

end Near
end HPLLL.Cert
