import Verif.Proof.FpErrDot
/-! Rounding errors: construction of one reflection. -/

namespace HPLLL.Err
open Spec Finset

variable {F : Type} {o : FPOps F} {val : F → ℝ} {u : ℝ}

/-- Unit vector. -/
def uv (k : ℕ) : ℕ → ℝ := fun r => if r = k then 1 else 0

theorem inner_uv {n k : ℕ} (hk : k < n) (x : ℕ → ℝ) : inner ℝ (vc n x) (vc n (uv k)) = x k := by
  rw [inner_vc, Finset.sum_eq_single k]
  · simp [uv]
  · intro b _ hb; simp [uv, hb]
  · intro h; exact absurd (mem_range.mpr hk) h

theorem norm_uv {n k : ℕ} (hk : k < n) : ‖vc n (uv k)‖ = 1 := by
  have : ‖vc n (uv k)‖ ^ 2 = 1 := by
    rw [← real_inner_self_eq_norm_sq, inner_uv hk]; simp [uv]
  nlinarith [norm_nonneg (vc n (uv k))]

theorem inner_tl_self {n k : ℕ} (hk : k ≤ n) (x : ℕ → ℝ) :
    inner ℝ (vc n (tl k x)) (vc n x) = ‖vc n (tl k x)‖ ^ 2 := by
  rw [inner_tl hk, norm_sq_vc, sum_tl hk]
  refine sum_congr rfl fun i _ => ?_
  simp [tl]

theorem fnorm_rel (h : StdModel o val u) {n k : ℕ} (hk : k < n) (y : ℕ → F) :
    Rel (1 / (1 - u)) (n + 1) ‖vc n (tl k (val ∘ y))‖ (val (fnorm o n k y)) := by
  have hκ1 := kap_one h
  have h1 := (fdot_rel h hk y).mono hκ1 (by omega : n - k ≤ 2 * n)
  obtain ⟨e, he, h2⟩ := h.sqrt (fdot o n k y y) (h1.nonneg (by positivity))
  have h3 := h1.sqrt hκ1 (by positivity)
  rw [Real.sqrt_sq (norm_nonneg _)] at h3
  exact h3.trans (Rel.of_err h.u1 he h2)

/-- Signed norm. -/
noncomputable def sg (n k : ℕ) (y : ℕ → ℝ) : ℝ :=
  if 0 ≤ y k then ‖vc n (tl k y)‖ else -‖vc n (tl k y)‖

theorem sg_sq (n k : ℕ) (y : ℕ → ℝ) : sg n k y ^ 2 = ‖vc n (tl k y)‖ ^ 2 := by
  unfold sg; split <;> ring

theorem le_zero (h : StdModel o val u) (a : F) : o.le o.zero a = true ↔ 0 ≤ val a := by
  rw [h.le, h.zero]

theorem fsig_rel (h : StdModel o val u) {n k : ℕ} (hk : k < n) (y : ℕ → F) :
    Rel (1 / (1 - u)) (n + 1) (sg n k (val ∘ y)) (val (fsig o n k y)) := by
  unfold sg fsig
  have := fnorm_rel h hk y
  by_cases hw : 0 ≤ val (y k)
  · rw [if_pos ((le_zero h _).mpr hw), if_pos (by exact hw)]; exact this
  · rw [if_neg (by exact hw), if_neg (by rw [le_zero h]; exact hw), h.neg]; exact this.neg

theorem top_rel (h : StdModel o val u) {n k : ℕ} (hk : k < n) (y : ℕ → F) :
    Rel (1 / (1 - u)) (n + 2) (val (y k) + sg n k (val ∘ y))
      (val (o.add (y k) (fsig o n k y))) := by
  have hκ1 := kap_one h
  obtain ⟨e, he, h1⟩ := h.add (y k) (fsig o n k y)
  have r := fsig_rel h hk y
  have r0 : Rel (1 / (1 - u)) (n + 1) (val (y k)) (val (y k)) := (Rel.rfl' _).mono hκ1 (by omega)
  have r2 : Rel (1 / (1 - u)) (n + 1) (val (y k) + sg n k (val ∘ y))
      (val (y k) + val (fsig o n k y)) := by
    by_cases hw : 0 ≤ val (y k)
    · refine Rel.add hκ1 r0 r hw ?_
      unfold sg; rw [if_pos (by exact hw)]; exact norm_nonneg _
    · have := Rel.add hκ1 r0.neg r.neg (by linarith) (by
        unfold sg; rw [if_neg (by exact hw), neg_neg]; exact norm_nonneg _)
      have := this.neg
      rwa [neg_add, neg_neg, neg_neg, neg_add, neg_neg, neg_neg] at this
  exact r2.trans (Rel.of_err h.u1 he h1)

/-- `σ (y_k + σ)`. -/
noncomputable def cc (n k : ℕ) (y : ℕ → ℝ) : ℝ := sg n k y * (y k + sg n k y)

theorem cc_eq (n k : ℕ) (y : ℕ → ℝ) : cc n k y = ‖vc n (tl k y)‖ ^ 2 + sg n k y * y k := by
  unfold cc; rw [mul_add, ← pow_two, sg_sq]; ring

theorem cc_pos {n k : ℕ} (y : ℕ → ℝ) (hT : 0 < ‖vc n (tl k y)‖) : 0 < cc n k y := by
  rw [cc_eq]
  have : 0 ≤ sg n k y * y k := by
    unfold sg; split
    · positivity
    · rename_i hh; push Not at hh; nlinarith
  positivity

theorem fscal_rel (h : StdModel o val u) {n k : ℕ} (hk : k < n) (y : ℕ → F)
    (hT : 0 < ‖vc n (tl k (val ∘ y))‖) :
    Rel (1 / (1 - u)) (n + 3) (Real.sqrt (cc n k (val ∘ y))) (val (fscal o n k y)) := by
  have hκ1 := kap_one h
  have hc := cc_pos (val ∘ y) hT
  obtain ⟨e, he, h1⟩ := h.mul (fsig o n k y) (o.add (y k) (fsig o n k y))
  have r := ((fsig_rel h hk y).mul (top_rel h hk y)).trans (Rel.of_err h.u1 he h1)
  have r' : Rel (1 / (1 - u)) (2 * (n + 2)) (cc n k (val ∘ y))
    (val (o.mul (fsig o n k y) (o.add (y k) (fsig o n k y)))) := r.mono hκ1 (by omega)
  obtain ⟨e', he', h2⟩ := h.sqrt _ (r'.nonneg hc.le)
  exact (r'.sqrt hκ1 hc.le).trans (Rel.of_err h.u1 he' h2)

/-- The exact reflection vector (norm `√2`). -/
noncomputable def vs (n k : ℕ) (y : ℕ → ℝ) : ℕ → ℝ :=
  fun r => (tl k y r + sg n k y * uv k r) / Real.sqrt (cc n k y)

theorem vs_eq (n k : ℕ) (y : ℕ → ℝ) : vc n (vs n k y) =
    (Real.sqrt (cc n k y))⁻¹ • (vc n (tl k y) + sg n k y • vc n (uv k)) := by
  rw [vc_smul, vc_add, vc_smul]
  refine vc_congr fun r _ => ?_
  unfold vs; ring

theorem vs_norm_sq {n k : ℕ} (hk : k < n) (y : ℕ → ℝ) (hT : 0 < ‖vc n (tl k y)‖) :
    ‖vc n (vs n k y)‖ ^ 2 = 2 := by
  have hc := cc_pos y hT
  rw [vs_eq, norm_smul, mul_pow, norm_inv, Real.norm_of_nonneg (Real.sqrt_nonneg _), inv_pow,
    Real.sq_sqrt hc.le, norm_add_sq_real, inner_smul_right, inner_uv hk, norm_smul, norm_uv hk, mul_one,
    Real.norm_eq_abs, sq_abs, sg_sq]
  have e : tl k y k = y k := by simp [tl]
  rw [e]
  have := cc_eq n k y
  field_simp
  linarith

theorem vs_inner {n k : ℕ} (hk : k < n) (y : ℕ → ℝ) (hT : 0 < ‖vc n (tl k y)‖) :
    inner ℝ (vc n (vs n k y)) (vc n y) = Real.sqrt (cc n k y) := by
  have hc := cc_pos y hT
  rw [vs_eq, inner_smul_left, inner_add_left, inner_smul_left, inner_tl_self hk.le,
    real_inner_comm, inner_uv hk]
  simp only [conj_trivial]
  rw [← cc_eq, inv_mul_eq_div, Real.div_sqrt]

/-- The exact reflected vector. -/
theorem vs_reflect {n k : ℕ} (hk : k < n) (y : ℕ → ℝ) (hT : 0 < ‖vc n (tl k y)‖) :
    vc n y - inner ℝ (vc n (vs n k y)) (vc n y) • vc n (vs n k y) =
      vc n fun r => if r < k then y r else if r = k then -sg n k y else 0 := by
  have hc := cc_pos y hT
  rw [vs_inner hk y hT, vs_eq, smul_smul, mul_inv_cancel₀ (Real.sqrt_pos.mpr hc).ne', one_smul, vc_smul,
    vc_add, vc_sub]
  refine vc_congr fun r _ => ?_
  unfold tl uv
  by_cases h1 : r < k
  · rw [if_pos h1, if_neg (by omega), if_neg (by omega)]; ring
  · by_cases h2 : r = k
    · rw [if_neg h1, if_pos h2, if_pos (by omega), if_pos h2]; ring
    · rw [if_neg h1, if_neg h2, if_pos (by omega), if_neg h2]; ring

theorem sq_dist {n m : ℕ} {κ : ℝ} {x y : ℕ → ℝ} (h : ∀ r < n, Rel κ m (x r) (y r)) :
    |‖vc n y‖ ^ 2 - ‖vc n x‖ ^ 2| ≤ (κ ^ (m + m) - 1) * ‖vc n x‖ ^ 2 := by
  rw [norm_sq_vc, norm_sq_vc, ← Finset.sum_sub_distrib, Finset.mul_sum]
  refine (Finset.abs_sum_le_sum_abs _ _).trans (sum_le_sum fun r hr => ?_)
  have := ((h r (mem_range.mp hr)).mul (h r (mem_range.mp hr))).abs_sub
  rwa [abs_mul_self] at this

theorem dist_rel {n m : ℕ} {κ : ℝ} (hκ : 1 ≤ κ) {x y : ℕ → ℝ} (h : ∀ r < n, Rel κ m (x r) (y r)) :
    ‖vc n y - vc n x‖ ≤ (κ ^ m - 1) * ‖vc n x‖ ∧ ‖vc n y‖ ≤ κ ^ m * ‖vc n x‖ := by
  have hp : 1 ≤ κ ^ m := one_le_pow₀ hκ
  constructor
  · rw [vc_sub]
    have := norm_vc_comb (n := n) (x := fun r => y r - x r) (y := x) (z := x) (a := κ ^ m - 1) (b := 0)
      (by linarith) (le_refl _) (fun r hr => by rw [zero_mul, add_zero]; exact (h r hr).abs_sub)
    simpa using this
  · have := norm_vc_comb (n := n) (x := y) (y := x) (z := x) (a := κ ^ m) (b := 0)
      (by linarith) (le_refl _) (fun r hr => by rw [zero_mul, add_zero]; exact (h r hr).abs_le)
    simpa using this

/-- Construction of a reflection in floating point: it is close to a reflection which maps the column
close to the computed column of `R`. -/
theorem con_err (h : StdModel o val u) {n k : ℕ} (hk : k < n) (y v : ℕ → F) (rkk : F)
    (hd : rkk = if o.le o.zero (y k) then o.neg (fnorm o n k y) else fnorm o n k y)
    (hv : v k = o.div (o.add (y k) (fsig o n k y)) (fscal o n k y))
    (hl : ∀ r, k < r → r < n → o.isZero (fscal o n k y) = false → v r = o.div (y r) (fscal o n k y))
    (hz : val rkk ≠ 0) :
    vc n (tl k (val ∘ v)) ≠ 0 ∧
    |‖vc n (tl k (val ∘ v))‖ ^ 2 - 2| ≤ 2 * (((1 / (1 - u)) ^ (2 * n + 6)) ^ 2 - 1) ∧
    ‖refl (vc n (tl k (val ∘ v))) (vc n (val ∘ y)) -
      vc n (fun r => if r < k then val (y r) else if r = k then val rkk else 0)‖ ≤
      hhErr n u * ‖vc n (val ∘ y)‖ := by
  set κ := 1 / (1 - u) with hκ
  have hκ1 : 1 ≤ κ := kap_one h
  set A := κ ^ (2 * n + 6) with hA
  have hA1 : 1 ≤ A := one_le_pow₀ hκ1
  have hrs : val rkk = - val (fsig o n k y) := by
    rw [hd]; unfold fsig
    split
    · exact h.neg _
    · rw [h.neg, neg_neg]
  have hT : 0 < ‖vc n (tl k (val ∘ y))‖ := by
    have hsr := fsig_rel h hk y
    have : sg n k (val ∘ y) ≠ 0 := fun h0 => hz (by rw [hrs, hsr.zero_iff.mpr h0, neg_zero])
    refine lt_of_le_of_ne (norm_nonneg _) fun h0 => this ?_
    unfold sg; rw [← h0]; simp
  have hc := cc_pos (val ∘ y) hT
  have hcs : 0 < Real.sqrt (cc n k (val ∘ y)) := Real.sqrt_pos.mpr hc
  have rsc := fscal_rel h hk y hT
  have hsc : val (fscal o n k y) ≠ 0 := (rsc.pos hcs).ne'
  have hisz : o.isZero (fscal o n k y) = false := by
    cases e : o.isZero (fscal o n k y)
    · rfl
    · exact absurd ((h.isZero _).mp e) hsc
  have hrel : ∀ r < n, Rel κ (2 * n + 6) (vs n k (val ∘ y) r) (tl k (val ∘ v) r) := by
    intro r hr
    by_cases h1 : r < k
    · have e1 : vs n k (val ∘ y) r = 0 := by
        unfold vs tl uv; rw [if_neg (by omega), if_neg (by omega)]; simp
      have e2 : tl k (val ∘ v) r = 0 := by unfold tl; rw [if_neg (by omega)]
      rw [e1, e2]; exact (Rel.rfl' _).mono hκ1 (by omega)
    · by_cases h2 : r = k
      · subst h2
        have e1 : vs n r (val ∘ y) r = (val (y r) + sg n r (val ∘ y)) / Real.sqrt (cc n r (val ∘ y)) := by
          unfold vs tl uv; simp
        have e2 : tl r (val ∘ v) r = val (v r) := by unfold tl; simp
        rw [e1, e2, hv]
        obtain ⟨e, he, h3⟩ := h.div (o.add (y r) (fsig o n r y)) (fscal o n r y) hsc
        exact (((top_rel h hr y).div rsc).trans (Rel.of_err h.u1 he h3)).mono hκ1 (by omega)
      · have e1 : vs n k (val ∘ y) r = val (y r) / Real.sqrt (cc n k (val ∘ y)) := by
          unfold vs tl uv; rw [if_pos (by omega), if_neg h2]; simp
        have e2 : tl k (val ∘ v) r = val (v r) := by unfold tl; rw [if_pos (by omega)]; rfl
        rw [e1, e2, hl r (by omega) hr hisz]
        obtain ⟨e, he, h3⟩ := h.div (y r) (fscal o n k y) hsc
        exact (((Rel.rfl' (val (y r))).div rsc).trans (Rel.of_err h.u1 he h3)).mono hκ1 (by omega)
  have hns := vs_norm_sq hk (val ∘ y) hT
  have hsq := sq_dist hrel
  rw [hns, pow_add, ← hA] at hsq
  obtain ⟨hd1, hd2⟩ := dist_rel hκ1 hrel
  rw [← hA] at hd1 hd2
  set vv := vc n (tl k (val ∘ v)) with hvv
  set ww := vc n (vs n k (val ∘ y)) with hww
  set Y := vc n (val ∘ y) with hY
  have hη : |‖vv‖ ^ 2 - 2| ≤ 2 * (A ^ 2 - 1) := by
    refine hsq.trans (le_of_eq (by ring))
  have hv0 : vv ≠ 0 := by
    intro h0
    have e : ∀ r < n, vs n k (val ∘ y) r = 0 := by
      intro r hr
      have e1 : tl k (val ∘ v) r = 0 := by
        have := congrArg (fun w : E n => w ⟨r, hr⟩) h0
        simpa [hvv, vc] using this
      exact (hrel r hr).zero_iff.mp e1
    have : ww = 0 := by
      rw [hww, vc_congr (y := fun _ => 0) e]; ext i; simp [vc]
    rw [this] at hns
    simp at hns
  refine ⟨hv0, hη, ?_⟩
  have n1 := refl_near (y := Y) hv0 hη
  have hwn : 0 ≤ ‖ww‖ := norm_nonneg _
  have n2 : ‖inner ℝ vv Y • vv - inner ℝ ww Y • ww‖ ≤ 2 * (A ^ 2 - 1) * ‖Y‖ := by
    have e : inner ℝ vv Y • vv - inner ℝ ww Y • ww =
        inner ℝ (vv - ww) Y • vv + inner ℝ ww Y • (vv - ww) := by
      rw [inner_sub_left, sub_smul, smul_sub]; abel
    rw [e]
    refine (norm_add_le _ _).trans ?_
    rw [norm_smul, norm_smul, Real.norm_eq_abs, Real.norm_eq_abs]
    have a1 := abs_real_inner_le_norm (vv - ww) Y
    have a2 := abs_real_inner_le_norm ww Y
    have hYn : 0 ≤ ‖Y‖ := norm_nonneg _
    have b1 : |inner ℝ (vv - ww) Y| * ‖vv‖ ≤ ((A - 1) * ‖ww‖ * ‖Y‖) * (A * ‖ww‖) :=
      mul_le_mul (a1.trans (mul_le_mul_of_nonneg_right hd1 hYn)) hd2 (norm_nonneg _)
        (mul_nonneg (mul_nonneg (by linarith) hwn) hYn)
    have b2 : |inner ℝ ww Y| * ‖vv - ww‖ ≤ (‖ww‖ * ‖Y‖) * ((A - 1) * ‖ww‖) :=
      mul_le_mul a2 hd1 (norm_nonneg _) (mul_nonneg hwn hYn)
    refine (add_le_add b1 b2).trans (le_of_eq ?_)
    have : ‖ww‖ ^ 2 = 2 := hns
    calc (A - 1) * ‖ww‖ * ‖Y‖ * (A * ‖ww‖) + ‖ww‖ * ‖Y‖ * ((A - 1) * ‖ww‖)
        = (A - 1) * (A + 1) * ‖Y‖ * ‖ww‖ ^ 2 := by ring
      _ = _ := by rw [this]; ring
  have n3 : ‖(Y - inner ℝ ww Y • ww) -
      vc n (fun r => if r < k then val (y r) else if r = k then val rkk else 0)‖ ≤ (A - 1) * ‖Y‖ := by
    rw [hww, hY, vs_reflect hk (val ∘ y) hT, vc_sub]
    have e : (vc n fun r => (if r < k then (val ∘ y) r else if r = k then -sg n k (val ∘ y) else 0) -
        if r < k then val (y r) else if r = k then val rkk else 0) =
        (val (fsig o n k y) - sg n k (val ∘ y)) • vc n (uv k) := by
      rw [vc_smul]
      refine vc_congr fun r _ => ?_
      unfold uv
      by_cases h1 : r < k
      · rw [if_pos h1, if_pos h1, if_neg (by omega)]; simp
      · by_cases h2 : r = k
        · rw [if_neg h1, if_neg h1, if_pos h2, if_pos h2, if_pos h2, hrs]; ring
        · rw [if_neg h1, if_neg h1, if_neg h2, if_neg h2, if_neg h2]; ring
    rw [e, norm_smul, norm_uv hk, mul_one, Real.norm_eq_abs]
    have := ((fsig_rel h hk y).mono hκ1 (by omega : n + 1 ≤ 2 * n + 6)).abs_sub
    refine this.trans ?_
    refine mul_le_mul_of_nonneg_left ?_ (by linarith)
    have : |sg n k (val ∘ y)| = ‖vc n (tl k (val ∘ y))‖ := by
      unfold sg; split
      · exact abs_of_nonneg (norm_nonneg _)
      · rw [abs_neg]; exact abs_of_nonneg (norm_nonneg _)
    rw [this]
    exact norm_tl_le n k _
  have e : refl vv Y - vc n (fun r => if r < k then val (y r) else if r = k then val rkk else 0) =
      -((Y - inner ℝ vv Y • vv) - refl vv Y) - (inner ℝ vv Y • vv - inner ℝ ww Y • ww) +
      ((Y - inner ℝ ww Y • ww) -
        vc n (fun r => if r < k then val (y r) else if r = k then val rkk else 0)) := by abel
  rw [e]
  refine (norm_add_le _ _).trans ?_
  have n1' : ‖-((Y - inner ℝ vv Y • vv) - refl vv Y)‖ ≤ 2 * (A ^ 2 - 1) * ‖Y‖ := by
    rw [norm_neg]; exact n1
  refine (add_le_add ((norm_sub_le _ _).trans (add_le_add n1' n2)) n3).trans ?_
  have e3 : hhErr n u = 3 * (A ^ 3 - 1) := by
    unfold hhErr; rw [hA, ← pow_mul, ← hκ]; ring_nf
  rw [e3, ← add_mul, ← add_mul]
  refine mul_le_mul_of_nonneg_right ?_ (norm_nonneg _)
  nlinarith [mul_nonneg (sq_nonneg (A - 1)) (by linarith : 0 ≤ 3 * A + 2)]

/-- Application of a reflection of norm about `√2`. -/
theorem app_err' (h : StdModel o val u) {n k : ℕ} (hk : k < n) (V : ℕ → ℕ → F) (x : ℕ → F)
    (hv0 : vc n (tl k (val ∘ V k)) ≠ 0)
    (hη : |‖vc n (tl k (val ∘ V k))‖ ^ 2 - 2| ≤ 2 * (((1 / (1 - u)) ^ (2 * n + 6)) ^ 2 - 1)) :
    ‖refl (vc n (tl k (val ∘ V k))) (vc n (val ∘ fapp o n V k x)) -
      vc n (val ∘ fapp o n V (k + 1) x)‖ ≤ hhErr n u * ‖vc n (val ∘ fapp o n V k x)‖ := by
  have h1 := app_err h hk V x
  simp only [] at h1
  set κ := 1 / (1 - u) with hκ
  have hκ1 : 1 ≤ κ := kap_one h
  have hκu : 1 + u ≤ κ := kap_u h
  set A := κ ^ (2 * n + 6) with hA
  have hA1 : 1 ≤ A := one_le_pow₀ hκ1
  set v := vc n (tl k (val ∘ V k))
  set y := vc n (val ∘ fapp o n V k x)
  have h2 := refl_near (y := y) hv0 hη
  have hyn := norm_nonneg y
  have hu0 := h.u0
  have h3 : ‖y - inner ℝ v y • v‖ ≤ (1 + 2 * (A ^ 2 - 1)) * ‖y‖ := by
    have e : y - inner ℝ v y • v = ((y - inner ℝ v y • v) - refl v y) + refl v y := by abel
    rw [e]
    refine (norm_add_le _ _).trans ?_
    rw [LinearIsometryEquiv.norm_map]
    linarith
  have h4 : ‖v‖ ^ 2 ≤ 2 * A ^ 2 := by linarith [(abs_le.mp hη).2]
  have e : refl v y - vc n (val ∘ fapp o n V (k + 1) x) =
      -((y - inner ℝ v y • v) - refl v y) -
        (vc n (val ∘ fapp o n V (k + 1) x) - (y - inner ℝ v y • v)) := by abel
  rw [e]
  refine (norm_sub_le _ _).trans ?_
  rw [norm_neg]
  have hp : 1 ≤ κ ^ (n + 1) := one_le_pow₀ hκ1
  have h5 : κ * (κ ^ (n + 1) - 1) * ‖v‖ ^ 2 * ‖y‖ ≤ κ * (κ ^ (n + 1) - 1) * (2 * A ^ 2) * ‖y‖ :=
    mul_le_mul_of_nonneg_right (mul_le_mul_of_nonneg_left h4
      (mul_nonneg (by linarith) (by linarith))) hyn
  have h6 : u * ‖y - inner ℝ v y • v‖ ≤ (κ - 1) * ((1 + 2 * (A ^ 2 - 1)) * ‖y‖) :=
    mul_le_mul (by linarith) h3 (norm_nonneg _) (by linarith)
  have e3 : hhErr n u = 3 * (A ^ 3 - 1) := by
    unfold hhErr; rw [hA, ← pow_mul, ← hκ]; ring_nf
  have h7 : κ * κ ^ (n + 1) ≤ A := by
    rw [← pow_succ']; exact pow_le_pow_right₀ hκ1 (by omega)
  rw [e3]
  have h8 : 2 * (A ^ 2 - 1) + (κ - 1) * (1 + 2 * (A ^ 2 - 1)) + κ * (κ ^ (n + 1) - 1) * (2 * A ^ 2) ≤
      3 * (A ^ 3 - 1) := by
    have a1 : κ * κ ^ (n + 1) * (2 * A ^ 2) ≤ A * (2 * A ^ 2) :=
      mul_le_mul_of_nonneg_right h7 (by positivity)
    have a2 : 1 ≤ A ^ 3 := one_le_pow₀ hA1
    nlinarith
  have := mul_le_mul_of_nonneg_right h8 hyn
  calc _ ≤ 2 * (A ^ 2 - 1) * ‖y‖ + ((κ - 1) * ((1 + 2 * (A ^ 2 - 1)) * ‖y‖) +
        κ * (κ ^ (n + 1) - 1) * (2 * A ^ 2) * ‖y‖) := by linarith
    _ = (2 * (A ^ 2 - 1) + (κ - 1) * (1 + 2 * (A ^ 2 - 1)) + κ * (κ ^ (n + 1) - 1) * (2 * A ^ 2)) *
        ‖y‖ := by ring
    _ ≤ _ := this

end HPLLL.Err
