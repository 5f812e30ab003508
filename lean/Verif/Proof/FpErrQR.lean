import Verif.Proof.FpErrCon
/-! Rounding errors: the whole factorisation is backward stable. -/

namespace HPLLL.Err
open Spec Finset

variable {F : Type} {o : FPOps F} {val : F → ℝ} {u : ℝ}

/-- The exact reflection along the computed vector `k`. -/
noncomputable def Pk (n : ℕ) (val : F → ℝ) (V : ℕ → ℕ → F) (k : ℕ) : E n ≃ₗᵢ[ℝ] E n :=
  refl (vc n (tl k (val ∘ V k)))

/-- Their product. -/
noncomputable def Qr (n : ℕ) (val : F → ℝ) (V : ℕ → ℕ → F) : ℕ → (E n ≃ₗᵢ[ℝ] E n)
  | 0 => LinearIsometryEquiv.refl ℝ (E n)
  | k + 1 => (Qr n val V k).trans (Pk n val V k)

theorem Qr_succ (n : ℕ) (V : ℕ → ℕ → F) (k : ℕ) (x : E n) :
    Qr n val V (k + 1) x = Pk n val V k (Qr n val V k x) := rfl

/-- Column `j` of the computed factor. -/
noncomputable def Rh (val : F → ℝ) (R : ℕ → ℕ → F) (j : ℕ) : ℕ → ℝ :=
  fun i => if i ≤ j then val (R j i) else 0

theorem hhErr_nonneg (h : StdModel o val u) (n : ℕ) : 0 ≤ hhErr n u := by
  unfold hhErr
  have := one_le_pow₀ (kap_one h) (n := 6 * n + 18)
  linarith

theorem Pk_fix {n : ℕ} (V R : ℕ → ℕ → F) {j k : ℕ} (hjk : j < k) :
    Pk n val V k (vc n (Rh val R j)) = vc n (Rh val R j) := by
  unfold Pk
  rw [refl_apply, inner_vc, Finset.sum_eq_zero, zero_div, mul_zero, zero_smul, sub_zero]
  intro r _
  unfold tl Rh
  by_cases h1 : k ≤ r
  · rw [if_neg (by omega : ¬ r ≤ j), mul_zero]
  · rw [if_neg h1, zero_mul]

/-- Backward stability, for the converted columns. -/
theorem qr_err (h : StdModel o val u) {n d : ℕ} (hdn : d ≤ n) {b V R : ℕ → ℕ → F}
    (hq : IsFpQR o n d b V R) (hz : ∀ k < d, val (R k k) ≠ 0) :
    ∀ j < d, ‖Qr n val V d (vc n (val ∘ b j)) - vc n (Rh val R j)‖ ≤
      ((1 + hhErr n u) ^ (j + 1) - 1) * ‖vc n (val ∘ b j)‖ := by
  intro j hj
  set ε := hhErr n u with hε
  have hε0 : 0 ≤ ε := hhErr_nonneg h n
  set B := vc n (val ∘ b j) with hB
  have con : ∀ k < d, _ := fun k hk => con_err h (show k < n by omega) (fapp o n V k (b k)) (V k) (R k k)
    (hq.diag k hk) (hq.vdiag k hk) (hq.vlow k hk) (hz k hk)
  have hmid : ∀ k ≤ j, ‖Qr n val V k B - vc n (val ∘ fapp o n V k (b j))‖ ≤ ((1 + ε) ^ k - 1) * ‖B‖ := by
    intro k
    induction k with
    | zero =>
      intro _
      have : Qr n val V 0 B - vc n (val ∘ fapp o n V 0 (b j)) = 0 := sub_self B
      rw [this, norm_zero]; simp
    | succ k ih =>
      intro hk
      have ih := ih (by omega)
      obtain ⟨c1, c2, -⟩ := con k (by omega)
      have a := app_err' h (show k < n by omega) V (b j) c1 c2
      rw [← hε] at a
      set y := vc n (val ∘ fapp o n V k (b j)) with hy
      have hyn : ‖y‖ ≤ (1 + ε) ^ k * ‖B‖ := by
        have e : y = Qr n val V k B - (Qr n val V k B - y) := by abel
        rw [e]
        refine (norm_sub_le _ _).trans ?_
        rw [LinearIsometryEquiv.norm_map]
        linarith
      rw [Qr_succ]
      have e : Pk n val V k (Qr n val V k B) - vc n (val ∘ fapp o n V (k + 1) (b j)) =
          Pk n val V k (Qr n val V k B - y) +
            (refl (vc n (tl k (val ∘ V k))) y - vc n (val ∘ fapp o n V (k + 1) (b j))) := by
        rw [map_sub]; unfold Pk; abel
      rw [e]
      refine (norm_add_le _ _).trans ?_
      rw [LinearIsometryEquiv.norm_map]
      have := mul_le_mul_of_nonneg_left hyn hε0
      calc _ ≤ ((1 + ε) ^ k - 1) * ‖B‖ + ε * ((1 + ε) ^ k * ‖B‖) := by linarith
        _ = _ := by ring
  have hj1 : ‖Qr n val V (j + 1) B - vc n (Rh val R j)‖ ≤ ((1 + ε) ^ (j + 1) - 1) * ‖B‖ := by
    have ih := hmid j (le_refl j)
    obtain ⟨-, -, a⟩ := con j hj
    rw [← hε] at a
    have eR : (vc n fun r => if r < j then val (fapp o n V j (b j) r) else
        if r = j then val (R j j) else 0) = vc n (Rh val R j) := by
      refine vc_congr fun r _ => ?_
      unfold Rh
      by_cases h1 : r < j
      · rw [if_pos h1, if_pos h1.le, hq.up j hj r h1]
      · by_cases h2 : r = j
        · rw [if_neg h1, if_pos h2, if_pos (by omega), h2]
        · rw [if_neg h1, if_neg h2, if_neg (by omega)]
    rw [eR] at a
    set y := vc n (val ∘ fapp o n V j (b j)) with hy
    have hyn : ‖y‖ ≤ (1 + ε) ^ j * ‖B‖ := by
      have e : y = Qr n val V j B - (Qr n val V j B - y) := by abel
      rw [e]
      refine (norm_sub_le _ _).trans ?_
      rw [LinearIsometryEquiv.norm_map]
      linarith
    rw [Qr_succ]
    have e : Pk n val V j (Qr n val V j B) - vc n (Rh val R j) =
        Pk n val V j (Qr n val V j B - y) +
          (refl (vc n (tl j (val ∘ V j))) y - vc n (Rh val R j)) := by
      rw [map_sub]; unfold Pk; abel
    rw [e]
    refine (norm_add_le _ _).trans ?_
    rw [LinearIsometryEquiv.norm_map]
    have := mul_le_mul_of_nonneg_left hyn hε0
    calc _ ≤ ((1 + ε) ^ j - 1) * ‖B‖ + ε * ((1 + ε) ^ j * ‖B‖) := by linarith
      _ = _ := by ring
  have htail : ∀ t, ‖Qr n val V (j + 1 + t) B - vc n (Rh val R j)‖ ≤ ((1 + ε) ^ (j + 1) - 1) * ‖B‖ := by
    intro t
    induction t with
    | zero => exact hj1
    | succ t ih =>
      rw [show j + 1 + (t + 1) = (j + 1 + t) + 1 by ring, Qr_succ]
      rw [← Pk_fix (n := n) (val := val) V R (show j < j + 1 + t by omega), ← map_sub,
        LinearIsometryEquiv.norm_map]
      exact ih
  have := htail (d - (j + 1))
  rwa [show j + 1 + (d - (j + 1)) = d by omega] at this

/-- Backward stability, for the integer columns. -/
theorem qr_backward (h : StdModel o val u) {n d : ℕ} (hdn : d ≤ n) {B : ℕ → ℕ → Int} {V R : ℕ → ℕ → F}
    (hq : IsFpQR o n d (fun j r => if r < n then o.ofZ (B j r) else o.zero) V R)
    (hz : ∀ k < d, val (R k k) ≠ 0) :
    ∃ Q : E n ≃ₗᵢ[ℝ] E n, ∀ j < d,
      ‖Q (vc n (Rh val R j)) - vc n (fun r => (B j r : ℝ))‖ ≤
        ((1 + hhErr n u) ^ (j + 1) * (1 + u) - 1) * ‖vc n (fun r => (B j r : ℝ))‖ := by
  refine ⟨(Qr n val V d).symm, fun j hj => ?_⟩
  have h1 := qr_err h hdn hq hz j hj
  have hε0 := hhErr_nonneg h n
  have hp : 1 ≤ (1 + hhErr n u) ^ (j + 1) := one_le_pow₀ (by linarith)
  have hu0 := h.u0
  set β := vc n (fun r => (B j r : ℝ)) with hβ
  set β' := vc n (val ∘ fun r => if r < n then o.ofZ (B j r) else o.zero) with hβ'
  have hd : ‖β' - β‖ ≤ u * ‖β‖ := by
    rw [hβ, hβ', vc_sub]
    have := norm_vc_comb (n := n)
      (x := fun r => (val ∘ fun r => if r < n then o.ofZ (B j r) else o.zero) r - (B j r : ℝ))
      (y := fun r => (B j r : ℝ)) (z := fun r => (B j r : ℝ)) (a := u) (b := 0) hu0 (le_refl _)
      (fun r hr => by
        obtain ⟨e, he, h2⟩ := h.ofZ (B j r)
        simp only [Function.comp, if_pos hr, h2, zero_mul, add_zero]
        rw [show (B j r : ℝ) * (1 + e) - B j r = e * B j r by ring, abs_mul]
        exact mul_le_mul_of_nonneg_right he (abs_nonneg _))
    rwa [zero_mul, add_zero] at this
  have hn : ‖β'‖ ≤ (1 + u) * ‖β‖ := by
    have e : β' = β + (β' - β) := by abel
    rw [e]; exact (norm_add_le _ _).trans (by linarith)
  have e : (Qr n val V d).symm (vc n (Rh val R j)) - β =
      (Qr n val V d).symm (vc n (Rh val R j) - Qr n val V d β') + (β' - β) := by
    rw [map_sub, LinearIsometryEquiv.symm_apply_apply]; abel
  rw [e]
  refine (norm_add_le _ _).trans ?_
  rw [LinearIsometryEquiv.norm_map, norm_sub_rev]
  have := mul_le_mul_of_nonneg_left hn (by linarith : 0 ≤ (1 + hhErr n u) ^ (j + 1) - 1)
  calc _ ≤ ((1 + hhErr n u) ^ (j + 1) - 1) * ((1 + u) * ‖β‖) + u * ‖β‖ := by linarith
    _ = _ := by ring

/-! ### the tests -/

theorem lovasz_val (h : StdModel o val u) {n d : ℕ} {b V R : ℕ → ℕ → F} (hq : IsFpQR o n d b V R)
    {k : ℕ} (hk : k < d) {δ : F} (hδ : 0 ≤ val δ) (hl : FpLovasz o n k δ b V R) :
    val δ * val (R (k - 1) (k - 1)) ^ 2 * (1 - u) ^ 2 ≤
      (val (R k k) ^ 2 + val (R k (k - 1)) ^ 2) * (1 + u) ^ 2 := by
  have hu0 := h.u0
  have hu1 := h.u1
  have hkk : val (R k k) ^ 2 = val (fnorm o n k (fapp o n V k (b k))) ^ 2 := by
    rw [hq.diag k hk]; split
    · rw [h.neg]; ring
    · rfl
  rw [hkk]
  have hl := (h.le _ _).mp hl
  obtain ⟨e1, he1, h1⟩ := h.mul (R (k - 1) (k - 1)) (R (k - 1) (k - 1))
  obtain ⟨e2, he2, h2⟩ := h.mul δ (o.mul (R (k - 1) (k - 1)) (R (k - 1) (k - 1)))
  set s := fnorm o n k (fapp o n V k (b k))
  obtain ⟨e3, he3, h3⟩ := h.mul s s
  obtain ⟨e4, he4, h4⟩ := h.mul (R k (k - 1)) (R k (k - 1))
  obtain ⟨e5, he5, h5⟩ := h.add (o.mul s s) (o.mul (R k (k - 1)) (R k (k - 1)))
  rw [h2, h1, h5, h3, h4] at hl
  obtain ⟨a1, b1⟩ := abs_le.mp he1
  obtain ⟨a2, b2⟩ := abs_le.mp he2
  obtain ⟨a3, b3⟩ := abs_le.mp he3
  obtain ⟨a4, b4⟩ := abs_le.mp he4
  obtain ⟨a5, b5⟩ := abs_le.mp he5
  have hpp : (1 - u) ^ 2 ≤ (1 + e1) * (1 + e2) := by nlinarith
  have hL : val δ * val (R (k - 1) (k - 1)) ^ 2 * (1 - u) ^ 2 ≤
      val δ * (val (R (k - 1) (k - 1)) * val (R (k - 1) (k - 1)) * (1 + e1)) * (1 + e2) := by
    have := mul_le_mul_of_nonneg_left hpp
      (mul_nonneg hδ (mul_self_nonneg (val (R (k - 1) (k - 1)))))
    calc _ = val δ * (val (R (k - 1) (k - 1)) * val (R (k - 1) (k - 1))) * (1 - u) ^ 2 := by ring
      _ ≤ _ := this
      _ = _ := by ring
  refine hL.trans (hl.trans ?_)
  have m1 : val s * val s * (1 + e3) ≤ val s * val s * (1 + u) :=
    mul_le_mul_of_nonneg_left (by linarith) (mul_self_nonneg _)
  have m2 : val (R k (k - 1)) * val (R k (k - 1)) * (1 + e4) ≤
      val (R k (k - 1)) * val (R k (k - 1)) * (1 + u) :=
    mul_le_mul_of_nonneg_left (by linarith) (mul_self_nonneg _)
  have m3 := mul_le_mul (add_le_add m1 m2) (show 1 + e5 ≤ 1 + u by linarith) (by linarith)
    (by nlinarith [mul_self_nonneg (val s), mul_self_nonneg (val (R k (k - 1)))])
  refine m3.trans (le_of_eq (by ring))

theorem size_val (h : StdModel o val u) {n d : ℕ} (hdn : d ≤ n) {B : ℕ → ℕ → Int} {R : ℕ → ℕ → F}
    (hz : ∀ k < d, val (R k k) ≠ 0) {k : ℕ} (h1k : 1 ≤ k) (hk : k < d)
    (hs : FpSized o n k (fun j r => if r < n then o.ofZ (B j r) else o.zero) R) :
    (∀ i < k, |val (R k i)| ≤ 1 / (1 - u) / 2 * |val (R i i)|) ∨
    (∀ i < k, |val (R k i)| ≤ (1 / (1 - u)) ^ 2 * (|val (R i i)| +
      1 / 100000000000 * (1 / (1 - u)) ^ (n + 5) * ‖vc n (fun r => (B k r : ℝ))‖)) := by
  have hu0 := h.u0
  have hu1 := h.u1
  have hκ1 := kap_one h
  have hκu := kap_u h
  have hquo : ∀ i < k, ∃ e, |e| ≤ u ∧ val (o.div (R k i) (R i i)) = val (R k i) / val (R i i) * (1 + e) :=
    fun i hi => h.div _ _ (hz i (by omega))
  -- `|R_ki| ≤ κ |quotient| |R_ii|`
  have hback : ∀ i < k, |val (R k i)| ≤ 1 / (1 - u) * |val (o.div (R k i) (R i i))| * |val (R i i)| := by
    intro i hi
    obtain ⟨e, he, h1⟩ := hquo i hi
    have hne := hz i (by omega)
    have := (Rel.of_err hu1 he h1)
    obtain ⟨f, f0, f1, f2, f3⟩ := this
    rw [pow_one] at f1 f2
    rw [f3, abs_mul, abs_div, abs_of_pos f0]
    have hp : 0 < |val (R i i)| := abs_pos.mpr hne
    have e1 : 1 / (1 - u) * (|val (R k i)| / |val (R i i)| * f) * |val (R i i)| =
        |val (R k i)| * (f * (1 / (1 - u))) := by field_simp
    rw [e1]
    nlinarith [abs_nonneg (val (R k i))]
  rcases hs with hs | hs
  · left
    intro i hi
    refine (hback i hi).trans ?_
    have h0 := (h.isZero _).mp (hs i hi)
    have h1 := h.rnd (o.div (R k i) (R i i))
    rw [h0, zero_sub, abs_neg] at h1
    have : 1 / (1 - u) * |val (o.div (R k i) (R i i))| ≤ 1 / (1 - u) * (1 / 2) :=
      mul_le_mul_of_nonneg_left h1 (by linarith)
    refine (mul_le_mul_of_nonneg_right this (abs_nonneg _)).trans (le_of_eq (by ring))
  · right
    intro i hi
    refine (hback i hi).trans ?_
    have hlt := hs i hi
    have hne := hz i (by omega)
    set N := o.sqrt (fdot o n 0 (fun r => if r < n then o.ofZ (B k r) else o.zero)
      (fun r => if r < n then o.ofZ (B k r) else o.zero)) with hN
    have hle : val (o.abs (o.div (R k i) (R i i))) ≤
        val (o.add (o.abs (o.div (o.mul N o.eps) (R i i))) o.one) := by
      by_contra hc
      push Not at hc
      rw [(h.lt _ _).mpr hc] at hlt
      exact absurd hlt (by simp)
    rw [h.abs] at hle
    have hn0 : 0 < n := by omega
    have rN0 := fnorm_rel h hn0 (fun r => if r < n then o.ofZ (B k r) else o.zero)
    have etl : vc n (tl 0 (val ∘ fun r => if r < n then o.ofZ (B k r) else o.zero)) =
        vc n (fun r => val (o.ofZ (B k r))) :=
      vc_congr fun r hr => by simp [tl, hr]
    rw [etl] at rN0
    have hBn : ‖vc n (fun r => val (o.ofZ (B k r)))‖ ≤
        1 / (1 - u) * ‖vc n (fun r => (B k r : ℝ))‖ := by
      have := norm_vc_comb (n := n) (x := fun r => val (o.ofZ (B k r)))
        (y := fun r => (B k r : ℝ)) (z := fun r => (B k r : ℝ)) (a := 1 / (1 - u)) (b := 0)
        (by linarith) (le_refl _) (fun r hr => by
          obtain ⟨e, he, h2⟩ := h.ofZ (B k r)
          rw [h2, abs_mul, zero_mul, add_zero, mul_comm]
          exact mul_le_mul_of_nonneg_right (one_add_le h he) (abs_nonneg _))
      rwa [zero_mul, add_zero] at this
    obtain ⟨e1, he1, h1⟩ := h.eps
    obtain ⟨e2, he2, h2⟩ := h.mul N o.eps
    obtain ⟨e3, he3, h3⟩ := h.div (o.mul N o.eps) (R i i) hne
    obtain ⟨e4, he4, h4⟩ := h.add (o.abs (o.div (o.mul N o.eps) (R i i))) o.one
    rw [h4, h.abs, h.one] at hle
    have rq : Rel (1 / (1 - u)) (n + 1 + 1 + 1 + 1)
        (‖vc n (fun r => val (o.ofZ (B k r)))‖ * (1 / 100000000000) / val (R i i))
        (val (o.div (o.mul N o.eps) (R i i))) := by
      have r1 : Rel (1 / (1 - u)) (n + 1 + 1) (‖vc n (fun r => val (o.ofZ (B k r)))‖ * (1 / 100000000000))
          (val N * val o.eps) := rN0.mul (Rel.of_err hu1 he1 h1)
      have r2 := r1.trans (Rel.of_err hu1 he2 h2)
      have r3 := (r2.div (Rel.rfl' (κ := 1 / (1 - u)) (val (R i i)))).trans (Rel.of_err hu1 he3 h3)
      exact r3.mono hκ1 (by omega)
    have hqa := rq.abs_le
    have hp : 0 < |val (R i i)| := abs_pos.mpr hne
    set κ := 1 / (1 - u) with hκ
    set W := ‖vc n (fun r => (B k r : ℝ))‖ with hW
    have hW0 : 0 ≤ W := norm_nonneg _
    have hqa' : |val (o.div (o.mul N o.eps) (R i i))| * |val (R i i)| ≤
        1 / 100000000000 * κ ^ (n + 5) * W := by
      rw [abs_div, abs_mul, abs_of_nonneg (norm_nonneg _),
        abs_of_nonneg (by norm_num : (0 : ℝ) ≤ 1 / 100000000000)] at hqa
      have := mul_le_mul_of_nonneg_right hqa hp.le
      refine this.trans ?_
      have hpow : (0 : ℝ) ≤ κ ^ (n + 1 + 1 + 1 + 1) := by positivity
      calc κ ^ (n + 1 + 1 + 1 + 1) * (‖vc n (fun r => val (o.ofZ (B k r)))‖ * (1 / 100000000000) /
            |val (R i i)|) * |val (R i i)|
          = κ ^ (n + 1 + 1 + 1 + 1) * (1 / 100000000000) * ‖vc n (fun r => val (o.ofZ (B k r)))‖ := by
            field_simp
        _ ≤ κ ^ (n + 1 + 1 + 1 + 1) * (1 / 100000000000) * (κ * W) :=
            mul_le_mul_of_nonneg_left hBn (by positivity)
        _ = _ := by ring
    have hq1 : |val (o.div (R k i) (R i i))| ≤ (|val (o.div (o.mul N o.eps) (R i i))| + 1) * κ := by
      refine hle.trans (mul_le_mul_of_nonneg_left ?_ (by positivity))
      exact (le_abs_self _).trans (one_add_le h he4)
    calc κ * |val (o.div (R k i) (R i i))| * |val (R i i)|
        ≤ κ * ((|val (o.div (o.mul N o.eps) (R i i))| + 1) * κ) * |val (R i i)| :=
          mul_le_mul_of_nonneg_right (mul_le_mul_of_nonneg_left hq1 (by linarith)) hp.le
      _ = κ ^ 2 * (|val (R i i)| + |val (o.div (o.mul N o.eps) (R i i))| * |val (R i i)|) := by ring
      _ ≤ _ := mul_le_mul_of_nonneg_left (by linarith) (by positivity)

/-! ### size of the error -/

theorem pow_le_inv {x : ℝ} (hx : 0 ≤ x) (m : ℕ) (hm : m * x < 1) : (1 + x) ^ m ≤ 1 / (1 - m * x) := by
  rw [le_div_iff₀ (by linarith)]
  induction m with
  | zero => simp
  | succ m ih =>
    push_cast at hm ⊢
    have hmx : (m : ℝ) * x < 1 := by nlinarith
    have ih := ih hmx
    have hp : 0 ≤ (1 + x) ^ m := by positivity
    calc (1 + x) ^ (m + 1) * (1 - (m + 1) * x)
        = (1 + x) ^ m * (1 - m * x) - (1 + x) ^ m * ((m + 1) * x ^ 2) := by ring
      _ ≤ 1 := by
        have : 0 ≤ (1 + x) ^ m * ((m + 1) * x ^ 2) := by positivity
        linarith

theorem one_sub_pow (u : ℝ) (hu1 : u < 1) (m : ℕ) : 1 - m * u ≤ (1 - u) ^ m := by
  have := one_add_mul_le_pow (a := -u) (by linarith) m
  have e : 1 + (m : ℝ) * -u = 1 - m * u := by ring
  rw [e, ← sub_eq_add_neg] at this
  exact this

/-- A readable bound. -/
theorem hhErr_le {n : ℕ} {u : ℝ} (hu0 : 0 ≤ u) (hu : 12 * (n + 3) * u ≤ 1) :
    hhErr n u ≤ 36 * (n + 3) * u := by
  have hn : (0 : ℝ) ≤ n := Nat.cast_nonneg n
  have hu1 : u < 1 := by nlinarith
  unfold hhErr
  have h1 := one_sub_pow u hu1 (6 * n + 18)
  push_cast at h1
  have hpos : (0 : ℝ) < (1 - u) ^ (6 * n + 18) := pow_pos (by linarith) _
  rw [div_pow, one_pow]
  have h2 : 1 / (1 - u) ^ (6 * n + 18) ≤ 1 / (1 - (6 * n + 18) * u) :=
    one_div_le_one_div_of_le (by nlinarith) h1
  have h3 : 1 / (1 - (6 * (n : ℝ) + 18) * u) ≤ 1 + 12 * (n + 3) * u := by
    rw [div_le_iff₀ (by nlinarith)]
    nlinarith [mul_nonneg (mul_nonneg (by positivity : (0 : ℝ) ≤ 12 * (n + 3)) hu0)
      (by linarith : 0 ≤ 1 - 12 * (n + 3) * u)]
  linarith

theorem err_le {n j : ℕ} {u : ℝ} (hu0 : 0 ≤ u) (hu : 72 * (n + 3) * (j + 2) * u ≤ 1) :
    (1 + hhErr n u) ^ (j + 1) * (1 + u) - 1 ≤ 72 * (n + 3) * (j + 2) * u := by
  have hn : (0 : ℝ) ≤ n := Nat.cast_nonneg n
  have hj : (0 : ℝ) ≤ j := Nat.cast_nonneg j
  have hnu : 0 ≤ (n + 3) * u := mul_nonneg (by linarith) hu0
  have hju : 0 ≤ j * ((n + 3) * u) := mul_nonneg hj hnu
  have h0 := hhErr_le (n := n) hu0 (by nlinarith)
  set x := 36 * (n + 3) * u with hx
  have hx0 : 0 ≤ x := by rw [hx]; nlinarith
  have hux : u ≤ x := by rw [hx]; nlinarith
  have he0 : 0 ≤ 1 + hhErr n u := by
    unfold hhErr
    have hu1 : u < 1 := by nlinarith
    have : (1 : ℝ) ≤ (1 / (1 - u)) ^ (6 * n + 18) := one_le_pow₀ (by
      rw [le_div_iff₀ (by linarith)]; linarith)
    linarith
  have h1 : (1 + hhErr n u) ^ (j + 1) * (1 + u) ≤ (1 + x) ^ (j + 2) := by
    rw [pow_succ (1 + x) (j + 1)]
    exact mul_le_mul (pow_le_pow_left₀ he0 (by linarith) _) (by linarith) (by linarith) (by positivity)
  have hm : ((j + 2 : ℕ) : ℝ) * x ≤ 1 / 2 := by push_cast; rw [hx]; nlinarith
  have h2 := pow_le_inv hx0 (j + 2) (by linarith)
  set y := ((j + 2 : ℕ) : ℝ) * x with hy
  have hy0 : 0 ≤ y := by positivity
  have h3 : 1 / (1 - y) ≤ 1 + 2 * y := by
    rw [div_le_iff₀ (by linarith)]; nlinarith
  have e : 72 * ((n : ℝ) + 3) * (j + 2) * u = 2 * y := by rw [hy, hx]; push_cast; ring
  rw [e]; linarith

end HPLLL.Err
