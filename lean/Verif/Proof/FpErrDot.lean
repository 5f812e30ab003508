import Verif.Proof.FpErr
/-! Rounding errors: dot products, one reflection. -/

namespace HPLLL.Err
open Spec Finset

/-! ### vectors -/

/-- Rows `>= k`. -/
def tl (k : ℕ) (x : ℕ → ℝ) : ℕ → ℝ := fun r => if k ≤ r then x r else 0

theorem inner_vc (n : ℕ) (x y : ℕ → ℝ) : inner ℝ (vc n x) (vc n y) = ∑ r ∈ range n, x r * y r := by
  rw [← Fin.sum_univ_eq_sum_range (fun r => x r * y r)]
  simp only [vc, PiLp.inner_apply]
  refine Finset.sum_congr rfl fun i _ => ?_
  simp [mul_comm]

theorem norm_sq_vc (n : ℕ) (x : ℕ → ℝ) : ‖vc n x‖ ^ 2 = ∑ r ∈ range n, x r * x r := by
  rw [← inner_vc, real_inner_self_eq_norm_sq]

theorem norm_vc_le {n : ℕ} {x y : ℕ → ℝ} (h : ∀ r < n, |x r| ≤ |y r|) : ‖vc n x‖ ≤ ‖vc n y‖ := by
  apply le_of_sq_le_sq _ (norm_nonneg _)
  rw [norm_sq_vc, norm_sq_vc]
  refine sum_le_sum fun r hr => ?_
  have := mul_le_mul (h r (mem_range.mp hr)) (h r (mem_range.mp hr)) (abs_nonneg _) (abs_nonneg _)
  rwa [abs_mul_abs_self, abs_mul_abs_self] at this

theorem norm_vc_congr {n : ℕ} {x y : ℕ → ℝ} (h : ∀ r < n, |x r| = |y r|) : ‖vc n x‖ = ‖vc n y‖ :=
  le_antisymm (norm_vc_le fun r hr => (h r hr).le) (norm_vc_le fun r hr => (h r hr).ge)

theorem vc_congr {n : ℕ} {x y : ℕ → ℝ} (h : ∀ r < n, x r = y r) : vc n x = vc n y := by
  unfold vc
  congr 1
  funext i
  exact h i i.2

theorem vc_sub (n : ℕ) (x y : ℕ → ℝ) : vc n x - vc n y = vc n fun r => x r - y r := by
  ext i; simp [vc]

theorem vc_add (n : ℕ) (x y : ℕ → ℝ) : vc n x + vc n y = vc n fun r => x r + y r := by
  ext i; simp [vc]

theorem vc_smul (n : ℕ) (c : ℝ) (x : ℕ → ℝ) : c • vc n x = vc n fun r => c * x r := by
  ext i; simp [vc]

/-- Componentwise bounds give a bound of the norm. -/
theorem norm_vc_comb {n : ℕ} {x y z : ℕ → ℝ} {a b : ℝ} (ha : 0 ≤ a) (hb : 0 ≤ b)
    (h : ∀ r < n, |x r| ≤ a * |y r| + b * |z r|) : ‖vc n x‖ ≤ a * ‖vc n y‖ + b * ‖vc n z‖ := by
  have h1 : ‖vc n x‖ ≤ ‖vc n (fun r => a * |y r| + b * |z r|)‖ := by
    refine norm_vc_le fun r hr => (h r hr).trans (le_abs_self _)
  refine h1.trans ?_
  rw [show (vc n fun r => a * |y r| + b * |z r|) = a • vc n (fun r => |y r|) + b • vc n (fun r => |z r|) by
    rw [vc_smul, vc_smul, vc_add]]
  refine (norm_add_le _ _).trans ?_
  rw [norm_smul, norm_smul, Real.norm_of_nonneg ha, Real.norm_of_nonneg hb,
    norm_vc_congr (x := fun r => |y r|) (y := y) (fun r _ => abs_abs _),
    norm_vc_congr (x := fun r => |z r|) (y := z) (fun r _ => abs_abs _)]

theorem sum_tl {n k : ℕ} (hk : k ≤ n) (x y : ℕ → ℝ) :
    ∑ r ∈ range n, tl k x r * y r = ∑ i ∈ range (n - k), x (k + i) * y (k + i) := by
  obtain ⟨m, rfl⟩ : ∃ m, n = k + m := ⟨n - k, by omega⟩
  rw [sum_range_add, show k + m - k = m by omega]
  rw [Finset.sum_eq_zero, zero_add]
  · refine sum_congr rfl fun i _ => ?_
    simp [tl]
  · intro i hi
    have := mem_range.mp hi
    simp only [tl]; rw [if_neg (by omega), zero_mul]

theorem inner_tl {n k : ℕ} (hk : k ≤ n) (x y : ℕ → ℝ) :
    inner ℝ (vc n (tl k x)) (vc n y) = ∑ i ∈ range (n - k), x (k + i) * y (k + i) := by
  rw [inner_vc, sum_tl hk]

theorem norm_tl_le (n k : ℕ) (x : ℕ → ℝ) : ‖vc n (tl k x)‖ ≤ ‖vc n x‖ := by
  refine norm_vc_le fun r _ => ?_
  unfold tl; split
  · exact le_refl _
  · rw [abs_zero]; exact abs_nonneg _

theorem abs_sum_le {n k : ℕ} (hk : k ≤ n) (x y : ℕ → ℝ) :
    ∑ i ∈ range (n - k), |x (k + i)| * |y (k + i)| ≤ ‖vc n (tl k x)‖ * ‖vc n y‖ := by
  rw [← inner_tl hk (fun r => |x r|) (fun r => |y r|)]
  refine (real_inner_le_norm _ _).trans ?_
  rw [norm_vc_congr (x := fun r => |y r|) (y := y) (fun r _ => abs_abs _),
    norm_vc_congr (x := tl k fun r => |x r|) (y := tl k x) (fun r _ => by
      unfold tl; split
      · exact abs_abs _
      · rfl)]

/-! ### dot products -/

variable {F : Type} {o : FPOps F} {val : F → ℝ} {u : ℝ}

theorem kap_one (h : StdModel o val u) : 1 ≤ 1 / (1 - u) := by
  rw [le_div_iff₀ (by linarith [h.u1])]; linarith [h.u0]

theorem kap_u (h : StdModel o val u) : 1 + u ≤ 1 / (1 - u) := by
  have := h.u0
  rw [le_div_iff₀ (by linarith [h.u1])]; nlinarith

theorem one_add_le (h : StdModel o val u) {e : ℝ} (he : |e| ≤ u) : |1 + e| ≤ 1 / (1 - u) := by
  have := abs_le.mp he
  have := kap_u h
  have := h.u1
  rw [abs_of_nonneg (by linarith)]; linarith

theorem fold_err (h : StdModel o val u) (a : ℕ) (x y : ℕ → F) (t : ℕ) :
    |val ((List.range t).foldl (fun acc i => o.addmul acc (x (a + (i + 1))) (y (a + (i + 1))))
        (o.mul (x (a + 0)) (y (a + 0)))) -
      ∑ i ∈ range (t + 1), val (x (a + i)) * val (y (a + i))| ≤
    ((1 / (1 - u)) ^ (t + 1) - 1) * ∑ i ∈ range (t + 1), |val (x (a + i))| * |val (y (a + i))| := by
  set κ := 1 / (1 - u) with hκ
  have hκ1 : 1 ≤ κ := kap_one h
  have hκu : 1 + u ≤ κ := kap_u h
  have hu0 := h.u0
  induction t with
  | zero =>
    obtain ⟨e, he, h1⟩ := h.mul (x (a + 0)) (y (a + 0))
    simp only [List.range_zero, List.foldl_nil, zero_add, sum_range_one, pow_one]
    rw [h1, show ∀ p : ℝ, p * (1 + e) - p = e * p by intro p; ring, abs_mul, abs_mul]
    exact mul_le_mul_of_nonneg_right (by linarith) (by positivity)
  | succ t ih =>
    rw [List.range_succ, List.foldl_append, sum_range_succ, sum_range_succ _ (t + 1)]
    simp only [List.foldl_cons, List.foldl_nil]
    set acc := (List.range t).foldl (fun acc i => o.addmul acc (x (a + (i + 1))) (y (a + (i + 1))))
        (o.mul (x (a + 0)) (y (a + 0)))
    set S := ∑ i ∈ range (t + 1), val (x (a + i)) * val (y (a + i)) with hS
    set M := ∑ i ∈ range (t + 1), |val (x (a + i))| * |val (y (a + i))| with hM
    have hSM : |S| ≤ M := by
      refine (Finset.abs_sum_le_sum_abs _ _).trans (le_of_eq ?_)
      exact sum_congr rfl fun i _ => abs_mul _ _
    obtain ⟨e, e', he, he', h1⟩ := h.addmul acc (x (a + (t + 1))) (y (a + (t + 1)))
    rw [h1]
    set p := val (x (a + (t + 1))) * val (y (a + (t + 1))) with hp
    have hpa : |val (x (a + (t + 1)))| * |val (y (a + (t + 1)))| = |p| := (abs_mul _ _).symm
    rw [hpa]
    have e1 : (val acc + p * (1 + e)) * (1 + e') - (S + p) =
        (val acc - S) * (1 + e') + S * e' + p * ((1 + e) * (1 + e') - 1) := by ring
    rw [e1]
    have a1 : |(val acc - S) * (1 + e')| ≤ (κ ^ (t + 1) - 1) * M * κ := by
      rw [abs_mul]
      exact mul_le_mul ih (one_add_le h he') (abs_nonneg _)
        ((abs_nonneg _).trans ih)
    have a2 : |S * e'| ≤ M * (κ - 1) := by
      rw [abs_mul]
      exact mul_le_mul hSM (by linarith) (abs_nonneg _) ((abs_nonneg _).trans hSM)
    have a3 : |p * ((1 + e) * (1 + e') - 1)| ≤ |p| * (κ ^ (t + 1 + 1) - 1) := by
      rw [abs_mul]
      refine mul_le_mul_of_nonneg_left ?_ (abs_nonneg _)
      have b1 : |(1 + e) * (1 + e') - 1| ≤ κ ^ 2 - 1 := by
        have := abs_le.mp he
        have := abs_le.mp he'
        rw [abs_le]
        constructor <;> nlinarith
      have b2 : κ ^ 2 ≤ κ ^ (t + 1 + 1) := pow_le_pow_right₀ hκ1 (by omega)
      linarith
    refine (abs_add_le _ _).trans ?_
    refine (add_le_add ((abs_add_le _ _).trans (add_le_add a1 a2)) a3).trans (le_of_eq ?_)
    ring

/-- A dot product of floating point vectors. -/
theorem fdot_err (h : StdModel o val u) {n k : ℕ} (hk : k < n) (x y : ℕ → F) :
    |val (fdot o n k x y) - inner ℝ (vc n (tl k (val ∘ x))) (vc n (val ∘ y))| ≤
      ((1 / (1 - u)) ^ (n - k) - 1) * (‖vc n (tl k (val ∘ x))‖ * ‖vc n (val ∘ y)‖) := by
  have := fold_err h k x y (n - k - 1)
  rw [show n - k - 1 + 1 = n - k by omega] at this
  rw [inner_tl hk.le]
  refine this.trans (mul_le_mul_of_nonneg_left (abs_sum_le hk.le (val ∘ x) (val ∘ y)) ?_)
  have := one_le_pow₀ (kap_one h) (n := n - k)
  linarith

/-- A sum of squares. -/
theorem fdot_rel (h : StdModel o val u) {n k : ℕ} (hk : k < n) (y : ℕ → F) :
    Rel (1 / (1 - u)) (n - k) (‖vc n (tl k (val ∘ y))‖ ^ 2) (val (fdot o n k y y)) := by
  set κ := 1 / (1 - u) with hκ
  have hκ1 : 1 ≤ κ := kap_one h
  have key : ∀ t : ℕ, Rel κ (t + 1) (∑ i ∈ range (t + 1), val (y (k + i)) * val (y (k + i)))
      (val ((List.range t).foldl (fun acc i => o.addmul acc (y (k + (i + 1))) (y (k + (i + 1))))
        (o.mul (y (k + 0)) (y (k + 0))))) := by
    intro t
    induction t with
    | zero =>
      obtain ⟨e, he, h1⟩ := h.mul (y (k + 0)) (y (k + 0))
      simp only [List.range_zero, List.foldl_nil, zero_add, sum_range_one]
      exact Rel.of_err h.u1 he h1
    | succ t ih =>
      rw [List.range_succ, List.foldl_append, sum_range_succ]
      simp only [List.foldl_cons, List.foldl_nil]
      obtain ⟨e, e', he, he', h1⟩ := h.addmul ((List.range t).foldl
        (fun acc i => o.addmul acc (y (k + (i + 1))) (y (k + (i + 1))))
        (o.mul (y (k + 0)) (y (k + 0)))) (y (k + (t + 1))) (y (k + (t + 1)))
      have r1 : Rel κ 1 (val (y (k + (t + 1))) * val (y (k + (t + 1))))
          (val (y (k + (t + 1))) * val (y (k + (t + 1))) * (1 + e)) := Rel.of_err h.u1 he rfl
      have r2 := Rel.add hκ1 ih (r1.mono hκ1 (by omega : 1 ≤ t + 1))
        (sum_nonneg fun i _ => mul_self_nonneg _) (mul_self_nonneg _)
      exact r2.trans (Rel.of_err h.u1 he' h1)
  have := key (n - k - 1)
  rw [show n - k - 1 + 1 = n - k by omega] at this
  have e : ‖vc n (tl k (val ∘ y))‖ ^ 2 = ∑ i ∈ range (n - k), val (y (k + i)) * val (y (k + i)) := by
    rw [norm_sq_vc, sum_tl hk.le]
    refine sum_congr rfl fun i _ => ?_
    simp [tl]
  rw [e]; exact this

/-! ### one reflection -/

/-- The exact reflection along `v`. -/
noncomputable def refl {n : ℕ} (v : E n) : E n ≃ₗᵢ[ℝ] E n := (ℝ ∙ v)ᗮ.reflection

theorem refl_apply {n : ℕ} (v y : E n) :
    refl v y = y - (2 * (inner ℝ v y / ‖v‖ ^ 2)) • v := by
  unfold refl
  rw [Submodule.reflection_orthogonal_apply, Submodule.reflection_singleton_apply]
  simp only [neg_sub, RCLike.ofReal_real_eq_id, id_eq]
  congr 1
  rw [two_smul, ← add_smul, two_mul]

/-- Without the normalisation. -/
theorem refl_near {n : ℕ} {v y : E n} {η : ℝ} (hv : v ≠ 0) (h : |‖v‖ ^ 2 - 2| ≤ η) :
    ‖(y - inner ℝ v y • v) - refl v y‖ ≤ η * ‖y‖ := by
  rw [refl_apply]
  have hN : 0 < ‖v‖ ^ 2 := by have := norm_pos_iff.mpr hv; positivity
  have e : (y - inner ℝ v y • v) - (y - (2 * (inner ℝ v y / ‖v‖ ^ 2)) • v) =
      ((2 - ‖v‖ ^ 2) * (inner ℝ v y / ‖v‖ ^ 2)) • v := by
    rw [sub_sub_sub_cancel_left, ← sub_smul]
    congr 1
    field_simp
  rw [e, norm_smul, Real.norm_eq_abs, abs_mul, abs_div, abs_of_pos hN, mul_assoc]
  have h1 : |2 - ‖v‖ ^ 2| ≤ η := by rw [abs_sub_comm]; exact h
  refine mul_le_mul h1 ?_ (by positivity) ((abs_nonneg _).trans h)
  rw [div_mul_eq_mul_div, div_le_iff₀ hN]
  have := abs_real_inner_le_norm v y
  calc |inner ℝ v y| * ‖v‖ ≤ ‖v‖ * ‖y‖ * ‖v‖ := mul_le_mul_of_nonneg_right this (norm_nonneg _)
    _ = _ := by ring

/-- Application of a reflection in floating point. -/
theorem app_err (h : StdModel o val u) {n k : ℕ} (hk : k < n) (V : ℕ → ℕ → F) (x : ℕ → F) :
    let v := vc n (tl k (val ∘ V k))
    let y := vc n (val ∘ fapp o n V k x)
    ‖vc n (val ∘ fapp o n V (k + 1) x) - (y - inner ℝ v y • v)‖ ≤
      u * ‖y - inner ℝ v y • v‖ +
        1 / (1 - u) * ((1 / (1 - u)) ^ (n + 1) - 1) * ‖v‖ ^ 2 * ‖y‖ := by
  intro v y
  set κ := 1 / (1 - u) with hκ
  have hκ1 : 1 ≤ κ := kap_one h
  have hκu : 1 + u ≤ κ := kap_u h
  have hu0 := h.u0
  set Y := fapp o n V k x with hY
  set p := fdot o n k (V k) Y with hp
  set ip := inner ℝ v y with hip
  have hdot : |val p - ip| ≤ (κ ^ (n - k) - 1) * (‖v‖ * ‖y‖) := fdot_err h hk (V k) Y
  have hipn : |ip| ≤ ‖v‖ * ‖y‖ := abs_real_inner_le_norm v y
  have hnn : 0 ≤ ‖v‖ * ‖y‖ := by positivity
  have hpe : ∀ e, |e| ≤ u → |val p * (1 + e) - ip| ≤ (κ ^ (n + 1) - 1) * (‖v‖ * ‖y‖) := by
    intro e he
    have e1 : val p * (1 + e) - ip = (val p - ip) * (1 + e) + ip * e := by ring
    rw [e1]
    refine (abs_add_le _ _).trans ?_
    rw [abs_mul, abs_mul]
    have a1 : |val p - ip| * |1 + e| ≤ (κ ^ (n - k) - 1) * (‖v‖ * ‖y‖) * κ :=
      mul_le_mul hdot (one_add_le h he) (abs_nonneg _) ((abs_nonneg _).trans hdot)
    have a2 : |ip| * |e| ≤ (‖v‖ * ‖y‖) * (κ - 1) :=
      mul_le_mul hipn (by linarith) (abs_nonneg _) hnn
    have a3 : κ ^ (n - k) * κ ≤ κ ^ (n + 1) := by
      rw [← pow_succ]; exact pow_le_pow_right₀ hκ1 (by omega)
    nlinarith
  rw [show y - ip • v = vc n (fun r => val (Y r) - ip * tl k (val ∘ V k) r) by
    show vc n (val ∘ Y) - ip • vc n (tl k (val ∘ V k)) = _
    rw [vc_smul, vc_sub]; rfl]
  rw [vc_sub]
  have hc : 0 ≤ κ * (κ ^ (n + 1) - 1) * (‖v‖ * ‖y‖) := by
    have := one_le_pow₀ hκ1 (n := n + 1)
    have : 0 ≤ κ ^ (n + 1) - 1 := by linarith
    positivity
  have hcomb := norm_vc_comb (n := n)
    (x := fun r => (val ∘ fapp o n V (k + 1) x) r - (val (Y r) - ip * tl k (val ∘ V k) r))
    (y := fun r => val (Y r) - ip * tl k (val ∘ V k) r) (z := tl k (val ∘ V k)) hu0 hc ?_
  · refine hcomb.trans (le_of_eq ?_)
    show _ + κ * (κ ^ (n + 1) - 1) * (‖v‖ * ‖y‖) * ‖v‖ = _
    ring
  · intro r hr
    simp only [Function.comp, fapp]
    by_cases hkr : k ≤ r
    · rw [if_pos ⟨hkr, hr⟩]
      obtain ⟨e, e', he, he', h1⟩ := h.submul (Y r) (V k r) p
      rw [h1]
      simp only [tl, if_pos hkr, Function.comp]
      have e1 : (val (Y r) - val (V k r) * val p * (1 + e)) * (1 + e') -
          (val (Y r) - ip * val (V k r)) =
          (val (Y r) - ip * val (V k r)) * e' -
            val (V k r) * (val p * (1 + e) - ip) * (1 + e') := by ring
      rw [e1]
      refine (abs_sub _ _).trans ?_
      rw [abs_mul, abs_mul, abs_mul]
      refine add_le_add ?_ ?_
      · rw [mul_comm]; exact mul_le_mul_of_nonneg_right he' (abs_nonneg _)
      · have := mul_le_mul (hpe e he) (one_add_le h he') (abs_nonneg _)
          ((abs_nonneg _).trans (hpe e he))
        calc |val (V k r)| * |val p * (1 + e) - ip| * |1 + e'|
            = |val (V k r)| * (|val p * (1 + e) - ip| * |1 + e'|) := by ring
          _ ≤ |val (V k r)| * ((κ ^ (n + 1) - 1) * (‖v‖ * ‖y‖) * κ) :=
            mul_le_mul_of_nonneg_left this (abs_nonneg _)
          _ = _ := by ring
    · rw [if_neg (by omega)]
      simp only [tl, if_neg hkr, mul_zero, sub_zero]
      rw [show fapp o n V k x r = Y r from rfl, sub_self, abs_zero, mul_zero, add_zero]
      positivity

end HPLLL.Err
