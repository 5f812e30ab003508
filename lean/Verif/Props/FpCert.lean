import Verif.Proof.FpCertGS
import Verif.Props.FpErr
/-!
# C66: sufficient precision — the basis returned by floating point `hlll` is truly reduced

Standard model of floating point arithmetic.  `η` bounds the quotients read on `getR()`, `c` the ratio
of consecutive diagonal entries allowed by the Lovász conditions.
-/

namespace HPLLL.Props
open HPLLL Spec Finset

variable {F : Type} {o : FPOps F} {val : F → ℝ} {u : ℝ}

theorem fp_near (hs : StdModel o val u) (hz : ZeroLaws o) (junk : F) (n d : Nat) (hd : 2 ≤ d)
    (A : Mat Int) (forU : Bool) (method : Int) (longFlag : Bool) (vd : Int) (S : Nat) (thr : Int)
    (nb : Nat) (hA : FullColumnRank (toMatrix n d A)) (fuel : Nat) (δ : F) (v : Bool) (s' : Lat F)
    (h : hlll o fuel δ v (fresh o junk n d A forU method longFlag vd S thr nb) = some (0, s'))
    (hb : s'.nblov < nb) (hδ : 0 ≤ val δ) (hdiag : ∀ k < d, val (s'.getR o junk k k) ≠ 0)
    (η c : ℝ) (hη : ∀ k < d, ∀ i < k, |val (s'.getR o junk k i)| ≤ η * |val (s'.getR o junk i i)|)
    (hc1 : 1 ≤ c) (hc : 1 ≤ c ^ 2 * (val δ * ((1 - u) / (1 + u)) ^ 2 - η ^ 2))
    (he : backErr n d u < 1) :
    ∃ Q : E n ≃ₗᵢ[ℝ] E n, Cert.Near n d (rcol val (s'.getR o junk)) (bcol n s'.getbase.M) Q c η
        (backErr n d u) ∧
      ∀ k, k + 1 < d → val δ * ((1 - u) / (1 + u)) ^ 2 * rcol val (s'.getR o junk) k k ^ 2 ≤
        rcol val (s'.getR o junk) (k + 1) (k + 1) ^ 2 + rcol val (s'.getR o junk) (k + 1) k ^ 2 := by
  obtain ⟨⟨Q, hQ⟩, hl, -⟩ := C65_backward_stable hs hz junk n d hd A forU method longFlag vd S thr nb hA
    fuel δ v s' h hb hδ hdiag
  have hu0 := hs.u0
  have hu1 := hs.u1
  have hε0 := Err.hhErr_nonneg hs n
  have hη0 : 0 ≤ η := by
    have := (abs_nonneg _).trans (hη 1 (by omega) 0 (by norm_num))
    have h0 := abs_pos.mpr (hdiag 0 (by omega))
    by_contra hn
    push Not at hn
    nlinarith
  have eR : ∀ j i, i ≤ j → rcol val (s'.getR o junk) j i = val (s'.getR o junk j i) := by
    intro j i hi; unfold rcol; rw [if_pos hi]
  have hlov : ∀ k, k + 1 < d → val δ * ((1 - u) / (1 + u)) ^ 2 * rcol val (s'.getR o junk) k k ^ 2 ≤
        rcol val (s'.getR o junk) (k + 1) (k + 1) ^ 2 + rcol val (s'.getR o junk) (k + 1) k ^ 2 := by
    intro k hk
    have := hl (k + 1) (by omega) hk
    rw [show k + 1 - 1 = k by omega] at this
    rw [eR k k (le_refl _), eR (k + 1) (k + 1) (le_refl _), eR (k + 1) k (by omega)]
    rw [div_pow]
    have hp : 0 < (1 + u) ^ 2 := by positivity
    rw [← sub_nonneg] at this ⊢
    have e1 : val (s'.getR o junk (k + 1) (k + 1)) ^ 2 + val (s'.getR o junk (k + 1) k) ^ 2 -
        val δ * ((1 - u) ^ 2 / (1 + u) ^ 2) * val (s'.getR o junk k k) ^ 2 =
        ((val (s'.getR o junk (k + 1) (k + 1)) ^ 2 + val (s'.getR o junk (k + 1) k) ^ 2) * (1 + u) ^ 2 -
          val δ * val (s'.getR o junk k k) ^ 2 * (1 - u) ^ 2) / (1 + u) ^ 2 := by field_simp
    rw [e1]
    exact div_nonneg this hp.le
  refine ⟨Q, ⟨dim_le A hA, hc1, hη0, ?_, he, ?_, ?_, ?_, ?_, ?_⟩, hlov⟩
  · unfold backErr
    have : 1 ≤ (1 + hhErr n u) ^ d := one_le_pow₀ (by linarith)
    nlinarith
  · intro j i hji; unfold rcol; rw [if_neg (by omega)]
  · intro k hk; rw [eR k k (le_refl _)]; exact hdiag k hk
  · intro k hk
    have h1 := hlov k hk
    have h2 := hη (k + 1) hk k (by omega)
    rw [← eR (k + 1) k (by omega), ← eR k k (le_refl _)] at h2
    set a := rcol val (s'.getR o junk) k k
    set b := rcol val (s'.getR o junk) (k + 1) (k + 1)
    set x := rcol val (s'.getR o junk) (k + 1) k
    have hx : x ^ 2 ≤ η ^ 2 * a ^ 2 := by
      have := mul_le_mul h2 h2 (abs_nonneg _) (mul_nonneg hη0 (abs_nonneg _))
      rw [abs_mul_abs_self] at this
      calc x ^ 2 = x * x := by ring
        _ ≤ _ := this
        _ = η ^ 2 * (|a| * |a|) := by ring
        _ = _ := by rw [abs_mul_abs_self]; ring
    have h3 : a ^ 2 ≤ (c * |b|) ^ 2 := by
      rw [mul_pow, sq_abs]
      have h4 : (val δ * ((1 - u) / (1 + u)) ^ 2 - η ^ 2) * a ^ 2 ≤ b ^ 2 := by nlinarith
      have h5 := mul_le_mul_of_nonneg_left h4 (by positivity : 0 ≤ c ^ 2)
      have h6 := mul_le_mul_of_nonneg_right hc (by positivity : 0 ≤ a ^ 2)
      linarith
    have h4 : |a| ^ 2 ≤ (c * |b|) ^ 2 := by rw [sq_abs]; exact h3
    exact le_of_sq_le_sq h4 (mul_nonneg (by linarith) (abs_nonneg _))
  · intro k hk i hi
    rw [eR k i hi.le, eR i i (le_refl _)]; exact hη k hk i hi
  · intro j hj
    refine (hQ j hj).trans (mul_le_mul_of_nonneg_right ?_ (norm_nonneg _))
    unfold backErr
    have : (1 + hhErr n u) ^ (j + 1) ≤ (1 + hhErr n u) ^ d :=
      pow_le_pow_right₀ (by linarith) (by omega)
    nlinarith

theorem gs_eq (n d : Nat) (B : Mat Int) (k : Fin d) :
    gs (toMatrix n d B) k = Cert.gsv d (bcol n B) k := rfl

theorem mu_eq' (n d : Nat) (B : Mat Int) (k i : Fin d) :
    mu (toMatrix n d B) k i = Cert.muv d (bcol n B) k i := rfl

/-- **C66, reducedness.** `hlll` returned 0; the quotients read on `getR()` are at most `η`, and the
precision is sufficient (`distortion < 1`).  Then the exact Gram–Schmidt vectors of `getbase()` satisfy
the Lovász conditions with `δ' = δ ((1-u)/(1+u))² ((1-g)/(1+g))²`, the size conditions
`|μ_ij| |b*_j| <= η |b*_j| + θ |b*_i|` with `θ = (2g+g²)/(1-g)² (c(1+η))^(d-1)`, and the diagonal of
`getR()` gives their lengths up to a relative error `g`. -/
theorem C66_truly_reduced (hs : StdModel o val u) (hz : ZeroLaws o) (junk : F) (n d : Nat) (hd : 2 ≤ d)
    (A : Mat Int) (forU : Bool) (method : Int) (longFlag : Bool) (vd : Int) (S : Nat) (thr : Int)
    (nb : Nat) (hA : FullColumnRank (toMatrix n d A)) (fuel : Nat) (δ : F) (v : Bool) (s' : Lat F)
    (h : hlll o fuel δ v (fresh o junk n d A forU method longFlag vd S thr nb) = some (0, s'))
    (hb : s'.nblov < nb) (hδ : 0 ≤ val δ) (hdiag : ∀ k < d, val (s'.getR o junk k k) ≠ 0)
    (η c : ℝ) (hη : ∀ k < d, ∀ i < k, |val (s'.getR o junk k i)| ≤ η * |val (s'.getR o junk i i)|)
    (hc1 : 1 ≤ c) (hc : 1 ≤ c ^ 2 * (val δ * ((1 - u) / (1 + u)) ^ 2 - η ^ 2))
    (he : backErr n d u < 1) (g : ℝ) (hg : g = distortion d c η (backErr n d u)) (hg1 : g < 1) :
    LovaszCond (val δ * ((1 - u) / (1 + u)) ^ 2 * ((1 - g) / (1 + g)) ^ 2)
      (toMatrix n d s'.getbase.M) ∧
    (∀ i j : Fin d, j < i →
      |mu (toMatrix n d s'.getbase.M) i j| * ‖gs (toMatrix n d s'.getbase.M) j‖ ≤
        η * ‖gs (toMatrix n d s'.getbase.M) j‖ +
          (2 * g + g ^ 2) / (1 - g) ^ 2 * (c * (1 + η)) ^ (d - 1) *
            ‖gs (toMatrix n d s'.getbase.M) i‖) ∧
    (∀ k : Fin d, (1 - g) * |val (s'.getR o junk k k)| ≤ ‖gs (toMatrix n d s'.getbase.M) k‖ ∧
      ‖gs (toMatrix n d s'.getbase.M) k‖ ≤ (1 + g) * |val (s'.getR o junk k k)|) := by
  obtain ⟨Q, hN, hl⟩ := fp_near hs hz junk n d hd A forU method longFlag vd S thr nb hA fuel δ v s' h hb hδ
    hdiag η c hη hc1 hc he
  subst hg
  refine ⟨?_, ?_, ?_⟩
  · intro i j hji
    exact hN.gs_lovasz hg1 (mul_nonneg hδ (by positivity)) j i hji (by
      have := hl j (by rw [hji]; exact i.2)
      rw [hji] at this; exact this)
  · intro i j hji
    exact hN.gs_size hg1 i j hji
  · intro k
    have a := hN.gs_lower hg1 k
    have b := hN.gs_upper hg1 k
    have e : rcol val (s'.getR o junk) k k = val (s'.getR o junk k k) := by
      unfold rcol; rw [if_pos (le_refl _)]
    rw [e] at a b
    exact ⟨a, b⟩

/-- **C66, lengths.** Under the same hypotheses, the length of every real combination of the vectors of
`getbase()` is the length of the same combination of the columns of `getR()`, up to a relative
error `g`. -/
theorem C66_lengths (hs : StdModel o val u) (hz : ZeroLaws o) (junk : F) (n d : Nat) (hd : 2 ≤ d)
    (A : Mat Int) (forU : Bool) (method : Int) (longFlag : Bool) (vd : Int) (S : Nat) (thr : Int)
    (nb : Nat) (hA : FullColumnRank (toMatrix n d A)) (fuel : Nat) (δ : F) (v : Bool) (s' : Lat F)
    (h : hlll o fuel δ v (fresh o junk n d A forU method longFlag vd S thr nb) = some (0, s'))
    (hb : s'.nblov < nb) (hδ : 0 ≤ val δ) (hdiag : ∀ k < d, val (s'.getR o junk k k) ≠ 0)
    (η c : ℝ) (hη : ∀ k < d, ∀ i < k, |val (s'.getR o junk k i)| ≤ η * |val (s'.getR o junk i i)|)
    (hc1 : 1 ≤ c) (hc : 1 ≤ c ^ 2 * (val δ * ((1 - u) / (1 + u)) ^ 2 - η ^ 2))
    (he : backErr n d u < 1) (g : ℝ) (hg : g = distortion d c η (backErr n d u)) (y : Nat → ℝ) :
    |‖∑ j ∈ range d, y j • bcol n s'.getbase.M j‖ -
        ‖∑ j ∈ range d, y j • vc n (rcol val (s'.getR o junk) j)‖| ≤
      g * ‖∑ j ∈ range d, y j • vc n (rcol val (s'.getR o junk) j)‖ := by
  obtain ⟨Q, hN, hl⟩ := fp_near hs hz junk n d hd A forU method longFlag vd S thr nb hA fuel δ v s' h hb hδ
    hdiag η c hη hc1 hc he
  rw [← Cert.vc_comb]
  have a := hN.lower y
  have b := hN.upper y
  rw [← hg] at a b
  show |‖Cert.vcomb d _ y‖ - _| ≤ _
  rw [abs_le]
  constructor <;> linarith

/-- **C66, first vector.** Under the same hypotheses the first vector of `getbase()` is at most
`c^(d-1) / ((1-e)(1-g))` times as long as any nonzero vector of the input lattice. -/
theorem C66_short_first_vector (hs : StdModel o val u) (hz : ZeroLaws o) (junk : F) (n d : Nat)
    (hd : 2 ≤ d)
    (A : Mat Int) (forU : Bool) (method : Int) (longFlag : Bool) (vd : Int) (S : Nat) (thr : Int)
    (nb : Nat) (hA : FullColumnRank (toMatrix n d A)) (fuel : Nat) (δ : F) (v : Bool) (s' : Lat F)
    (h : hlll o fuel δ v (fresh o junk n d A forU method longFlag vd S thr nb) = some (0, s'))
    (hb : s'.nblov < nb) (hδ : 0 ≤ val δ) (hdiag : ∀ k < d, val (s'.getR o junk k k) ≠ 0)
    (η c : ℝ) (hη : ∀ k < d, ∀ i < k, |val (s'.getR o junk k i)| ≤ η * |val (s'.getR o junk i i)|)
    (hc1 : 1 ≤ c) (hc : 1 ≤ c ^ 2 * (val δ * ((1 - u) / (1 + u)) ^ 2 - η ^ 2))
    (he : backErr n d u < 1) (g : ℝ) (hg : g = distortion d c η (backErr n d u)) (hg1 : g < 1)
    (x : Fin n → ℤ) (hx : x ∈ lattice (toMatrix n d A)) (hx0 : x ≠ 0) :
    (1 - backErr n d u) * (1 - g) * ‖bcol n s'.getbase.M 0‖ ≤
      c ^ (d - 1) * ‖(WithLp.toLp 2 fun i => (x i : ℝ) : E n)‖ := by
  obtain ⟨Q, hN, hl⟩ := fp_near hs hz junk n d hd A forU method longFlag vd S thr nb hA fuel δ v s' h hb hδ
    hdiag η c hη hc1 hc he
  subst hg
  have hlat := C01_hlll_preserves_lattice (o := o) junk n d A forU method longFlag vd S thr nb fuel δ v 0 s' h
  rw [← hlat.2.2, lattice, Submodule.mem_span_range_iff_exists_fun] at hx
  obtain ⟨z, hzx⟩ := hx
  set z' : Nat → ℤ := fun j => if hj : j < d then z ⟨j, hj⟩ else 0 with hz'
  have hzz : ∃ j < d, z' j ≠ 0 := by
    by_contra hcon
    push Not at hcon
    apply hx0
    rw [← hzx]
    refine sum_eq_zero fun j _ => ?_
    have := hcon j j.2
    simp only [hz', j.2, dif_pos, Fin.eta] at this
    rw [this, zero_smul]
  have hf := hN.first hg1 (by omega) z' hzz
  have ev : Cert.vcomb d (bcol n s'.getbase.M) (fun j => (z' j : ℝ)) =
      (WithLp.toLp 2 fun i => (x i : ℝ) : E n) := by
    unfold Cert.vcomb
    ext i
    rw [show (∑ j ∈ range d, (z' j : ℝ) • bcol n s'.getbase.M j) i =
      ∑ j ∈ range d, ((z' j : ℝ) • bcol n s'.getbase.M j) i by simp [WithLp.ofLp_sum]]
    rw [← Fin.sum_univ_eq_sum_range (fun j => ((z' j : ℝ) • bcol n s'.getbase.M j) i)]
    show _ = (x i : ℝ)
    rw [← hzx, Finset.sum_apply]
    push_cast
    refine sum_congr rfl fun j _ => ?_
    simp only [hz', j.2, dif_pos, Fin.eta, Pi.smul_apply, smul_eq_mul]
    simp [bcol, vc, toMatrix]
  rw [ev] at hf
  exact hf

/-- Non-vacuity: the run of C65; the quotients of `getR()` are at most `51/100`. -/
theorem rat_run' : ∃ t : Lat Rat, hlll (ratOps 53) 60 (mkRat 99 100) false
      (fresh (ratOps 53) 7 3 3 (ofCols [[1, 0, 13], [0, 1, 8], [0, 0, 21]]) true 0 true 0 1 1000000 100)
        = some (0, t) ∧ t.nblov < 100 ∧ toCols 3 3 t.getbase.M = [[-1, -1, 0], [-1, 2, 3], [-2, 3, -2]] ∧
    (∀ k < 3, t.getR (ratOps 53) 7 k k ≠ 0) ∧
    ∀ k < 3, ∀ i < k, |((t.getR (ratOps 53) 7 k i : Rat) : ℝ)| ≤
      51 / 100 * |((t.getR (ratOps 53) 7 i i : Rat) : ℝ)| := by
  have : (match hlll (ratOps 53) 60 (mkRat 99 100) false
      (fresh (ratOps 53) 7 3 3 (ofCols [[1, 0, 13], [0, 1, 8], [0, 0, 21]]) true 0 true 0 1 1000000 100) with
    | some (st, t) => decide (st = 0 ∧ t.nblov < 100 ∧
        toCols 3 3 t.getbase.M = [[-1, -1, 0], [-1, 2, 3], [-2, 3, -2]] ∧
        (List.range 3).all (fun k => decide ((t.getR (ratOps 53) 7 k k).num ≠ 0)) = true ∧
        (List.range 3).all (fun k => (List.range k).all fun i =>
          decide (t.getR (ratOps 53) 7 k i * t.getR (ratOps 53) 7 k i ≤
            mkRat 2601 10000 * (t.getR (ratOps 53) 7 i i * t.getR (ratOps 53) 7 i i))) = true)
    | none => false) = true := by decide +kernel
  split at this
  · rename_i st t e
    obtain ⟨rfl, h2, h3, h4, h5⟩ := of_decide_eq_true this
    refine ⟨t, e, h2, h3, fun k hk h0 => ?_, fun k hk i hi => ?_⟩
    · have := List.all_eq_true.mp h4 k (List.mem_range.mpr hk)
      rw [h0] at this
      simp at this
    · have := List.all_eq_true.mp (List.all_eq_true.mp h5 k (List.mem_range.mpr hk)) i
        (List.mem_range.mpr hi)
      have := of_decide_eq_true this
      have hr := (Rat.cast_le (K := ℝ)).mpr this
      rw [Rat.mkRat_eq_div] at hr
      push_cast at hr
      apply abs_le_of_sq_le_sq _ (by positivity)
      rw [mul_pow, sq_abs]
      calc ((t.getR (ratOps 53) 7 k i : Rat) : ℝ) ^ 2 =
          ((t.getR (ratOps 53) 7 k i : Rat) : ℝ) * ((t.getR (ratOps 53) 7 k i : Rat) : ℝ) := by ring
        _ ≤ _ := hr
        _ = _ := by ring
  · simp at this

theorem rat_prec : backErr 3 3 (4 / 2 ^ 53) ≤ 1 / 2 ^ 40 ∧
    distortion 3 (6 / 5) (51 / 100) (backErr 3 3 (4 / 2 ^ 53)) ≤ 1 / 2 ^ 35 := by
  have h1 := C65_error_size (n := 3) (j := 2) (u := 4 / 2 ^ 53) (by positivity) (by push_cast; norm_num)
  have h2 : backErr 3 3 (4 / 2 ^ 53) ≤ 1 / 2 ^ 40 := by
    unfold backErr
    refine h1.trans ?_
    push_cast; norm_num
  refine ⟨h2, ?_⟩
  unfold distortion
  have h3 : backErr 3 3 (4 / 2 ^ 53) / (1 - backErr 3 3 (4 / 2 ^ 53)) ≤ 2 / 2 ^ 40 := by
    rw [div_le_iff₀ (by norm_num at h2 ⊢; linarith)]
    norm_num at h2 ⊢; linarith
  push_cast
  norm_num at h3 ⊢
  linarith

/-- The hypotheses of the three theorems are met by this run. -/
example : ∃ t : Lat Rat, toCols 3 3 t.getbase.M = [[-1, -1, 0], [-1, 2, 3], [-2, 3, -2]] ∧
    LovaszCond (98 / 100) (toMatrix 3 3 t.getbase.M) ∧
    ∀ x ∈ lattice (toMatrix 3 3 (ofCols [[1, 0, 13], [0, 1, 8], [0, 0, 21]])), x ≠ 0 →
      ‖bcol 3 t.getbase.M 0‖ ≤ 3 / 2 * ‖(WithLp.toLp 2 fun i => (x i : ℝ) : E 3)‖ := by
  obtain ⟨t, h1, h2, h3, h4, h5⟩ := rat_run'
  obtain ⟨p1, p2⟩ := rat_prec
  set e := backErr 3 3 (4 / 2 ^ 53) with he
  set g := distortion 3 (6 / 5) (51 / 100) e with hg
  have hstd := ratOps_std 53 (by norm_num)
  have hdel : (((mkRat 99 100 : Rat)) : ℝ) = 99 / 100 := by rw [Rat.mkRat_eq_div]; push_cast; norm_num
  have hcc : (1 : ℝ) ≤ (6 / 5) ^ 2 * ((((mkRat 99 100 : Rat)) : ℝ) *
      ((1 - 4 / 2 ^ 53) / (1 + 4 / 2 ^ 53)) ^ 2 - (51 / 100) ^ 2) := by rw [hdel]; norm_num
  have he1 : e < 1 := by norm_num at p1 ⊢; linarith
  have hg1 : g < 1 := by norm_num at p2 ⊢; linarith
  have hN := fp_near hstd (ratOps_zero 53) 7 3 3 (by norm_num) _ true 0 true 0 1
    1000000 100 toy_rank 60 (mkRat 99 100) false t h1 h2
    (by rw [hdel]; norm_num) (fun k hk h0 => h4 k hk (by exact_mod_cast h0)) (51 / 100) (6 / 5) h5
    (by norm_num) hcc he1
  have hg0 : 0 ≤ g := by obtain ⟨Q, hQ, -⟩ := hN; exact hQ.distortion_nonneg
  have he0 : 0 ≤ e := by obtain ⟨Q, hQ, -⟩ := hN; exact hQ.e0
  obtain ⟨a1, -, -⟩ := C66_truly_reduced hstd (ratOps_zero 53) 7 3 3 (by norm_num) _ true 0 true 0 1
    1000000 100 toy_rank 60 (mkRat 99 100) false t h1 h2
    (by rw [hdel]; norm_num) (fun k hk h0 => h4 k hk (by exact_mod_cast h0)) (51 / 100) (6 / 5) h5
    (by norm_num) hcc he1 g hg hg1
  refine ⟨t, h3, ?_, ?_⟩
  · intro i j hij
    refine le_trans (mul_le_mul_of_nonneg_right ?_ (by positivity)) (a1 i j hij)
    rw [hdel]
    have b1 : (1 - 2 / 2 ^ 35 : ℝ) ≤ (1 - g) / (1 + g) := by
      rw [le_div_iff₀ (by linarith)]
      norm_num at p2 ⊢; nlinarith
    have b2 : (1 - 2 / 2 ^ 35 : ℝ) ^ 2 ≤ ((1 - g) / (1 + g)) ^ 2 :=
      pow_le_pow_left₀ (by norm_num) b1 2
    have b3 : (0 : ℝ) ≤ 99 / 100 * ((1 - 4 / 2 ^ 53) / (1 + 4 / 2 ^ 53)) ^ 2 := by positivity
    refine le_trans ?_ (mul_le_mul_of_nonneg_left b2 b3)
    norm_num
  · intro x hx hx0
    have a := C66_short_first_vector hstd (ratOps_zero 53) 7 3 3 (by norm_num) _ true 0 true 0 1
      1000000 100 toy_rank 60 (mkRat 99 100) false t h1 h2
      (by rw [hdel]; norm_num) (fun k hk h0 => h4 k hk (by exact_mod_cast h0)) (51 / 100) (6 / 5) h5
      (by norm_num) hcc he1 g hg hg1 x hx hx0
    rw [← he] at a
    have b : (97 / 100 : ℝ) ≤ (1 - e) * (1 - g) := by
      norm_num at p1 p2; nlinarith
    have b0 := norm_nonneg (bcol 3 t.getbase.M 0)
    have b1 := norm_nonneg (WithLp.toLp 2 fun i => (x i : ℝ) : E 3)
    have := mul_le_mul_of_nonneg_right b b0
    norm_num at a
    nlinarith

end HPLLL.Props
