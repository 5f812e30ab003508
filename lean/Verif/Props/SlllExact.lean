import Verif.Proof.SlllFix
import Verif.Props.Slll
/-!
# Segment LLL in exact arithmetic: C82
-/

namespace HPLLL.Props
open HPLLL Spec Finset InnerProductSpace

variable {o : FPOps ℝ}

theorem colVec_nat {n d : ℕ} (B : Mat Int) (j : Fin d) : colVec (toMatrix n d B) j = HPLLL.colN n B j := rfl

/-- Decrease of a sequence by a factor `q` and an offset. -/
theorem geom_decrease {q e : ℝ} (hq0 : 0 ≤ q) (hq1 : 100 * q ≤ 87) (he : 0 ≤ e) (g : ℕ → ℝ) {d : ℕ}
    (h : ∀ i, i + 1 < d → q * (g i - e) ≤ g (i + 1) + e) : ∀ i < d, q ^ i * g 0 - 15 * e ≤ g i := by
  intro i
  induction i with
  | zero => intro _; simp; linarith
  | succ i ih =>
    intro hi
    have h1 := ih (by omega)
    have h2 := h i hi
    have h3 : q * (q ^ i * g 0 - 15 * e) ≤ q * g i := mul_le_mul_of_nonneg_left h1 hq0
    have h4 : q ^ (i + 1) * g 0 = q * (q ^ i * g 0) := by rw [pow_succ]; ring
    have h5 : q * (15 * e) + q * e + e ≤ 15 * e := by nlinarith
    rw [h4]
    nlinarith

/-- **C82.** `hlll(delta, S, nbthreads, lovmax)` on a fresh `SLattice(A, S0, ..)` with `2 S` and `2 S0` dividing `d` (no
padding), in exact arithmetic, `R` being converted to integers by `set_f(RZ, R, 63)`, for every schedule.  Status 0 means:
the columns of `getbase()` generate the lattice of `A`, they are size reduced, and consecutive Gram–Schmidt norms do not
decrease by more than the factor `sqrt(delta - 1/4)`, up to a relative error of `2^(-63.5)` of the length of the first vector;
so the first vector is short. -/
theorem C82_segment_reduced (ho : Exact o) (ht : ∀ x : ℝ, |(o.toZ x : ℝ) - x| ≤ 1) (c : SCst ℝ) (σ : Sched) (hσ : σ.Ok)
    (n d : ℕ) (hd : 0 < d) (hc : c.setF = setFDpe o d 63) (A : Mat Int) (hA : FullColumnRank (toMatrix n d A))
    (S0 : ℕ) (h2S0 : 2 * S0 ∣ d) (forU : Bool) (method : ℤ) (hm : method < 1) (lf : Bool) (vd : ℤ) (junk : ℝ)
    (fuel : ℕ) (δ : ℝ) (hδ0 : 1 / 4 < δ) (hδ : δ ≤ 1) (S lovmax : ℕ) (hS : 0 < S) (h2S : 2 * S ∣ d)
    (hlov : d / S ≤ lovmax) (L' : SLat ℝ)
    (hr : (newSLattice o junk n d A S0 forU method lf vd).hlll o c σ junk fuel δ S lovmax = some (0, L')) :
    lattice (toMatrix n d L'.getbase.M) = lattice (toMatrix n d A) ∧
    SizeReduced (toMatrix n d L'.getbase.M) ∧
    (∀ i j : Fin d, (j : ℕ) + 1 = i →
      √(δ - 1 / 4) * (‖gs (toMatrix n d L'.getbase.M) j‖ -
          √2 / 2 ^ 64 * ‖colVec (toMatrix n d L'.getbase.M) ⟨0, hd⟩‖) ≤
        ‖gs (toMatrix n d L'.getbase.M) i‖ + √2 / 2 ^ 64 * ‖colVec (toMatrix n d L'.getbase.M) ⟨0, hd⟩‖) ∧
    ∀ v ∈ lattice (toMatrix n d A), v ≠ 0 →
      ‖colVec (toMatrix n d L'.getbase.M) ⟨0, hd⟩‖ * (√(δ - 1 / 4) ^ (d - 1) - 22 / 2 ^ 64) ≤
        √(∑ i, (v i : ℝ) ^ 2) := by
  have hlat := (C38_segment_lll o c σ hσ junk n d hd A S0 forU method lf vd fuel δ S lovmax hS 0 L' hr).2.2.2.2.2.1 h2S0
  have hK : (0 : ℝ) < 2 ^ (63 + 1) := by positivity
  have hcv : ConvScale d (2 ^ (63 + 1)) c.setF := by rw [hc]; exact setFDpe_conv ho ht hd 63
  obtain ⟨h1, h2⟩ := slll_exact ho c hσ n d hd A hA S0 h2S0 forU method hm lf vd junk fuel hδ0 hδ S lovmax hS hK
    hcv h2S hlov L' hr
  have hM : toMatrix n d L'.getbase.M = toMatrix n d L'.lat.B := rfl
  rw [hM] at hlat ⊢
  have hgs : ∀ i : Fin d, gs (toMatrix n d L'.lat.B) i = gramSchmidt ℝ (HPLLL.colN n L'.lat.B) i := gs_nat _
  obtain ⟨b, hb⟩ : ∃ b, b = ‖HPLLL.colN n L'.lat.B 0‖ := ⟨_, rfl⟩
  have hb0 : 0 ≤ b := hb ▸ norm_nonneg _
  have hcol : ‖colVec (toMatrix n d L'.lat.B) ⟨0, hd⟩‖ = b := by rw [hb]; rfl
  have he : √2 * b / 2 ^ (63 + 1) = √2 / 2 ^ 64 * b := by ring
  rw [← hb] at h2
  simp only [he] at h2
  refine ⟨hlat, h1, ?_, ?_⟩
  · intro i j hij
    have := h2 j (by omega)
    rw [hgs, hgs, hcol, ← hij]
    exact this
  · intro v hv hv0
    rw [← hlat] at hv
    have hq0 : 0 < √(δ - 1 / 4) := Real.sqrt_pos.mpr (by linarith)
    have hq1 : 100 * √(δ - 1 / 4) ≤ 87 := by
      have : √(δ - 1 / 4) ≤ 87 / 100 := by
        rw [Real.sqrt_le_left (by norm_num)]; norm_num; linarith
      linarith
    obtain ⟨q, hq⟩ : ∃ q, q = √(δ - 1 / 4) := ⟨_, rfl⟩
    rw [← hq] at hq0 hq1 h2 ⊢
    have hs2 : 100 * √2 ≤ 142 := by
      have : √2 ≤ 142 / 100 := by rw [Real.sqrt_le_left (by norm_num)]; norm_num
      linarith
    have hdec := geom_decrease hq0.le hq1 (by positivity) (fun i => ‖gramSchmidt ℝ (HPLLL.colN n L'.lat.B) i‖) h2
    unfold lattice at hv
    rw [Submodule.mem_span_range_iff_exists_fun] at hv
    obtain ⟨z, hz⟩ := hv
    have hz0 : z ≠ 0 := by
      rintro rfl; apply hv0; rw [← hz]; simp
    obtain ⟨i, hi⟩ := exists_gs_le (toMatrix n d L'.lat.B) z hz0
    have hvn : ‖∑ j, (z j : ℝ) • colVec (toMatrix n d L'.lat.B) j‖ ^ 2 = ∑ i, (v i : ℝ) ^ 2 := by
      rw [EuclideanSpace.norm_sq_eq]
      refine sum_congr rfl fun r _ => ?_
      rw [← hz]
      simp [colVec, Finset.sum_apply]
    rw [← hvn, Real.sqrt_sq (norm_nonneg _), hcol]
    refine le_trans ?_ hi
    have hd1 := hdec i i.2
    simp only [gsN_zero, ← hb, ← hgs] at hd1
    refine le_trans ?_ hd1
    have hp : q ^ (d - 1) ≤ q ^ (i : ℕ) := pow_le_pow_of_le_one hq0.le (by linarith) (by omega)
    have h3 := mul_le_mul_of_nonneg_left hp hb0
    have h4 : 15 * (√2 / 2 ^ 64 * b) ≤ 22 / 2 ^ 64 * b := by
      have : 15 * (√2 / 2 ^ 64) ≤ 22 / 2 ^ 64 := by
        rw [← mul_div_assoc]
        exact div_le_div_of_nonneg_right (by linarith) (by positivity)
      nlinarith
    nlinarith

/-- **C82, reduced bases.** If the Gram–Schmidt norms of the columns of `A` do not decrease, the call returns status 0 (after
one iteration), for every schedule. -/
theorem C82_reduced_input (ho : ExactTies o) (ht : ∀ x : ℝ, |(o.toZ x : ℝ) - x| ≤ 1) (c : SCst ℝ) (heps : c.eps9 ≤ 1)
    (σ : Sched) (hσ : σ.Ok)
    (n d : ℕ) (hd : 0 < d) (hc : c.setF = setFDpe o d 63) (A : Mat Int) (hA : FullColumnRank (toMatrix n d A))
    (hG : ∀ i j : Fin d, (j : ℕ) + 1 = i → ‖gs (toMatrix n d A) j‖ ≤ ‖gs (toMatrix n d A) i‖)
    (S0 : ℕ) (h2S0 : 2 * S0 ∣ d) (forU : Bool) (method : ℤ) (hm : method < 1) (lf : Bool) (vd : ℤ) (junk : ℝ)
    (δ : ℝ) (hδ : δ + 1 / 2 ^ 60 ≤ 1) (S lovmax : ℕ) (hS : 0 < S) (h2S : 2 * S ∣ d) (hlov : d / S ≤ lovmax) :
    ∃ N, ∀ fuel, N ≤ fuel → ∃ L',
      (newSLattice o junk n d A S0 forU method lf vd).hlll o c σ junk fuel δ S lovmax = some (0, L') := by
  have hcv : ConvScale d (2 ^ (63 + 1)) c.setF := by rw [hc]; exact setFDpe_conv ho.toExact ht hd 63
  have hM : toMatrix n d (padBasis n d S0 A) = toMatrix n d A := by
    ext i j
    show padBasis n d S0 A j i = A j i
    exact padBasis_orig n d S0 A i j i.2 j.2
  have hG' : GsMono n d (padBasis n d S0 A) := by
    intro i hi
    have := hG ⟨i + 1, hi⟩ ⟨i, by omega⟩ rfl
    rw [← hM, gs_nat, gs_nat] at this
    exact this
  have h60 : (1 : ℝ) / 2 ^ 60 * 2 ^ (63 + 1) = 16 := by norm_num
  have hK : (0 : ℝ) < 2 ^ (63 + 1) := by positivity
  obtain ⟨N, L1, hN⟩ := slll_fix ho c heps n d S0 hd A hA hG' hcv h2S0 forU method hm lf vd junk (δ := δ)
    (by
      have : (1 : ℝ) / 2 ^ 60 * 2 ^ (63 + 1) ≤ (1 - δ) * 2 ^ (63 + 1) :=
        mul_le_mul_of_nonneg_right (by linarith) hK.le
      rw [h60] at this
      exact le_trans (by norm_num) this)
    (by have : (0 : ℝ) < 1 / 2 ^ 60 := by positivity
        linarith)
    (by norm_num) S lovmax hS h2S hlov
  refine ⟨N, fun fuel hf => ?_⟩
  have h := slll_sched o c hσ Sched.seq_ok junk fuel δ S lovmax (newSLattice o junk n d A S0 forU method lf vd)
  rw [hN fuel hf] at h
  simp only [Option.map_some, Option.map_eq_some_iff] at h
  obtain ⟨⟨g, L2⟩, h1, h2⟩ := h
  simp only [Prod.mk.injEq] at h2
  rw [h1]
  exact ⟨L2, by rw [h2.1]⟩

/-- Constants for exact arithmetic. -/
noncomputable def realSC (d : ℕ) : SCst ℝ where
  p501 := 501 / 1000
  thousandth := 1 / 1000
  eps9 := 1 / 1000000000
  setF := setFDpe realOps d 63

theorem realOps_toZ (x : ℝ) : |(realOps.toZ x : ℝ) - x| ≤ 1 := by
  show |((round x : ℤ) : ℝ) - x| ≤ 1
  rw [abs_sub_comm]
  exact (abs_sub_round x).trans (by norm_num)

/-- The hypotheses are met by the identity of any dimension `d`, `2 S | d`; the run returns status 0. -/
example (q S : ℕ) (hq : 0 < q) (hS : 0 < S) : ∃ fuel L',
    (newSLattice realOps 0 (2 * S * q) (2 * S * q) idMat S true 0 true 0).hlll realOps (realSC (2 * S * q)) Sched.seq 0 fuel
      (99 / 100) S (2 * S * q) = some (0, L') := by
  have hpos : 0 < 2 * S * q := by positivity
  have hnorm := norm_gs_triangular (w := 2 * S * q) idMat (fun j i h _ => by simp [idMat]; omega)
    (fun j _ => by simp [idMat])
  obtain ⟨N, h⟩ := C82_reduced_input realOps_exact realOps_toZ (realSC (2 * S * q)) (by norm_num [realSC]) Sched.seq
    Sched.seq_ok (2 * S * q) (2 * S * q) hpos rfl idMat
    (fullRank_triangular idMat (fun j i h _ => by simp [idMat]; omega) (fun j _ => by simp [idMat]))
    (by
      intro i j _
      rw [gs_nat, gs_nat]
      have h1 := hnorm j j.2
      have h2 := hnorm i i.2
      have e : ∀ k : ℕ, (idMat k k : ℤ) = 1 := fun k => by simp [idMat]
      rw [e] at h1 h2
      refine le_of_eq ?_
      rw [← abs_of_nonneg (norm_nonneg (gramSchmidt ℝ (HPLLL.colN (2 * S * q) idMat) (j : ℕ))),
        ← abs_of_nonneg (norm_nonneg (gramSchmidt ℝ (HPLLL.colN (2 * S * q) idMat) (i : ℕ))), ← sq_eq_sq_iff_abs_eq_abs,
        h1, h2])
    S ⟨q, rfl⟩ true 0 (by norm_num) true 0 0 (99 / 100) (by norm_num) S (2 * S * q) hS ⟨q, rfl⟩ (Nat.div_le_self _ _)
  obtain ⟨L', hL⟩ := h N (le_refl _)
  exact ⟨N, L', hL⟩

end HPLLL.Props
