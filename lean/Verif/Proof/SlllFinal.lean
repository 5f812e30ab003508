import Verif.Proof.SlllPhase
import Verif.Proof.HhAll
import Verif.Proof.CondMain
import Verif.Proof.ExactHist
/-! Segment LLL with status 0 in exact arithmetic. -/

namespace HPLLL
open Spec Finset InnerProductSpace

variable {o : FPOps ℝ}

theorem UniTri.norm0 {n d : ℕ} {A B : Mat Int} (hd : 0 < d) (h : UniTri n d A B) :
    HPLLL.colN n B 0 = HPLLL.colN n A 0 := by
  have := h.gs hd
  rwa [gsN_zero, gsN_zero] at this

theorem UniTri.trans'' {n d : ℕ} {A B C : Mat Int} (h1 : UniTri n d A B) (h2 : UniTri n d B C) {j : ℕ} (hj : j < d) :
    gramSchmidt ℝ (HPLLL.colN n C) j = gramSchmidt ℝ (HPLLL.colN n A) j :=
  (h2.gs hj).trans (h1.gs hj)

/-- The last iteration. -/
theorem sphases_exact (ho : Exact o) (c : SCst ℝ) {σ : Sched} (hσ : σ.Ok) {n d : ℕ} {A : Mat Int} (hd : 0 < d)
    (hA : FullColumnRank (toMatrix n d A)) (junk : ℝ) {δ : ℝ} (hδ : δ ≤ 1) (S lovmax : ℕ) (hS : 0 < S)
    (h2S : 2 * S ∣ d) (hlov : d / S ≤ lovmax) (fuel : ℕ) (L L' : SLat ℝ) (hdo : L.dorigin = d)
    (h : PhI n d A L.lat) (hr : sphases o c σ junk δ S lovmax fuel L = some (0, L')) :
    PhI n d A L'.lat ∧ SizeReduced (toMatrix n d L'.lat.B) ∧ ∃ L0 L1 : SLat ℝ, PhI n d A L0.lat ∧ PhI n d A L1.lat ∧
      UniTri n d L0.lat.B L1.lat.B ∧ UniTri n d L1.lat.B L'.lat.B ∧
      BlockSiegel c δ d (d / S) 0 S L0.lat.fp.R ∧
      BlockSiegel c δ d (d / S) (d / (2 * S)) (S - 1) L1.lat.fp.R := by
  induction fuel generalizing L with
  | zero => simp [sphases] at hr
  | succ fuel ih =>
    simp only [sphases] at hr
    split at hr
    · simp at hr
    rename_i st0 g0 L1 h0
    by_cases hg0 : 2 ≤ g0
    · rw [if_pos hg0] at hr
      simp only [Option.some.injEq, Prod.mk.injEq] at hr
      omega
    rw [if_neg hg0] at hr
    obtain ⟨a1, a2, a3, a4, a5⟩ := sphase_exact ho c hσ hd hA hdo h junk _ _ hδ S lovmax hS h2S hlov _ _ _ hg0 h0
    split at hr
    · simp at hr
    rename_i st1 g1 L2 h1
    by_cases hg1 : 2 ≤ g1
    · rw [if_pos hg1] at hr
      simp only [Option.some.injEq, Prod.mk.injEq] at hr
      omega
    rw [if_neg hg1] at hr
    obtain ⟨b1, b2, b3, b4, b5⟩ := sphase_exact ho c hσ hd hA a3 a1 junk _ _ hδ S lovmax hS h2S hlov _ _ _ hg1 h1
    split at hr
    · rename_i hst
      simp only [Option.some.injEq, Prod.mk.injEq, true_and] at hr
      subst hr
      obtain ⟨rfl, rfl⟩ : st0 = true ∧ st1 = true := by simpa using hst
      exact ⟨b1, b2, L, L1, h, a1, (a5 rfl).1, (b5 rfl).1, (a5 rfl).2, (b5 rfl).2⟩
    · exact ih L2 b3 b1 hr

/-- What the conversion `R -> RZ` has to do: a common scaling by `s`, each diagonal entry being within 1 of the scaled
entry, and the first column (of at least) `K` units long. -/
structure ConvScale (d : ℕ) (K : ℝ) (f : Mat ℝ → Mat Int) : Prop where
  scale : ∀ R : Mat ℝ, (∀ i < d, R i i ≠ 0) → ∃ s : ℝ, 0 < s ∧ K ≤ s * √(∑ r ∈ range d, R 0 r ^ 2) ∧
    ∀ i < d, |(f R i i : ℝ) - s * R i i| ≤ 1

theorem blockSiegel_pair {c : SCst ℝ} {n d : ℕ} {A : Mat Int} {K : ℝ} (hK : 0 < K) (hc : ConvScale d K c.setF)
    {δ : ℝ} (hδ0 : 1 / 4 < δ) (hδ : δ ≤ 1) {s : Lat ℝ} (h : PhI n d A s) {i : ℕ} (hi : i + 1 < d)
    (hb : (δ - 1 / 4) * (blockRZ c d s.fp.R i i : ℝ) ^ 2 ≤ (blockRZ c d s.fp.R (i + 1) (i + 1) : ℝ) ^ 2) :
    √(δ - 1 / 4) * (‖gramSchmidt ℝ (HPLLL.colN n s.B) i‖ - √2 * ‖HPLLL.colN n s.B 0‖ / K) ≤
      ‖gramSchmidt ℝ (HPLLL.colN n s.B) (i + 1)‖ + √2 * ‖HPLLL.colN n s.B 0‖ / K := by
  obtain ⟨t, ht, hKt, hconv⟩ := hc.scale s.fp.R h.rdiag
  have hconv' : ∀ j < d, |(|(blockRZ c d s.fp.R j j : ℝ)| - t * |s.fp.R j j|)| ≤ 1 := by
    intro j hj
    have h1 := hconv j hj
    have h2 : |(|(c.setF s.fp.R j j : ℝ)| - t * |s.fp.R j j|)| ≤ 1 := by
      have : t * |s.fp.R j j| = |t * s.fp.R j j| := by rw [abs_mul, abs_of_pos ht]
      rw [this]
      exact (abs_abs_sub_abs_le _ _).trans h1
    unfold blockRZ
    rw [if_pos ⟨hj, hj⟩, if_neg (lt_irrefl j)]
    split
    · rename_i h0
      rw [h0.2] at h2
      simp only [Int.cast_zero, abs_zero, zero_sub, abs_neg] at h2
      rw [abs_of_nonneg (by positivity)] at h2
      simp only [Int.cast_one, abs_one]
      rw [abs_le]; constructor
      · linarith
      · have : 0 ≤ t * |s.fp.R j j| := by positivity
        linarith
    · exact h2
  have hR : ∀ j < d, |s.fp.R j j| = ‖gramSchmidt ℝ (HPLLL.colN n s.B) j‖ := by
    intro j hj
    rw [← Real.sqrt_mul_self_eq_abs, h.diag j hj, Real.sqrt_sq (norm_nonneg _)]
  have c1 := hconv' i (by omega)
  have c2 := hconv' (i + 1) hi
  rw [hR i (by omega)] at c1
  rw [hR (i + 1) hi] at c2
  obtain ⟨q, hq⟩ : ∃ q, q = √(δ - 1 / 4) := ⟨_, rfl⟩
  have hq0 : 0 < q := by rw [hq]; exact Real.sqrt_pos.mpr (by linarith)
  have hq1 : q * q = δ - 1 / 4 := by rw [hq, Real.mul_self_sqrt (by linarith)]
  rw [← hq]
  obtain ⟨x, hx⟩ : ∃ x, x = |(blockRZ c d s.fp.R i i : ℝ)| := ⟨_, rfl⟩
  obtain ⟨y, hy⟩ : ∃ y, y = |(blockRZ c d s.fp.R (i + 1) (i + 1) : ℝ)| := ⟨_, rfl⟩
  rw [← hx] at c1
  rw [← hy] at c2
  rw [← sq_abs (blockRZ c d s.fp.R i i : ℝ), ← sq_abs (blockRZ c d s.fp.R (i + 1) (i + 1) : ℝ), ← hx, ← hy, ← hq1] at hb
  have hx0 : 0 ≤ x := hx ▸ abs_nonneg _
  have hy0 : 0 ≤ y := hy ▸ abs_nonneg _
  have hxy : q * x ≤ y := by
    refine le_of_sq_le_sq ?_ hy0
    nlinarith
  obtain ⟨u, hu⟩ : ∃ u, u = ‖gramSchmidt ℝ (HPLLL.colN n s.B) i‖ := ⟨_, rfl⟩
  obtain ⟨v, hv⟩ : ∃ v, v = ‖gramSchmidt ℝ (HPLLL.colN n s.B) (i + 1)‖ := ⟨_, rfl⟩
  rw [← hu] at c1 ⊢
  rw [← hv] at c2 ⊢
  have hinv : 1 / t ≤ √2 * ‖HPLLL.colN n s.B 0‖ / K := by
    have h1 : √(∑ r ∈ range d, s.fp.R 0 r ^ 2) ≤ √2 * ‖HPLLL.colN n s.B 0‖ := by
      calc _ ≤ √(2 * ‖HPLLL.colN n s.B 0‖ ^ 2) := Real.sqrt_le_sqrt h.col0
        _ = _ := by rw [Real.sqrt_mul (by norm_num), Real.sqrt_sq (norm_nonneg _)]
    rw [div_le_div_iff₀ ht hK]
    nlinarith [mul_le_mul_of_nonneg_left h1 ht.le]
  obtain ⟨e, he⟩ : ∃ e, e = √2 * ‖HPLLL.colN n s.B 0‖ / K := ⟨_, rfl⟩
  rw [← he] at hinv ⊢
  rw [abs_le] at c1 c2
  have k1 : q * (t * u - 1) ≤ t * v + 1 := by nlinarith
  have k2 : q * (u - 1 / t) ≤ v + 1 / t := by
    have : t * (q * (u - 1 / t)) ≤ t * (v + 1 / t) := by
      have e1 : t * (1 / t) = 1 := by field_simp
      calc t * (q * (u - 1 / t)) = q * (t * u - t * (1 / t)) := by ring
        _ ≤ t * v + t * (1 / t) := by rw [e1]; exact k1
        _ = _ := by ring
    exact le_of_mul_le_mul_left this ht
  nlinarith

theorem sphases_siegel (ho : Exact o) (c : SCst ℝ) {σ : Sched} (hσ : σ.Ok) {n d : ℕ} {A : Mat Int} (hd : 0 < d)
    (hA : FullColumnRank (toMatrix n d A)) (junk : ℝ) {δ : ℝ} (hδ0 : 1 / 4 < δ) (hδ : δ ≤ 1) (S lovmax : ℕ)
    (hS : 0 < S) {K : ℝ} (hK : 0 < K) (hc : ConvScale d K c.setF)
    (h2S : 2 * S ∣ d) (hlov : d / S ≤ lovmax) (fuel : ℕ) (L L' : SLat ℝ) (hdo : L.dorigin = d)
    (h : PhI n d A L.lat) (hr : sphases o c σ junk δ S lovmax fuel L = some (0, L')) :
    SizeReduced (toMatrix n d L'.lat.B) ∧ ∀ i, i + 1 < d →
    √(δ - 1 / 4) * (‖gramSchmidt ℝ (HPLLL.colN n L'.lat.B) i‖ - √2 * ‖HPLLL.colN n L'.lat.B 0‖ / K) ≤
      ‖gramSchmidt ℝ (HPLLL.colN n L'.lat.B) (i + 1)‖ + √2 * ‖HPLLL.colN n L'.lat.B 0‖ / K := by
  obtain ⟨-, h2, L0, L1, p0, p1, u0, u1, s0, s1⟩ :=
    sphases_exact ho c hσ hd hA junk hδ S lovmax hS h2S hlov fuel L L' hdo h hr
  refine ⟨h2, fun i hi => ?_⟩
  obtain ⟨q, hq⟩ := h2S
  have hw : d / S = 2 * q := by
    rw [hq, Nat.mul_comm 2 S, Nat.mul_assoc, Nat.mul_div_cancel_left _ hS]
  have hbq : d / (2 * S) = q := by rw [hq, Nat.mul_div_cancel_left _ (by omega)]
  have hq0 : 0 < q := by
    rcases Nat.eq_zero_or_pos q with rfl | h
    · omega
    · exact h
  rw [hw] at s0 s1
  rw [hbq] at s1
  have hdS : d = 2 * q * S := by rw [hq]; ring
  have hdm := Nat.div_add_mod i (2 * q)
  have hml := Nat.mod_lt i (show 0 < 2 * q by omega)
  obtain ⟨b, hb⟩ : ∃ b, b = i / (2 * q) := ⟨_, rfl⟩
  obtain ⟨j, hj⟩ : ∃ j, j = i % (2 * q) := ⟨_, rfl⟩
  rw [← hb, ← hj] at hdm
  rw [← hj] at hml
  have hbS : b < S := by rw [hb]; exact Nat.div_lt_of_lt_mul (by omega)
  have hcomm : 2 * q * b = b * (2 * q) := Nat.mul_comm _ _
  by_cases hjw : j + 1 < 2 * q
  · have := s0 b hbS j hjw
    have e1 : b * (2 * q) + 0 + j = i := by omega
    have e2 : b * (2 * q) + 0 + (j + 1) = i + 1 := by omega
    rw [e1, e2] at this
    have := blockSiegel_pair hK hc hδ0 hδ p0 hi this
    rwa [← u0.norm0 hd, ← u1.norm0 hd, ← u0.gs (by omega), ← u1.gs (by omega), ← u0.gs hi, ← u1.gs hi] at this
  · have hb1 : b + 1 < S := by
      by_contra hcon
      have : S = b + 1 := by omega
      rw [this, Nat.mul_succ] at hdS
      omega
    have := s1 b (by omega) (q - 1) (by omega)
    have e1 : b * (2 * q) + q + (q - 1) = i := by omega
    have e2 : b * (2 * q) + q + (q - 1 + 1) = i + 1 := by omega
    rw [e1, e2] at this
    have := blockSiegel_pair hK hc hδ0 hδ p1 hi this
    rwa [← u1.norm0 hd, ← u1.gs (by omega), ← u1.gs hi] at this

/-! ### The conversion -/

theorem fpNorm_exact (ho : Exact o) (v : ℕ → ℝ) {m : ℕ} (hm : 0 < m) :
    fpNorm o v m = √(∑ r ∈ range m, v r ^ 2) := by
  unfold fpNorm
  rw [fpNormSq_exact ho _ _ hm, ho.sqrt]
  congr 1
  exact sum_congr rfl fun r _ => (sq _).symm

theorem setFMin_spec (ho : Exact o) {d : ℕ} (hd : 0 < d) (R : Mat ℝ) (hR : ∀ i < d, R i i ≠ 0) :
    0 < setFMin o d R ∧ setFMin o d R ≤ √(∑ r ∈ range d, R 0 r ^ 2) ∧
      (∃ j < d, setFMin o d R = √(∑ r ∈ range d, R j r ^ 2)) := by
  have hpos : ∀ j < d, 0 < √(∑ r ∈ range d, R j r ^ 2) := by
    intro j hj
    refine Real.sqrt_pos.mpr (lt_of_lt_of_le ?_ (single_le_sum (f := fun r => R j r ^ 2) (fun r _ => sq_nonneg _) (mem_range.mpr hj)))
    have := hR j hj
    positivity
  have := forRange_ind (fun _ m => 0 < m ∧ m ≤ √(∑ r ∈ range d, R 0 r ^ 2) ∧
      ∃ j < d, m = √(∑ r ∈ range d, R j r ^ 2)) (show 1 ≤ d by omega)
    (fun j m => if o.lt (fpNorm o (R j) d) m then fpNorm o (R j) d else m) (fpNorm o (R 0) d)
    (by rw [fpNorm_exact ho _ hd]; exact ⟨hpos 0 hd, le_refl _, 0, hd, rfl⟩)
    (by
      intro j m _ hj ⟨h1, h2, h3⟩
      split
      · rename_i hlt
        rw [ho.lt] at hlt
        rw [fpNorm_exact ho _ hd] at hlt ⊢
        exact ⟨hpos j hj, by linarith, j, hj, rfl⟩
      · exact ⟨h1, h2, h3⟩)
  exact this

theorem setFDpe_conv (ho : Exact o) (ht : ∀ x : ℝ, |(o.toZ x : ℝ) - x| ≤ 1) {d : ℕ} (hd : 0 < d) (condbits : ℕ) :
    ConvScale d (2 ^ (condbits + 1)) (setFDpe o d condbits) := by
  constructor
  intro R hR
  obtain ⟨h1, h2, -⟩ := setFMin_spec ho hd R hR
  obtain ⟨m, hm⟩ : ∃ m, m = setFMin o d R := ⟨_, rfl⟩
  rw [← hm] at h1 h2
  refine ⟨2 ^ (condbits + 1) / m, by positivity, ?_, fun i hi => ?_⟩
  · rw [div_mul_eq_mul_div, le_div_iff₀ h1]
    exact mul_le_mul_of_nonneg_left h2 (by positivity)
  · unfold setFDpe
    rw [if_pos ⟨hi, hi⟩, ← hm, ho.div, ho.mul, ho.ofZ]
    have e : (2 : ℝ) ^ (condbits + 1) / m * R i i = R i i * ((2 ^ (condbits + 1) : ℤ) : ℝ) / m := by
      push_cast; ring
    rw [e]
    exact ht _

/-! ### Start -/

theorem hhAllCol_Bfp (n d : ℕ) (B : Mat Int) (κ : ℕ) (p : FPart ℝ) : (hhAllCol o n d B κ p).Bfp = p.Bfp := by
  have : ∀ (l : List ℕ) (q : FPart ℝ), (l.foldl (fun p k => hhAllApply o n κ k p) q).Bfp = q.Bfp := by
    intro l
    induction l with
    | nil => intro q; rfl
    | cons a l ih => intro q; rw [List.foldl_cons, ih]; rfl
  simp only [hhAllCol]
  show ((List.range κ).foldl (fun p k => hhAllApply o n κ k p) _).Bfp = _
  rw [this]

/-- `householder` and the padding of `R`, without padding. -/
theorem start_exact (ho : Exact o) {n d : ℕ} {A : Mat Int} (hd : 0 < d) (hA : FullColumnRank (toMatrix n d A))
    (L : SLat ℝ) (hdo : L.dorigin = d) (hI : LInv n d A False L.lat) (hS : 0 < L.lat.numS)
    (hf : L.lat.seysenFlag < 1) (hstr : ∀ i j, L.lat.str i = L.lat.str j) (hb : ∀ c r, L.lat.fp.Bfp c r = 0) :
    PhI n d A ((L.householder o).padR o).lat ∧ ((L.householder o).padR o).dorigin = d := by
  refine ⟨?_, hdo⟩
  have hdn := fcr_le hd hA hI
  have hLd : L.lat.d = d := hI.hd
  have hLn : L.lat.n = n := hI.hn
  have hfull := (hI.geo hA)
  have hB : FullColumnRank (toMatrix n d L.lat.B) := by
    obtain ⟨W, hW, e, -⟩ := hI.uni
    rw [e]
    exact fcr_mul_unit hW hA
  have hdk : (if L.dorigin = 0 then L.lat.d else L.dorigin) = L.lat.d := by rw [hdo, if_neg (by omega), hLd]
  have hfp : ((L.householder o).padR o).lat.fp = (L.lat.householder o).fp := by
    show ({ (L.householder o).lat.fp with R := _ } : FPart ℝ) = _
    have e1 : (L.householder o).lat.fp = (L.lat.householder o).fp := by
      unfold SLat.householder Lat.householder
      simp only [hdk]
    have e2 : (L.householder o).dorigin = d := hdo
    have e3 : (L.householder o).lat.d = d := hLd
    have : (fun j i => if i = j ∧ (L.householder o).dorigin ≤ j ∧ j < (L.householder o).lat.d then
        o.ofZ (L.householder o).amax else (L.householder o).lat.fp.R j i) = (L.householder o).lat.fp.R := by
      funext j i; rw [if_neg (by omega)]
    rw [this]
    exact e1
  have hq := hhAll_spec ho (n := n) L.lat.B L.lat.fp hB hdn d (le_refl _)
  simp only [] at hq
  refine PhI.of_qr (str := fun _ => (n : ℤ) - 1) hd hdn (hI.congr rfl rfl rfl rfl rfl rfl rfl rfl) hS hf hstr ?_ ?_ ?_
  · intro c _ r _ _
    rw [hfp]
    have : (L.lat.householder o).fp.Bfp = L.lat.fp.Bfp := by
      show ((List.range L.lat.d).foldl (fun p κ => hhAllCol o L.lat.n L.lat.d L.lat.B κ p) L.lat.fp).Bfp = _
      have : ∀ (l : List ℕ) (q : FPart ℝ),
          (l.foldl (fun p κ => hhAllCol o L.lat.n L.lat.d L.lat.B κ p) q).Bfp = q.Bfp := by
        intro l
        induction l with
        | nil => intro q; rfl
        | cons a l ih => intro q; rw [List.foldl_cons, ih, hhAllCol_Bfp]
      exact this _ _
    rw [this]; exact hb c r
  · rw [hfp]
    show QRv n _ L.lat.B ((List.range L.lat.d).foldl (fun p κ => hhAllCol o L.lat.n L.lat.d L.lat.B κ p) L.lat.fp).V
      ((List.range L.lat.d).foldl (fun p κ => hhAllCol o L.lat.n L.lat.d L.lat.B κ p) L.lat.fp).R d
    rw [hLn, hLd]; exact hq
  · intro r h1 h2
    rw [hfp, householder_lower ho L.lat r 0 (by omega) (by omega)]
    nlinarith [sq_nonneg (bv n ((L.householder o).padR o).lat.B 0 r)]

/-- A fresh object without padding, after `householder`. -/
theorem fresh_exact (ho : Exact o) (n d : ℕ) (hd : 0 < d) (A : Mat Int)
    (hA : FullColumnRank (toMatrix n d A)) (S0 : ℕ) (h2S0 : 2 * S0 ∣ d) (forU : Bool) (method : ℤ) (hm : method < 1)
    (lf : Bool) (vd : ℤ) (junk : ℝ) (LV : SLat ℝ) (hLV : LV = { newSLattice o junk n d A S0 forU method lf vd with
      lat := { (newSLattice o junk n d A S0 forU method lf vd).lat with verboseDepth := vd - 1 } }) :
    FullColumnRank (toMatrix n d (padBasis n d S0 A)) ∧
    PhI n d (padBasis n d S0 A) ((LV.householder o).padR o).lat ∧ ((LV.householder o).padR o).dorigin = d := by
  have hpad : padLen d S0 = 0 := by unfold padLen; rw [if_pos (Nat.mod_eq_zero_of_dvd h2S0)]
  have hM : toMatrix n d (padBasis n d S0 A) = toMatrix n d A := by
    ext i j
    show padBasis n d S0 A j i = A j i
    unfold padBasis; rw [if_pos ⟨i.2, j.2⟩]
  subst hLV
  refine ⟨by rw [hM]; exact hA, ?_⟩
  refine start_exact ho hd (by rw [hM]; exact hA) _ rfl ?_ Nat.zero_lt_one hm (fun _ _ => rfl)
    (fun _ _ => ho.zero)
  refine ⟨by show n + padLen d S0 = n; omega, by show d + padLen d S0 = d; omega, ?_, fun _ _ _ _ => le_refl _, ?_,
    False.elim, False.elim, False.elim, 1, by simp, (Matrix.mul_one _).symm, False.elim⟩
  · intro j _
    have := matrixStructure_lt (n + padLen d S0) (padBasis n d S0 A) (d + padLen d S0 - 1)
    show matrixStructure (n + padLen d S0) (padBasis n d S0 A) (d + padLen d S0 - 1) < n
    omega
  · intro j hj r hr hs
    have h1 : matrixStructure (n + padLen d S0) (padBasis n d S0 A) (d + padLen d S0 - 1) < r := hs
    have h2 := matrixStructure_mono (n + padLen d S0) (padBasis n d S0 A) (i := j) (j := d + padLen d S0 - 1) (by omega)
    exact matrixStructure_supp (n + padLen d S0) (padBasis n d S0 A) j r (by omega) (by omega)

/-- Segment LLL with status 0. -/
theorem slll_exact (ho : Exact o) (c : SCst ℝ) {σ : Sched} (hσ : σ.Ok) (n d : ℕ) (hd : 0 < d) (A : Mat Int)
    (hA : FullColumnRank (toMatrix n d A)) (S0 : ℕ) (h2S0 : 2 * S0 ∣ d) (forU : Bool) (method : ℤ) (hm : method < 1)
    (lf : Bool) (vd : ℤ) (junk : ℝ) (fuel : ℕ) {δ : ℝ} (hδ0 : 1 / 4 < δ) (hδ : δ ≤ 1) (S lovmax : ℕ)
    (hS : 0 < S) {K : ℝ} (hK : 0 < K) (hc : ConvScale d K c.setF)
    (h2S : 2 * S ∣ d) (hlov : d / S ≤ lovmax) (L' : SLat ℝ)
    (hr : (newSLattice o junk n d A S0 forU method lf vd).hlll o c σ junk fuel δ S lovmax = some (0, L')) :
    SizeReduced (toMatrix n d L'.lat.B) ∧ ∀ i, i + 1 < d →
    √(δ - 1 / 4) * (‖gramSchmidt ℝ (HPLLL.colN n L'.lat.B) i‖ - √2 * ‖HPLLL.colN n L'.lat.B 0‖ / K) ≤
      ‖gramSchmidt ℝ (HPLLL.colN n L'.lat.B) (i + 1)‖ + √2 * ‖HPLLL.colN n L'.lat.B 0‖ / K := by
  unfold SLat.hlll at hr
  simp only [] at hr
  split at hr
  · simp at hr
  rename_i g1 L1 h1
  simp only [Option.some.injEq, Prod.mk.injEq] at hr
  obtain ⟨rfl, rfl⟩ := hr
  obtain ⟨hF, hP, hdo⟩ := fresh_exact ho n d hd A hA S0 h2S0 forU method hm lf vd junk _ rfl
  exact sphases_siegel ho c hσ hd hF junk hδ0 hδ S lovmax hS hK hc h2S hlov fuel _ L1 hdo hP h1

end HPLLL
