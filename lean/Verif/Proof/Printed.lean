import Verif.Model.Printed
import Verif.Spec.Cert
import Verif.Proof.CondMain
import Verif.Proof.MatH
import Verif.Proof.ExactHist
/-! The values printed by `isreduced`, in exact arithmetic. -/

namespace HPLLL
open Spec Finset Matrix

variable {o : FPOps ℝ}

/-- What is needed of a triangular factor. -/
structure RFacts (n d : ℕ) (B : Mat Int) (R : Mat ℝ) : Prop where
  diag : ∀ i < d, R i i ≠ 0
  norm : ∀ i : Fin d, |R i i| = ‖gs (toMatrix n d B) i‖
  mu : ∀ i j : Fin d, j < i → mu (toMatrix n d B) i j = R i j / R j j
  det : (((toMatrix n d B)ᵀ * toMatrix n d B).det : ℝ) = ∏ k ∈ range d, R k k * R k k

theorem QRv.facts {n d : ℕ} {str : ℕ → ℤ} {B : Mat Int} {V R : Mat ℝ} (hdn : d ≤ n)
    (h : QRv n str B V R d) : RFacts n d B R := by
  refine ⟨h.rdiag, fun i => ?_, fun i j hj => h.mu_eq hdn i j hj, ?_⟩
  · have := h.norm_gs hdn i
    rw [← Real.sqrt_sq (norm_nonneg (gs (toMatrix n d B) i)), this, Real.sqrt_mul_self_eq_abs]
  · have := h.gd_prod hdn
    unfold gd at this
    exact this

theorem householder_rfacts (ho : Exact o) (s : Lat ℝ) (hA : FullColumnRank (toMatrix s.n s.d s.B))
    (hdn : s.d ≤ s.n) : RFacts s.n s.d s.B (s.householder o).fp.R :=
  QRv.facts hdn (hhAll_spec ho s.B s.fp hA hdn s.d (le_refl _))

/-- The factor at the end of a reduction. -/
theorem ExReady.hlll_qr (ho : Exact o) {n d : ℕ} {A : Mat Int} {s s' : Lat ℝ}
    (hA : FullColumnRank (toMatrix n d A)) (hR : ExReady n d A s) {fuel : ℕ} {δ : ℝ} (hδ : δ ≤ 1)
    {v : Bool} {st : ℤ} (h : HPLLL.hlll o fuel δ v s = some (st, s')) (hd : 2 ≤ d)
    (hb : s'.nblov < s'.nblovMax) :
    d ≤ n ∧ QRv n s'.str s'.B s'.fp.V s'.fp.R d := by
  have hE := hR.init (o := o) δ v
  have hX := hlll_exit o fuel δ v s s' st hR.inv (le_of_eq hR.km) h
  unfold HPLLL.hlll at h
  simp only [] at h
  split at h
  · simp at h
  · rename_i st1 s1 hl
    simp only [Option.some.injEq, Prod.mk.injEq] at h
    obtain ⟨rfl, h⟩ := h
    have hkm : (hlllInit o (if v then { s with verboseDepth := s.verboseDepth - 1 } else s)).s.kappaMax
        = d := by cases v <;> exact hR.km
    have hEx := ExInv.loop ho hA fuel _ hE hkm _ _ hl
    have hst : st1 = 0 := by
      rcases hX.status with h | h
      · exact h
      · exact absurd hδ (hEx.fail h)
    subst hst
    have eB : s'.B = s1.B := by rw [← h]; cases v <;> rfl
    have eS : s'.str = s1.str := by rw [← h]; cases v <;> rfl
    have eF : s'.fp = s1.fp := by rw [← h]; cases v <;> rfl
    have eN : s'.nblov = s1.nblov := by rw [← h]; cases v <;> rfl
    have eM : s'.nblovMax = s1.nblovMax := by rw [← h]; cases v <;> rfl
    obtain ⟨h2, hE2, e2, hd2⟩ := hEx.done rfl (by omega)
    have hk := hE2.kd
    have hκ : h2.kappa = d := by omega
    have hg := hE2.inv.geo hA
    have hdn : d ≤ n := by
      have := hg.diag (d - 1) (by omega); have := hg.le (d - 1) (by omega); omega
    have hq := (hE2.head.full (by omega)).qr
    rw [hκ] at hq
    rw [eB, eS, eF, ← e2]
    exact ⟨hdn, hq⟩

/-- Bound on the number of tests of one call. -/
theorem ExReady.nblov_le (ho : Exact o) {n d : ℕ} {A : Mat Int} {s s' : Lat ℝ}
    (hA : FullColumnRank (toMatrix n d A)) (hR : ExReady n d A s) {fuel : ℕ} {δ : ℝ} (hδ : δ ≤ 1)
    {v : Bool} {st : ℤ} (h : HPLLL.hlll o fuel δ v s = some (st, s')) :
    s'.nblov + 1 ≤ s.nblov + (2 * pot n d s.B + d) := by
  have hE := hR.init (o := o) δ v
  unfold HPLLL.hlll at h
  simp only [] at h
  split at h
  · simp at h
  · rename_i st1 s1 hl
    simp only [Option.some.injEq, Prod.mk.injEq] at h
    obtain ⟨rfl, h⟩ := h
    have hkm : (hlllInit o (if v then { s with verboseDepth := s.verboseDepth - 1 } else s)).s.kappaMax
        = d := by cases v <;> exact hR.km
    have eN : s'.nblov = s1.nblov := by rw [← h]; cases v <;> rfl
    have := ExInv.loop_nblov ho hδ hA fuel _ hE hkm _ _ hl
    rw [eN]
    have e1 : (hlllInit o (if v then { s with verboseDepth := s.verboseDepth - 1 } else s)).s.nblov = s.nblov := by
      cases v <;> rfl
    have e2 : (hlllInit o (if v then { s with verboseDepth := s.verboseDepth - 1 } else s)).s.B = s.B := by
      cases v <;> rfl
    rw [e1, e2] at this
    omega

/-- The printed `delta`. -/
theorem printedDelta_greatest (ho : Exact o) {n d : ℕ} {B : Mat Int} {R : Mat ℝ} (hd : 2 ≤ d)
    (hR : RFacts n d B R) :
    IsGreatest {δ : ℝ | δ ≤ 1 ∧ LovaszCond δ (toMatrix n d B)} (printedDelta o d R) := by
  obtain ⟨f2, f3, f4, -⟩ := hR
  let q : ℕ → ℝ := fun k => (R (k + 1) k * R (k + 1) k + R (k + 1) (k + 1) * R (k + 1) (k + 1)) / (R k k * R k k)
  have hlov : ∀ δ : ℝ, LovaszCond δ (toMatrix n d B) ↔ ∀ k, k + 1 < d → δ ≤ q k := by
    intro δ
    have key : ∀ k (h : k + 1 < d), (δ * ‖gs (toMatrix n d B) ⟨k, by omega⟩‖ ^ 2 ≤
        ‖gs (toMatrix n d B) ⟨k + 1, h⟩‖ ^ 2 +
          Spec.mu (toMatrix n d B) ⟨k + 1, h⟩ ⟨k, by omega⟩ ^ 2 *
            ‖gs (toMatrix n d B) ⟨k, by omega⟩‖ ^ 2) ↔ δ ≤ q k := by
      intro k h
      have g1 : |R k k| = ‖gs (toMatrix n d B) ⟨k, by omega⟩‖ := f3 ⟨k, by omega⟩
      have g2 : |R (k + 1) (k + 1)| = ‖gs (toMatrix n d B) ⟨k + 1, h⟩‖ := f3 ⟨k + 1, h⟩
      have g3 : Spec.mu (toMatrix n d B) ⟨k + 1, h⟩ ⟨k, by omega⟩ = R (k + 1) k / R k k :=
        f4 ⟨k + 1, h⟩ ⟨k, by omega⟩ (by simp [Fin.lt_def])
      have hne := f2 k (by omega)
      rw [← g1, ← g2, g3, sq_abs, sq_abs]
      have hpos : 0 < R k k * R k k := by rw [← pow_two]; positivity
      simp only [q]
      rw [le_div_iff₀ hpos]
      have e : (R (k + 1) k / R k k) ^ 2 * R k k ^ 2 = R (k + 1) k * R (k + 1) k := by
        field_simp
      rw [e, pow_two, pow_two]
      constructor <;> intro h <;> linarith
    constructor
    · intro h k hk
      exact (key k hk).1 (h ⟨k + 1, hk⟩ ⟨k, by omega⟩ rfl)
    · intro h i j hij
      have hi : (j : ℕ) + 1 < d := by have := i.2; omega
      have := (key j hi).2 (h j hi)
      have ei : i = ⟨j + 1, hi⟩ := Fin.ext hij.symm
      rw [ei]
      exact this
  have hval : printedDelta o d R = forRange 1 (d - 1) (fun k c => if q k < c then q k else c)
      (if 1 ≤ q 0 then 1 else q 0) := by
    unfold printedDelta
    have e1 : ∀ (x y : ℝ), (if o.lt x y then x else y) = if x < y then x else y := by
      intro x y; simp [ho.lt]
    have e2 : ∀ x : ℝ, (if o.le 1 x then (1 : ℝ) else x) = if 1 ≤ x then 1 else x := by
      intro x; simp [ho.le]
    simp only [ho.div, ho.add, ho.mul, ho.one, e1, e2, q]
  have hmin := forRange_ind (fun b m => (m ≤ 1) ∧ (∀ k < b, m ≤ q k) ∧ (m = 1 ∨ ∃ k < b, m = q k))
    (show 1 ≤ d - 1 by omega) (fun k c => if q k < c then q k else c)
    (if 1 ≤ q 0 then 1 else q 0) ?_ ?_
  · rw [← hval] at hmin
    obtain ⟨m1, m2, m3⟩ := hmin
    refine ⟨⟨m1, (hlov _).2 fun k hk => m2 k (by omega)⟩, fun δ hδ => ?_⟩
    rcases m3 with m3 | ⟨k, hk, m3⟩
    · rw [m3]; exact hδ.1
    · rw [m3]; exact (hlov δ).1 hδ.2 k (by omega)
  · split
    · rename_i h
      exact ⟨le_refl _, fun k hk => by rw [show k = 0 by omega]; exact h, Or.inl rfl⟩
    · rename_i h
      exact ⟨(not_le.1 h).le, fun k hk => by rw [show k = 0 by omega], Or.inr ⟨0, by omega, rfl⟩⟩
  · rintro k m - - ⟨m1, m2, m3⟩
    split
    · rename_i h
      refine ⟨by linarith, fun k' hk' => ?_, Or.inr ⟨k, by omega, rfl⟩⟩
      rcases Nat.lt_succ_iff_lt_or_eq.1 hk' with h' | rfl
      · exact h.le.trans (m2 k' h')
      · exact le_refl _
    · rename_i h
      refine ⟨m1, fun k' hk' => ?_, ?_⟩
      · rcases Nat.lt_succ_iff_lt_or_eq.1 hk' with h' | rfl
        · exact m2 k' h'
        · exact not_lt.1 h
      · rcases m3 with m3 | ⟨k', hk', m3⟩
        · exact Or.inl m3
        · exact Or.inr ⟨k', by omega, m3⟩

/-- A lattice with a triangular factor: the printed volume. -/
theorem printedVol_eq (ho : Exact o) {n d : ℕ} {B : Mat Int} {R : Mat ℝ} (hd : 0 < d)
    (hR : RFacts n d B R) : printedVol o d R = volume (toMatrix n d B) := by
  have h1 : forRange 1 d (fun k s => o.mul s (R k k)) (R 0 0) = ∏ k ∈ range d, R k k := by
    refine forRange_ind (fun b s => s = ∏ k ∈ range b, R k k) (by omega) _ _ ?_ ?_
    · simp
    · intro i t _ _ h
      rw [h, ho.mul, prod_range_succ]
  unfold printedVol volume
  rw [h1, ho.abs, hR.det, prod_mul_distrib, Real.sqrt_mul_self_eq_abs]

theorem volume_prod {n d : ℕ} {B : Mat Int} {R : Mat ℝ} (hR : RFacts n d B R) :
    volume (toMatrix n d B) = ∏ i : Fin d, ‖gs (toMatrix n d B) i‖ := by
  unfold volume
  rw [hR.det, prod_mul_distrib, Real.sqrt_mul_self_eq_abs, abs_prod,
    ← Fin.prod_univ_eq_prod_range (fun k => |R k k|) d]
  exact prod_congr rfl fun i _ => hR.norm i

theorem zNormSq_eq (v : ℕ → ℤ) (n : ℕ) (hn : 0 < n) : zNormSq v n = ∑ r ∈ range n, v r * v r := by
  unfold zNormSq
  refine forRange_ind (fun b s => s = ∑ r ∈ range b, v r * v r) (by omega) _ _ ?_ ?_
  · simp
  · intro i t _ _ h
    rw [h, sum_range_succ]

theorem printedB1_eq (ho : Exact o) {n d : ℕ} (B : Mat Int) (hd : 0 < d) (hn : 0 < n) :
    printedB1 o n B = ‖colVec (toMatrix n d B) ⟨0, hd⟩‖ := by
  unfold printedB1
  rw [ho.sqrt, ho.ofZ, zNormSq_eq _ _ hn, EuclideanSpace.norm_eq]
  congr 1
  rw [← Fin.sum_univ_eq_sum_range (fun r => B 0 r * B 0 r) n, Int.cast_sum]
  refine sum_congr rfl fun r _ => ?_
  simp only [colVec, toMatrix, Matrix.of_apply, Real.norm_eq_abs, sq_abs]
  push_cast; ring

/-- The double loop computing a maximum. -/
theorem eta_loop (f : ℕ → ℕ → ℝ) (d : ℕ) (hd : 0 < d) :
    let e := forRange 0 (d - 1) (fun i eta => forRange (i + 1) d (fun j eta =>
      if eta < f i j then f i j else eta) eta) 0
    0 ≤ e ∧ (∀ i j, i < j → j < d → f i j ≤ e) ∧ (e = 0 ∨ ∃ i j, i < j ∧ j < d ∧ e = f i j) := by
  intro e
  have := forRange_ind (fun b e => 0 ≤ e ∧ (∀ i j, i < b → i < j → j < d → f i j ≤ e) ∧
    (e = 0 ∨ ∃ i j, i < j ∧ j < d ∧ e = f i j)) (Nat.zero_le (d - 1)) (fun i eta => forRange (i + 1) d (fun j eta =>
      if eta < f i j then f i j else eta) eta) 0 ⟨le_refl _, by omega, Or.inl rfl⟩ ?_
  · refine ⟨this.1, fun i j hij hj => this.2.1 i j (by omega) hij hj, this.2.2⟩
  · rintro i t - hi ⟨t1, t2, t3⟩
    have := forRange_ind (fun b e => t ≤ e ∧ (∀ j, i < j → j < b → f i j ≤ e) ∧
      (e = t ∨ ∃ j, i < j ∧ j < b ∧ e = f i j)) (show i + 1 ≤ d by omega)
      (fun j eta => if eta < f i j then f i j else eta) t ⟨le_refl _, by omega, Or.inl rfl⟩ ?_
    · obtain ⟨e1, e2, e3⟩ := this
      refine ⟨t1.trans e1, fun i' j hi' hij hj => ?_, ?_⟩
      · rcases Nat.lt_succ_iff_lt_or_eq.1 hi' with h | rfl
        · exact (t2 i' j h hij hj).trans e1
        · exact e2 j hij hj
      · rcases e3 with e3 | ⟨j, h1, h2, e3⟩
        · rw [e3]; exact t3
        · exact Or.inr ⟨i, j, h1, h2, e3⟩
    · rintro j c hij0 hj ⟨c1, c2, c3⟩
      split
      · rename_i h
        refine ⟨c1.trans h.le, fun j' h1 h2 => ?_, Or.inr ⟨j, by omega, by omega, rfl⟩⟩
        rcases Nat.lt_succ_iff_lt_or_eq.1 h2 with h' | rfl
        · exact (c2 j' h1 h').trans h.le
        · exact le_refl _
      · rename_i h
        refine ⟨c1, fun j' h1 h2 => ?_, ?_⟩
        · rcases Nat.lt_succ_iff_lt_or_eq.1 h2 with h' | rfl
          · exact c2 j' h1 h'
          · exact not_lt.1 h
        · rcases c3 with c3 | ⟨j', h1, h2, c3⟩
          · exact Or.inl c3
          · exact Or.inr ⟨j', h1, by omega, c3⟩

/-- First block: `eta` is the maximum of 0 and the `|(|r_ij| - θ r_jj)⁺ / r_ii|`. -/
theorem printedEta_spec (ho : Exact o) (θ : ℝ) (d : ℕ) (hd : 0 < d) (R : Mat ℝ) :
    0 ≤ printedEta o θ d R ∧
    (∀ i j, i < j → j < d → (0 < |R j i| - θ * R j j) →
      |(|R j i| - θ * R j j) / R i i| ≤ printedEta o θ d R) ∧
    (printedEta o θ d R = 0 ∨ ∃ i j, i < j ∧ j < d ∧ 0 < |R j i| - θ * R j j ∧
      printedEta o θ d R = |(|R j i| - θ * R j j) / R i i|) := by
  let f : ℕ → ℕ → ℝ := fun i j => if 0 < |R j i| - θ * R j j then |(|R j i| - θ * R j j) / R i i| else 0
  have hf := eta_loop f d hd
  have hval : printedEta o θ d R = forRange 0 (d - 1) (fun i eta => forRange (i + 1) d (fun j eta =>
      if eta < f i j then f i j else eta) eta) 0 := by
    have hnn : ∀ (e : ℝ) (i j : ℕ), 0 ≤ e → (if o.lt o.zero (o.sub (o.abs (R j i)) (o.mul θ (R j j))) then
        if o.lt e (o.abs (o.div (o.sub (o.abs (R j i)) (o.mul θ (R j j))) (R i i))) then
          o.abs (o.div (o.sub (o.abs (R j i)) (o.mul θ (R j j))) (R i i)) else e else e) =
        if e < f i j then f i j else e := by
      intro e i j he
      simp only [f, ho.zero, ho.sub, ho.abs, ho.mul, ho.div, ho.lt]
      split
      · rfl
      · rw [if_neg (not_lt.2 he)]
    unfold printedEta
    have := forRange_ind (fun b e => 0 ≤ e ∧ e = forRange 0 b (fun i eta => forRange (i + 1) d (fun j eta =>
      if eta < f i j then f i j else eta) eta) 0) (Nat.zero_le (d - 1))
      (fun i eta => forRange (i + 1) d (fun j eta =>
        let v := o.sub (o.abs (R j i)) (o.mul θ (R j j))
        if o.lt o.zero v then
          let v := o.abs (o.div v (R i i))
          if o.lt eta v then v else eta
        else eta) eta) o.zero ⟨by rw [ho.zero], by rw [ho.zero]; rfl⟩ ?_
    · exact this.2
    · rintro i t - hi ⟨t1, t2⟩
      rw [forRange_succ (Nat.zero_le i), ← t2]
      have := forRange_ind (fun b e => 0 ≤ e ∧ e = forRange (i + 1) b (fun j eta =>
        if eta < f i j then f i j else eta) t) (show i + 1 ≤ d by omega)
        (fun j eta =>
        let v := o.sub (o.abs (R j i)) (o.mul θ (R j j))
        if o.lt o.zero v then
          let v := o.abs (o.div v (R i i))
          if o.lt eta v then v else eta
        else eta) t ⟨t1, by rw [forRange_empty (le_refl _)]⟩ ?_
      · exact this
      · rintro j e h1 - ⟨e1, e2⟩
        rw [forRange_succ h1, ← e2]
        dsimp only
        rw [hnn e i j e1]
        refine ⟨?_, rfl⟩
        split
        · rename_i h; exact e1.trans h.le
        · exact e1
  rw [hval]
  refine ⟨hf.1, fun i j hij hj hp => ?_, ?_⟩
  · have := hf.2.1 i j hij hj
    simp only [f, if_pos hp] at this
    exact this
  · rcases hf.2.2 with h | ⟨i, j, h1, h2, h3⟩
    · exact Or.inl h
    · by_cases hp : 0 < |R j i| - θ * R j j
      · right
        refine ⟨i, j, h1, h2, hp, ?_⟩
        rw [h3]; simp only [f, if_pos hp]
      · left
        rw [h3]; simp only [f, if_neg hp]

/-- Second block. -/
theorem printedEta2_spec (ho : Exact o) (θ : ℝ) (d : ℕ) (hd : 0 < d) (R : Mat ℝ) :
    0 ≤ printedEta2 o θ d R ∧
    (∀ i j, i < j → j < d → |(|R j i| - θ * R j j)| / R i i ≤ printedEta2 o θ d R) ∧
    (printedEta2 o θ d R = 0 ∨ ∃ i j, i < j ∧ j < d ∧
      printedEta2 o θ d R = |(|R j i| - θ * R j j)| / R i i) := by
  have hval : printedEta2 o θ d R = forRange 0 (d - 1) (fun i eta => forRange (i + 1) d (fun j eta =>
      if eta < |(|R j i| - θ * R j j)| / R i i then |(|R j i| - θ * R j j)| / R i i else eta) eta) 0 := by
    unfold printedEta2
    simp only [ho.zero, ho.sub, ho.abs, ho.mul, ho.div, ho.lt]
  rw [hval]
  exact eta_loop (fun i j => |(|R j i| - θ * R j j)| / R i i) d hd

theorem printedAlpha_eq (ho : Exact o) (δ η θ : ℝ) : printedAlpha o δ η θ =
    (η * θ + Real.sqrt ((1 + θ ^ 2) * δ - η ^ 2)) / (δ - η ^ 2) := by
  unfold printedAlpha
  simp only [ho.mul, ho.add, ho.sqrt, ho.sub, ho.div, ho.one]
  rw [show (θ * θ + 1) * δ - η * η = (1 + θ ^ 2) * δ - η ^ 2 by ring, pow_two η]

/-- A quadratic inequality. -/
theorem alpha_bound {δ η θ x y : ℝ} (hy : 0 < y) (hη : η ^ 2 < δ)
    (h : δ * x ^ 2 ≤ y ^ 2 + (η * x + θ * y) ^ 2) :
    x ≤ (η * θ + Real.sqrt ((1 + θ ^ 2) * δ - η ^ 2)) / (δ - η ^ 2) * y := by
  have hp : 0 < δ - η ^ 2 := by linarith
  rw [div_mul_eq_mul_div, le_div_iff₀ hp]
  have h2 : ((δ - η ^ 2) * x - η * θ * y) ^ 2 ≤ ((1 + θ ^ 2) * δ - η ^ 2) * y ^ 2 := by
    nlinarith [mul_le_mul_of_nonneg_left h hp.le]
  have h3 : (δ - η ^ 2) * x - η * θ * y ≤ Real.sqrt ((1 + θ ^ 2) * δ - η ^ 2) * y := by
    have := Real.abs_le_sqrt h2
    rw [Real.sqrt_mul' _ (by positivity), Real.sqrt_sq hy.le] at this
    exact (le_abs_self _).trans this
  linarith

/-- Geometric decrease of at most `α` between successive Gram–Schmidt norms bounds the first vector. -/
theorem first_le_vol {d : ℕ} (hd : 0 < d) (g : Fin d → ℝ) (hg : ∀ i, 0 ≤ g i) {α : ℝ} (hα : 0 ≤ α)
    (h : ∀ i j : Fin d, (j : ℕ) + 1 = i → g j ≤ α * g i) :
    g ⟨0, hd⟩ ^ d ≤ α ^ (d * (d - 1) / 2) * ∏ i, g i := by
  have h1 : ∀ k (hk : k < d), g ⟨0, hd⟩ ≤ α ^ k * g ⟨k, hk⟩ := by
    intro k
    induction k with
    | zero => intro _; simp
    | succ k ih =>
      intro hk
      refine (ih (by omega)).trans ?_
      rw [pow_succ, mul_assoc]
      exact mul_le_mul_of_nonneg_left (h _ _ rfl) (pow_nonneg hα _)
  calc g ⟨0, hd⟩ ^ d = ∏ _i : Fin d, g ⟨0, hd⟩ := by simp
    _ ≤ ∏ i : Fin d, α ^ (i : ℕ) * g i := prod_le_prod (fun _ _ => hg _) fun i _ => h1 i i.2
    _ = _ := by
      rw [prod_mul_distrib, prod_pow_eq_pow_sum, Fin.sum_univ_eq_sum_range (fun k => k) d,
        sum_range_id]

end HPLLL
