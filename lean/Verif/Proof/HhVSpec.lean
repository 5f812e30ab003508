import Verif.Proof.HhSpec
/-! `householder_v` and the triangular factor. -/

namespace HPLLL
open Spec Finset

variable {o : FPOps ℝ}

/-- Frame of `householder_v(kappa)`. -/
structure HvFrame {F : Type} (κ : ℕ) (p p' : FPart F) : Prop where
  V : ∀ c, c ≠ κ → p'.V c = p.V c
  R : ∀ c, c ≠ κ → p'.R c = p.R c
  Rκ : ∀ i, i ≠ κ → p'.R κ i = p.R κ i
  rest : ∃ V R, p' = { p with V := V, R := R }

theorem tail_restrict {n nm κ : ℕ} (hn : nm ≤ n) (y : ℕ → ℝ)
    (hy : ∀ r, nm ≤ r → y r = 0) :
    ∑ i ∈ range (nm - κ), y (κ + i) * y (κ + i) = Ex.tail n κ y := by
  unfold Ex.tail
  have hsub : range (nm - κ) ⊆ range (n - κ) := by intro r; simp only [mem_range]; omega
  apply sum_subset hsub
  intro i hi hi'
  simp only [mem_range] at hi hi'
  rw [hy _ (by omega)]; ring

theorem householderV_spec (ho : Exact o) {n κ : ℕ} (p : FPart ℝ) (y : ℕ → ℝ)
    (hκ : κ < p.nmaxkappa) (hn : p.nmaxkappa ≤ n)
    (hR : ∀ i < p.nmaxkappa, κ ≤ i → p.R κ i = y i)
    (hy : ∀ r, p.nmaxkappa ≤ r → y r = 0) (hT : Ex.tail n κ y ≠ 0) :
    HvFrame κ p (householderV o n κ p) ∧
    Ex.dot n (Ex.vv n (householderV o n κ p).V κ) (Ex.vv n (householderV o n κ p).V κ) = 2 ∧
    (∀ r, p.nmaxkappa ≤ r → r < n → (householderV o n κ p).V κ r = 0) ∧
    (∀ r, κ < r → Ex.refl n (Ex.vv n (householderV o n κ p).V κ) y r = 0) ∧
    (householderV o n κ p).R κ κ = Ex.refl n (Ex.vv n (householderV o n κ p).V κ) y κ ∧
    (householderV o n κ p).R κ κ * (householderV o n κ p).R κ κ = Ex.tail n κ y := by
  set nm := p.nmaxkappa with hnm
  set N := Real.sqrt (Ex.tail n κ y) with hN
  have hTpos : 0 < Ex.tail n κ y := lt_of_le_of_ne (Ex.tail_nonneg _ _ _) (Ne.symm hT)
  have hNpos : 0 < N := Real.sqrt_pos.mpr hTpos
  have hNN : N * N = Ex.tail n κ y := Real.mul_self_sqrt hTpos.le
  have hnrm : fpNorm o (getcol p.R κ κ) (nm - κ) = N := by
    unfold fpNorm
    rw [fpNormSq_exact ho _ _ (by omega), ho.sqrt, hN, ← tail_restrict hn y hy]
    congr 1
    refine sum_congr rfl fun i hi => ?_
    have := mem_range.mp hi
    simp only [getcol]; rw [hR _ (by omega) (by omega)]
  set w := y κ with hw
  have hRw : p.R κ κ = w := hR κ hκ (le_refl _)
  -- the signed norm
  set σ : ℝ := if 0 ≤ w then N else -N with hσ
  have hσσ : σ * σ = Ex.tail n κ y := by
    rw [hσ]; split
    · exact hNN
    · rw [neg_mul_neg]; exact hNN
  have hσw : 0 < σ * (w + σ) := by
    rw [hσ]; split
    · rename_i h; positivity
    · rename_i h; push Not at h; nlinarith
  set S := Real.sqrt (σ * (w + σ)) with hS
  have hSpos : 0 < S := Real.sqrt_pos.mpr hσw
  have hSS : S * S = σ * (w + σ) := Real.mul_self_sqrt hσw.le
  have hge : (o.le o.zero w = true) ↔ 0 ≤ w := by rw [ho.le, ho.zero]
  -- explicit form of the outcome
  have hRR : ∀ i, (householderV o n κ p).R κ i = if i = κ then -σ else p.R κ i := by
    intro i
    simp only [householderV, setEntry, setCol_same, ← hnm, hnrm, hRw, setAt]
    split
    · by_cases h : 0 ≤ w
      · rw [if_pos (hge.mpr h), ho.neg, hσ, if_pos h]
      · rw [if_neg (fun h' => h (hge.mp h')), hσ, if_neg h, neg_neg]
    · rfl
  have hsig : (if o.le o.zero w = true then N else o.neg N) = σ := by
    by_cases h : 0 ≤ w
    · rw [if_pos (hge.mpr h), hσ, if_pos h]
    · rw [if_neg (fun h' => h (hge.mp h')), hσ, if_neg h, ho.neg]
  have hVV : ∀ i, κ ≤ i → i < n → (householderV o n κ p).V κ i =
      (if i = κ then w + σ else y i) / S := by
    intro i hi hin
    simp only [householderV, setEntry, setCol_same, ← hnm, hnrm, hRw, hsig, ho.add, ho.mul,
      ho.sqrt, ho.div, setAt, ← hS, fdivcol, getcol]
    by_cases h1 : i = κ
    · rw [if_pos h1, if_pos h1]
    · rw [if_neg h1, if_neg h1]
      by_cases h2 : nm ≤ i
      · rw [if_pos ⟨h2, hin⟩, ho.zero, hy i h2]; simp
      · rw [if_neg (by omega), if_pos (by omega), if_neg (by omega)]
        rw [hR _ (by omega) (by omega), show κ + 1 + (i - (κ + 1)) = i by omega]
  have hκn : κ < n := by omega
  have hts := Ex.tail_succ n κ y hκn
  -- sums over the support
  have hvsum : ∀ z : ℕ → ℝ, Ex.dot n (Ex.vv n (householderV o n κ p).V κ) z =
      ((w + σ) * z κ + ∑ i ∈ range (n - (κ + 1)), y (κ + 1 + i) * z (κ + 1 + i)) / S := by
    intro z
    rw [Ex.dot_split n (κ + 1) (by omega)]
    have e1 : Ex.dot (κ + 1) (Ex.vv n (householderV o n κ p).V κ) z = (w + σ) * z κ / S := by
      unfold Ex.dot
      rw [sum_range_succ, sum_eq_zero, zero_add]
      · simp only [Ex.vv]; rw [if_pos ⟨le_refl _, hκn⟩, hVV κ (le_refl _) hκn, if_pos rfl]; ring
      · intro r hr
        have := mem_range.mp hr
        simp only [Ex.vv]; rw [if_neg (by omega)]; ring
    rw [e1, add_div, Finset.sum_div]
    congr 1
    refine sum_congr rfl fun i hi => ?_
    have := mem_range.mp hi
    simp only [Ex.vv]; rw [if_pos (by omega), hVV _ (by omega) (by omega), if_neg (by omega)]; ring
  have hvy : Ex.dot n (Ex.vv n (householderV o n κ p).V κ) y = S := by
    rw [hvsum]
    have : ∑ i ∈ range (n - (κ + 1)), y (κ + 1 + i) * y (κ + 1 + i) = Ex.tail n (κ + 1) y := rfl
    rw [this, div_eq_iff hSpos.ne', hSS]
    rw [← hσσ] at hts
    linarith
  refine ⟨?_, ?_, ?_, ?_, ?_, ?_⟩
  · refine ⟨?_, ?_, ?_, ⟨_, _, rfl⟩⟩
    · intro c hc
      simp only [householderV, setEntry, fdivcol]
      rw [setCol_ne _ _ hc, setCol_ne _ _ hc, setCol_ne _ _ hc]
    · intro c hc
      simp only [householderV, setEntry]
      rw [setCol_ne _ _ hc]
    · intro i hi; rw [hRR, if_neg hi]
  · have : ∑ i ∈ range (n - (κ + 1)), y (κ + 1 + i) * Ex.vv n (householderV o n κ p).V κ (κ + 1 + i)
        = Ex.tail n (κ + 1) y / S := by
      unfold Ex.tail
      rw [Finset.sum_div]
      refine sum_congr rfl fun i hi => ?_
      have := mem_range.mp hi
      simp only [Ex.vv]; rw [if_pos (by omega), hVV _ (by omega) (by omega), if_neg (by omega)]; ring
    rw [hvsum, this]
    have h2 : Ex.vv n (householderV o n κ p).V κ κ = (w + σ) / S := by
      simp only [Ex.vv]; rw [if_pos ⟨le_refl _, hκn⟩, hVV κ (le_refl _) hκn, if_pos rfl]
    rw [h2, div_eq_iff hSpos.ne']
    field_simp
    rw [← hσσ] at hts
    nlinarith
  · intro r hr hrn
    rw [hVV r (by omega) hrn, if_neg (by omega), hy r hr]; simp
  · intro r hr
    simp only [Ex.refl]
    rw [hvy]
    simp only [Ex.vv]
    by_cases hrn : r < n
    · rw [if_pos (by omega), hVV _ (by omega) hrn, if_neg (by omega)]; field_simp; ring
    · rw [if_neg (by omega), hy r (by omega)]; ring
  · rw [hRR, if_pos rfl]
    simp only [Ex.refl]
    rw [hvy]
    simp only [Ex.vv]
    rw [if_pos ⟨le_refl _, hκn⟩, hVV κ (le_refl _) hκn, if_pos rfl]
    field_simp
    ring
  · rw [hRR, if_pos rfl, neg_mul_neg, hσσ]

/-! ### The triangular factor of the first `κ` columns -/

structure QRv (n : ℕ) (str : ℕ → ℤ) (B : Mat Int) (V R : Mat ℝ) (κ : ℕ) : Prop where
  vnorm : ∀ k < κ, Ex.dot n (Ex.vv n V k) (Ex.vv n V k) = 2
  vsupp : ∀ k < κ, ∀ r, nmaxOf str k ≤ r → r < n → V k r = 0
  rdef : ∀ k < κ, ∀ i ≤ k, R k i = Ex.app n V (k + 1) (bv n B k) i
  rzero : ∀ k < κ, ∀ i, k < i → Ex.app n V (k + 1) (bv n B k) i = 0
  rdiag : ∀ k < κ, R k k ≠ 0

theorem QRv.mono {n str B V R κ k} (h : QRv n str B V R κ) (hk : k ≤ κ) : QRv n str B V R k :=
  ⟨fun j hj => h.vnorm j (by omega), fun j hj => h.vsupp j (by omega),
   fun j hj => h.rdef j (by omega), fun j hj => h.rzero j (by omega),
   fun j hj => h.rdiag j (by omega)⟩

/-- Only the first `κ` columns matter. -/
theorem QRv.congr {n : ℕ} {str str' : ℕ → ℤ} {B B' : Mat Int} {V R V' R' : Mat ℝ} {κ : ℕ}
    (h : QRv n str B V R κ) (hs : ∀ k < κ, str' k = str k) (hB : ∀ k < κ, B' k = B k)
    (hV : ∀ k < κ, V' k = V k) (hR : ∀ k < κ, R' k = R k) : QRv n str' B' V' R' κ := by
  have e1 : ∀ k < κ, bv n B' k = bv n B k := by
    intro k hk; unfold bv; rw [hB k hk]
  have e2 : ∀ k < κ, ∀ x, Ex.app n V' (k + 1) x = Ex.app n V (k + 1) x := by
    intro k hk x; exact Ex.app_congrV n V' V (k + 1) (fun j hj => hV j (by omega)) x
  have e3 : ∀ k < κ, Ex.vv n V' k = Ex.vv n V k := by
    intro k hk; funext r; simp only [Ex.vv, hV k hk]
  constructor
  · intro k hk; rw [e3 k hk]; exact h.vnorm k hk
  · intro k hk r hr; rw [hV k hk]
    have : nmaxOf str' k = nmaxOf str k := by unfold nmaxOf; rw [hs k hk]
    rw [this] at hr; exact h.vsupp k hk r hr
  · intro k hk i hi; rw [e1 k hk, e2 k hk, hR k hk]; exact h.rdef k hk i hi
  · intro k hk i hi; rw [e1 k hk, e2 k hk]; exact h.rzero k hk i hi
  · intro k hk; rw [hR k hk]; exact h.rdiag k hk

/-- All later reflections fix the earlier columns. -/
theorem QRv.app_eq {n : ℕ} {str : ℕ → ℤ} {B : Mat Int} {V R : Mat ℝ} {κ : ℕ}
    (h : QRv n str B V R κ) (k : ℕ) (hk : k < κ) (i : ℕ) :
    Ex.app n V κ (bv n B k) i = if i ≤ k then R k i else 0 := by
  rw [Ex.app_fix n V (k + 1) κ (bv n B k) hk (fun r hr => h.rzero k hk r (by omega))]
  split
  · rename_i hi; exact (h.rdef k hk i hi).symm
  · exact h.rzero k hk i (by omega)

theorem QRv.gd_prod {n : ℕ} {str : ℕ → ℤ} {B : Mat Int} {V R : Mat ℝ} {κ : ℕ} (hκ : κ ≤ n)
    (h : QRv n str B V R κ) : (gd n B κ : ℝ) = ∏ j ∈ range κ, R j j * R j j := by
  rw [gd_eq_gdet]
  rw [gdet_congr (w' := fun j => Ex.app n V κ (bv n B j))
    (fun i hi j hj => (Ex.app_dot n V κ h.vnorm _ _).symm)]
  rw [gdet_tri n κ hκ]
  · refine prod_congr rfl fun j hj => ?_
    have := mem_range.mp hj
    rw [h.app_eq j this, if_pos (le_refl _)]
  · intro j hj r hjr hr
    rw [h.app_eq j hj, if_neg (by omega)]

theorem QRv.gd_tail {n : ℕ} {str : ℕ → ℤ} {B : Mat Int} {V R : Mat ℝ} {κ : ℕ} (hκ : κ < n)
    (h : QRv n str B V R κ) :
    (gd n B (κ + 1) : ℝ) = (gd n B κ : ℝ) * Ex.tail n κ (Ex.app n V κ (bv n B κ)) := by
  rw [h.gd_prod hκ.le, gd_eq_gdet]
  rw [gdet_congr (w' := fun j => Ex.app n V κ (bv n B j))
    (fun i hi j hj => (Ex.app_dot n V κ h.vnorm _ _).symm)]
  rw [gdet_tri_succ n κ hκ]
  · congr 1
    refine prod_congr rfl fun j hj => ?_
    have := mem_range.mp hj
    rw [h.app_eq j this, if_pos (le_refl _)]
  · intro j hj r hjr hr
    rw [h.app_eq j hj, if_neg (by omega)]

theorem QRv.app_supp {n : ℕ} {str : ℕ → ℤ} {B : Mat Int} {V R : Mat ℝ} {κ nm : ℕ}
    (h : QRv n str B V R κ) (hnm : ∀ k < κ, nmaxOf str k ≤ nm)
    (hB : ∀ r, nm ≤ r → r < n → B κ r = 0) (r : ℕ) (hr : nm ≤ r) :
    Ex.app n V κ (bv n B κ) r = 0 := by
  refine Ex.app_supp n V κ nm _ ?_ ?_ r hr
  · intro r hr
    simp only [bv]; split
    · rename_i hrn; rw [hB r hr hrn]; simp
    · rfl
  · intro k hk r hr hrn
    exact h.vsupp k hk r (by have := hnm k hk; omega) hrn

/-- Extension by one column. -/
theorem QRv.extend (ho : Exact o) {n : ℕ} {str : ℕ → ℤ} {B : Mat Int} {p : FPart ℝ} {κ : ℕ}
    (h : QRv n str B p.V p.R κ) (hκn : κ < nmaxOf str κ) (hn : nmaxOf str κ ≤ n)
    (hnm : ∀ k < κ, nmaxOf str k ≤ nmaxOf str κ)
    (hB : ∀ r, nmaxOf str κ ≤ r → r < n → B κ r = 0)
    (hc : p.nmaxkappa = nmaxOf str κ)
    (hr : ∀ i < nmaxOf str κ, p.R κ i = Ex.app n p.V κ (bv n B κ) i)
    (hT : Ex.tail n κ (Ex.app n p.V κ (bv n B κ)) ≠ 0) :
    QRv n str B (householderV o n κ p).V (householderV o n κ p).R (κ + 1) ∧
    HvFrame κ p (householderV o n κ p) ∧
    (householderV o n κ p).R κ κ * (householderV o n κ p).R κ κ
      = Ex.tail n κ (Ex.app n p.V κ (bv n B κ)) := by
  have hs := fun r hr => h.app_supp (nm := nmaxOf str κ) hnm hB r hr
  obtain ⟨f, h1, h2, h3, h4, h5⟩ := householderV_spec ho p (Ex.app n p.V κ (bv n B κ))
    (by rw [hc]; exact hκn) (by rw [hc]; exact hn) (fun i hi _ => hr i (by rw [hc] at hi; exact hi))
    (by rw [hc]; exact hs) hT
  refine ⟨?_, f, h5⟩
  set p' := householderV o n κ p with hp'
  have hq : QRv n str B p'.V p'.R κ :=
    h.congr (fun _ _ => rfl) (fun _ _ => rfl) (fun k hk => f.V k (by omega))
      (fun k hk => f.R k (by omega))
  have happ : ∀ x, Ex.app n p'.V κ x = Ex.app n p.V κ x := fun x =>
    Ex.app_congrV n p'.V p.V κ (fun j hj => f.V j (by omega)) x
  constructor
  · intro k hk
    by_cases hkk : k = κ
    · subst hkk; exact h1
    · exact hq.vnorm k (by omega)
  · intro k hk r hr' hrn
    by_cases hkk : k = κ
    · subst hkk; exact h2 r (by rw [hc]; exact hr') hrn
    · exact hq.vsupp k (by omega) r hr' hrn
  · intro k hk i hi
    by_cases hkk : k = κ
    · subst hkk
      by_cases hik : i = k
      · subst hik; rw [h4]; simp only [Ex.app]; rw [happ]
      · rw [f.Rκ i hik, hr i (by omega), Ex.app_succ_lt _ _ _ _ _ (by omega), happ]
    · exact hq.rdef k (by omega) i hi
  · intro k hk i hi
    by_cases hkk : k = κ
    · subst hkk; simp only [Ex.app]; rw [happ]; exact h3 i hi
    · exact hq.rzero k (by omega) i hi
  · intro k hk
    by_cases hkk : k = κ
    · subst hkk; intro h0; rw [h0] at h5; simp at h5; exact hT h5.symm
    · exact hq.rdiag k (by omega)

end HPLLL
