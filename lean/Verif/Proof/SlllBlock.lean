import Verif.Proof.SlllGap
/-! Blocks of segment LLL that are reduced without any exchange (exact arithmetic). -/

namespace HPLLL
open Spec Finset InnerProductSpace

variable {o : FPOps ℝ}

theorem hlllStep_unitri {n d : ℕ} {A A0 : Mat Int} {track : Prop} {δ : ℝ} {h h' : HState ℝ} {fuel : ℕ}
    (hI : LInv n d A track h.s) (hκ : 0 < h.kappa) (hκd : h.kappa < d) (hu : UniTri n d A0 h.s.B)
    (hs : hlllStep o fuel δ h = .next h') :
    (h'.kappa = h.kappa + 1 ∧ UniTri n d A0 h'.s.B) ∨ h'.kappa = max (h.kappa - 1) 1 := by
  unfold hlllStep at hs
  simp only [] at hs
  cases hr : hlllReduce o fuel h.kappa (hlllPrep o h.kappa h.s) with
  | none => rw [hr] at hs; simp at hs
  | some r =>
    obtain ⟨flag, s⟩ := r
    rw [hr] at hs
    have hzs : ZSteps h.kappa h.s s :=
      (hlllPrep_zs o h.kappa h.s).trans (hlllReduce_zs o hκ fuel _ _ _ hr)
    have hus : UniTri n d A0 s.B := hu.zsteps hκd hI hzs
    simp only [] at hs
    split at hs
    · simp at hs
    · split at hs
      · split at hs
        · simp at hs
        · injection hs with hs; subst hs
          exact .inl ⟨rfl, hus⟩
      · injection hs with hs; subst hs
        exact .inr rfl

/-- A completed loop makes at least `d - κ` tests, and exactly that many only without exchange. -/
theorem ExInv.loop_min (ho : Exact o) {n d : ℕ} {A A0 : Mat Int} {track : Prop} {δ : ℝ} (hδ : δ ≤ 1)
    (hA : FullColumnRank (toMatrix n d A)) : ∀ (fuel : ℕ) (h : HState ℝ), ExInv n d A track δ h →
    h.s.kappaMax = d → ∀ st s', hlllLoop o δ fuel h = some (st, s') → s'.nblov < h.s.nblovMax →
    UniTri n d A0 h.s.B →
    h.s.nblov + (d - h.kappa) ≤ s'.nblov ∧
      (s'.nblov = h.s.nblov + (d - h.kappa) → UniTri n d A0 s'.B) := by
  intro fuel
  induction fuel with
  | zero => intro h _ _ st s' hl; simp [hlllLoop] at hl
  | succ fuel ih =>
    intro h hE hkm st s' hl hb hu
    simp only [hlllLoop] at hl
    split at hl
    · rename_i hc
      have hκd : h.kappa < d := by omega
      have hst := hE.step ho hA hκd (fuel + 1)
      cases hs : hlllStep o (fuel + 1) δ h with
      | diverge => rw [hs] at hl; simp at hl
      | fail s => rw [hs] at hst; exact absurd hδ hst
      | next h1 =>
        rw [hs] at hl hst
        obtain ⟨e1, e2, e3, e4⟩ := hst
        have hcase := hlllStep_unitri hE.inv hE.pos hκd hu hs
        have hb' : s'.nblov < h1.s.nblovMax := by rw [e4.nblovMax]; exact hb
        rcases hcase with ⟨g1, g2⟩ | g1
        · have := ih h1 e1 (by rw [e4.kappaMax, hkm]) st s' hl hb' g2
          rw [g1, e3] at this
          have hh : h.s.nblov + 1 + (d - (h.kappa + 1)) = h.s.nblov + (d - h.kappa) := by omega
          rw [hh] at this
          exact this
        · -- an exchange costs at least one more test
          have hmin : ∀ (fuel : ℕ) (h : HState ℝ), ExInv n d A track δ h → h.s.kappaMax = d →
              ∀ st s', hlllLoop o δ fuel h = some (st, s') → s'.nblov < h.s.nblovMax →
              h.s.nblov + (d - h.kappa) ≤ s'.nblov := by
            intro fuel
            induction fuel with
            | zero => intro h _ _ st s' hl; simp [hlllLoop] at hl
            | succ fuel ih =>
              intro h hE hkm st s' hl hb
              simp only [hlllLoop] at hl
              split at hl
              · rename_i hc
                have hκd : h.kappa < d := by omega
                have hst := hE.step ho hA hκd (fuel + 1)
                cases hs : hlllStep o (fuel + 1) δ h with
                | diverge => rw [hs] at hl; simp at hl
                | fail s => rw [hs] at hst; exact absurd hδ hst
                | next h1 =>
                  rw [hs] at hl hst
                  obtain ⟨e1, e2, e3, e4⟩ := hst
                  have := ih h1 e1 (by rw [e4.kappaMax, hkm]) st s' hl (by rw [e4.nblovMax]; exact hb)
                  have hp := hE.pos
                  rcases e2 with ⟨g1, -⟩ | ⟨g1, -⟩ <;> rw [g1] at this <;> omega
              · rename_i hc
                obtain ⟨-, rfl⟩ := by simpa using hl
                omega
          have := hmin fuel h1 e1 (by rw [e4.kappaMax, hkm]) st s' hl hb'
          have hp := hE.pos
          rw [g1] at this
          exact ⟨by omega, fun h => by omega⟩
    · rename_i hc
      obtain ⟨-, rfl⟩ := by simpa using hl
      exact ⟨by omega, fun _ => hu⟩

/-- Gram–Schmidt vectors of an upper triangular matrix with nonzero diagonal. -/
theorem gs_triangular {w : ℕ} (T : Mat Int) (h0 : ∀ j i, j < i → i < w → T j i = 0)
    (h1 : ∀ j < w, T j j ≠ 0) : ∀ j (hj : j < w),
    gramSchmidt ℝ (HPLLL.colN w T) j = (T j j : ℝ) • EuclideanSpace.single (⟨j, hj⟩ : Fin w) (1 : ℝ) := by
  intro j
  induction j using Nat.strong_induction_on with
  | _ j ih =>
    intro hj
    rw [← gsRem_self, gsRem]
    ext r
    have hsum : (∑ i ∈ range j, (inner ℝ (gramSchmidt ℝ (HPLLL.colN w T) i) (HPLLL.colN w T j) /
        ‖gramSchmidt ℝ (HPLLL.colN w T) i‖ ^ 2) • gramSchmidt ℝ (HPLLL.colN w T) i).ofLp r =
        if (r : ℕ) < j then (T j r : ℝ) else 0 := by
      have : ∀ i ∈ range j, ((inner ℝ (gramSchmidt ℝ (HPLLL.colN w T) i) (HPLLL.colN w T j) /
          ‖gramSchmidt ℝ (HPLLL.colN w T) i‖ ^ 2) • gramSchmidt ℝ (HPLLL.colN w T) i).ofLp r =
          if (r : ℕ) = i then (T j r : ℝ) else 0 := by
        intro i hi
        have hi := mem_range.mp hi
        have hiw : i < w := by omega
        have hne : (T i i : ℝ) ≠ 0 := by exact_mod_cast h1 i hiw
        rw [ih i hi hiw, inner_smul_left, EuclideanSpace.inner_single_left, norm_smul]
        simp only [HPLLL.colN, map_one, one_mul, EuclideanSpace.norm_single, norm_one, mul_one,
          WithLp.ofLp_smul, Pi.smul_apply, smul_eq_mul, EuclideanSpace.single_apply]
        by_cases hri : r = ⟨i, hiw⟩
        · subst hri
          simp only [if_true, Real.norm_eq_abs, sq_abs]
          simp
          field_simp
        · rw [if_neg hri, if_neg (fun h => hri (Fin.ext h))]; simp
      rw [WithLp.ofLp_sum, Finset.sum_apply, sum_congr rfl this]
      by_cases hr : (r : ℕ) < j
      · rw [if_pos hr, sum_eq_single (r : ℕ)]
        · simp
        · intro b _ hb; rw [if_neg (Ne.symm hb)]
        · intro h; exact absurd (mem_range.mpr hr) h
      · rw [if_neg hr]
        refine sum_eq_zero fun b hb => ?_
        have := mem_range.mp hb
        rw [if_neg (by omega)]
    rw [PiLp.sub_apply, hsum]
    simp only [HPLLL.colN, WithLp.ofLp_smul, Pi.smul_apply, smul_eq_mul, EuclideanSpace.single_apply]
    by_cases hr : (r : ℕ) < j
    · rw [if_pos hr, if_neg (fun h => by rw [h] at hr; simp at hr)]; simp
    · rw [if_neg hr]
      by_cases hrj : (r : ℕ) = j
      · rw [if_pos (Fin.ext hrj), hrj]; simp
      · rw [if_neg (fun h => hrj (by rw [h])), h0 j r (by omega) r.2]; simp

theorem norm_gs_triangular {w : ℕ} (T : Mat Int) (h0 : ∀ j i, j < i → i < w → T j i = 0)
    (h1 : ∀ j < w, T j j ≠ 0) (j : ℕ) (hj : j < w) :
    ‖gramSchmidt ℝ (HPLLL.colN w T) j‖ ^ 2 = (T j j : ℝ) ^ 2 := by
  rw [gs_triangular T h0 h1 j hj, norm_smul, EuclideanSpace.norm_single]
  simp

/-- A transformation matrix of columns related by `UniTri` is unitriangular. -/
theorem unitri_matrix {w : ℕ} {T B U : Mat Int} (hT : FullColumnRank (toMatrix w w T))
    (hu : UniTri w w T B) (e : toMatrix w w B = toMatrix w w T * toMatrix w w U) :
    ∀ j < w, ∀ i < w, j ≤ i → U j i = if i = j then 1 else 0 := by
  intro j hj i hi hij
  obtain ⟨c, hc⟩ := hu j hj
  unfold FullColumnRank at hT
  rw [Fintype.linearIndependent_iff] at hT
  have := hT (fun k : Fin w => U j k - (if (k : ℕ) = j then 1 else 0) - (if (k : ℕ) < j then c k else 0)) (by
    ext r
    have e1 := congrFun (congrFun e r) ⟨j, hj⟩
    rw [Matrix.mul_apply] at e1
    simp only [toMatrix, Matrix.of_apply] at e1
    have e2 := hc r r.2
    rw [e1] at e2
    simp only [Finset.sum_apply, Pi.smul_apply, smul_eq_mul, Pi.zero_apply, sub_mul, sum_sub_distrib]
    have s1 : ∑ k : Fin w, U j k * toMatrix w w T r k = ∑ k : Fin w, T k r * U j k :=
      sum_congr rfl fun k _ => by simp only [toMatrix, Matrix.of_apply]; ring
    have s2 : ∑ k : Fin w, (if (k : ℕ) = j then (1 : ℤ) else 0) * toMatrix w w T r k = T j r := by
      rw [sum_eq_single (⟨j, hj⟩ : Fin w)]
      · simp [toMatrix]
      · intro b _ hb; rw [if_neg (fun h => hb (Fin.ext h))]; simp
      · simp
    have s3 : ∑ k : Fin w, (if (k : ℕ) < j then c k else 0) * toMatrix w w T r k =
        ∑ i ∈ range j, c i * T i r := by
      have : ∑ k : Fin w, (if (k : ℕ) < j then c k else 0) * toMatrix w w T r k =
          ∑ k ∈ range w, (if k < j then c k else 0) * T k r := by
        rw [← Fin.sum_univ_eq_sum_range (fun k => (if k < j then c k else 0) * T k r)]
        rfl
      rw [this, ← sum_subset (range_mono hj.le)]
      · exact sum_congr rfl fun k hk => by rw [if_pos (mem_range.mp hk)]
      · intro k _ hk
        have : ¬ k < j := fun h => hk (mem_range.mpr h)
        rw [if_neg this]; simp
    have e3 : ∑ k : Fin w, U j k * toMatrix w w T r k - ∑ k : Fin w, (if (k : ℕ) = j then (1 : ℤ) else 0) *
      toMatrix w w T r k - ∑ k : Fin w, (if (k : ℕ) < j then c k else 0) * toMatrix w w T r k = 0 := by
      rw [s1, s2, s3, e2]; ring
    exact e3) ⟨i, hi⟩
  simp only [] at this
  rw [if_neg (by omega : ¬ i < j)] at this
  linarith

/-- One block: at least `w - 1` tests; with exactly that many the transformation is unitriangular and the
diagonal of the block satisfies Siegel's condition. -/
theorem blockReduce_exact (ho : Exact o) (c : SCst ℝ) (junk : ℝ) (fuel : ℕ) {δ : ℝ} (hδ : δ ≤ 1)
    (d S dec lovmax : ℕ) (sey vd : ℤ) (hsey : sey < 1) (R : Mat ℝ) (k : ℕ) (hk : (k + 1) * (d / S) + dec ≤ d)
    (hw : 0 < d / S) (hlov : d / S ≤ lovmax) (L : Lat ℝ)
    (h : blockReduce o junk fuel δ d S dec lovmax sey vd (blockRZ c d R) k = some L) :
    d / S - 1 ≤ L.nblov ∧ (L.nblov = d / S - 1 →
      (∀ j < d / S, ∀ i < d / S, j ≤ i → L.getU.M j i = if i = j then 1 else 0) ∧
      ∀ j, j + 1 < d / S → (δ - 1 / 4) * (blockRZ c d R (k * (d / S) + dec + j) (k * (d / S) + dec + j) : ℝ) ^ 2 ≤
        (blockRZ c d R (k * (d / S) + dec + (j + 1)) (k * (d / S) + dec + (j + 1)) : ℝ) ^ 2) := by
  unfold blockReduce at h
  simp only [Option.map_eq_some_iff] at h
  obtain ⟨⟨st, L'⟩, h, rfl⟩ := h
  generalize hwd : d / S = w at *
  have hrows : (getblockSq ⟨d, d, blockRZ c d R⟩ k k S dec).rows = w := hwd
  set M := (getblockSq ⟨d, d, blockRZ c d R⟩ k k S dec).M with hM
  rw [hrows] at h
  rw [Nat.succ_mul] at hk
  have hent : ∀ c' r, c' < w → r < w → M c' r = blockRZ c d R (k * w + c' + dec) (k * w + r + dec) := by
    intro c' r h1 h2
    rw [hM, getblockSq_apply]
    simp only [hwd]
    rw [if_pos ⟨h1, h2⟩]
  have ht0 : ∀ j i, j < i → i < w → M j i = 0 := by
    intro j i hji hi
    rw [hent j i (by omega) hi]
    unfold blockRZ
    rw [if_pos (by omega), if_pos (by omega)]
  have ht1 : ∀ j < w, M j j ≠ 0 := by
    intro j hj
    rw [hent j j hj hj]
    unfold blockRZ
    rw [if_pos (by omega), if_neg (by omega)]
    split
    · simp
    · rename_i hne; intro h0; exact hne ⟨rfl, h0⟩
  have hfull : FullColumnRank (toMatrix w w M) := fullRank_triangular M ht0 ht1
  set s0 := (newLattice o junk w w M true sey true vd).setNblovMax lovmax with hs0
  have hI : LInv w w M True s0 := LInv.of_basis M True _ rfl rfl rfl rfl
      fun _ => ⟨rfl, rfl, hfull, Or.inl rfl⟩
  have hR : ExReady w w M s0 := ⟨LInv.of_basis M False _ rfl rfl rfl rfl False.elim, Nat.zero_lt_one, by
    intro _ _ _ _ _; exact ho.zero, rfl⟩
  have hX := hlll_exit o fuel δ false _ L' st hI (le_refl _) h
  obtain ⟨W, hW, eB, hU⟩ := hX.inv.uni
  have htr := hX.inv.tr trivial
  have hUM : L'.getU.M = L'.U := by unfold Lat.getU; rw [htr]; rfl
  obtain ⟨rfl, -, hlll⟩ := hR.hlll ho hfull hδ h
  have hmax : L'.nblovMax = lovmax := hX.cfg.nblovMax
  have hE := hR.init (o := o) δ false
  have hloop : hlllLoop o δ fuel (hlllInit o s0) = some (0, L') := by
    unfold HPLLL.hlll at h
    simp only [Bool.false_eq_true, if_false] at h
    cases hl : hlllLoop o δ fuel (hlllInit o s0) with
    | none => rw [hl] at h; simp at h
    | some r =>
      rw [hl] at h
      simp only [Option.some.injEq, Prod.mk.injEq] at h
      rw [← h.1, ← h.2]
  show w - 1 ≤ L'.nblov ∧ (L'.nblov = w - 1 → _)
  by_cases hb : L'.nblov < lovmax
  · obtain ⟨m1, m2⟩ := ExInv.loop_min (A0 := M) ho hδ hfull fuel _ hE rfl _ _ hloop hb (UniTri.refl _ _ _)
    have e0 : (hlllInit o s0).s.nblov = 0 := rfl
    have e1 : (hlllInit o s0).kappa = 1 := rfl
    have m1 : 0 + (w - 1) ≤ L'.nblov := m1
    have m2 : L'.nblov = 0 + (w - 1) → UniTri w w M L'.B := m2
    rw [Nat.zero_add] at m1 m2
    refine ⟨m1, fun he => ?_⟩
    have hu := m2 he
    obtain ⟨hLov, hSz⟩ := hlll (by rw [hmax]; exact hb)
    have hSz := hSz (by rw [hX.cfg.seysenFlag]; exact hsey)
    refine ⟨?_, ?_⟩
    · rw [hUM]
      exact unitri_matrix hfull hu (by rw [eB, hU trivial])
    · intro j hj
      have g1 := hLov ⟨j + 1, hj⟩ ⟨j, by omega⟩ rfl
      have g2 := hSz ⟨j + 1, hj⟩ ⟨j, by omega⟩ (by rw [Fin.lt_def]; simp)
      rw [gs_nat, gs_nat] at g1
      simp only [] at g1
      rw [hu.gs hj, hu.gs (by omega), norm_gs_triangular M ht0 ht1 _ (by omega),
        norm_gs_triangular M ht0 ht1 _ hj] at g1
      rw [hent j j (by omega) (by omega), hent (j + 1) (j + 1) hj hj] at g1
      rw [show k * w + dec + j = k * w + j + dec by omega, show k * w + dec + (j + 1) = k * w + (j + 1) + dec by omega]
      have g3 : (mu (toMatrix w w L'.B) ⟨j + 1, hj⟩ ⟨j, by omega⟩) ^ 2 ≤ 1 / 4 := by
        rw [abs_le] at g2; nlinarith
      have g4 := mul_le_mul_of_nonneg_right g3 (sq_nonneg (blockRZ c d R (k * w + j + dec) (k * w + j + dec) : ℝ))
      linarith
  · exact ⟨by omega, fun h => by omega⟩

end HPLLL
