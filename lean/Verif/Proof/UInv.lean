import Verif.Proof.HlllExit
/-! An induction principle for `hlll`, and the transformation matrix whatever the thread settings. -/

namespace HPLLL
open Spec Matrix

variable {F : Type} (o : FPOps F)

theorem hlllLoop_induct (P : Lat F → Prop) (d : Nat)
    (hz : ∀ κ < d, ∀ s s', ZStep κ s s' → P s → P s')
    (hd : ∀ κ < d, 0 < κ → ∀ s, P s → P (hlllDown κ s))
    (hc : ∀ s k, P s → P { s with nblov := k })
    (δ : F) (fuel : Nat) (h : HState F) (hkm : h.s.kappaMax ≤ d) (hpos : 0 < h.kappa) (hP : P h.s)
    (st : Int) (s : Lat F) (hr : hlllLoop o δ fuel h = some (st, s)) : P s := by
  have hzs : ∀ κ < d, ∀ s s', ZSteps κ s s' → P s → P s' := by
    intro κ hκ s s' hs hp
    induction hs with
    | refl => exact hp
    | tail _ h1 ih => exact hz κ hκ _ _ h1 ih
  induction fuel generalizing h with
  | zero => simp [hlllLoop] at hr
  | succ fuel ih =>
    simp only [hlllLoop] at hr
    split at hr
    · rename_i hcond
      have hκd : h.kappa < d := by omega
      rcases hlllStep_cases o (fuel + 1) δ h hpos with h1 | ⟨t, hz1, h1⟩ | ⟨t, hz1, h1⟩ |
        ⟨t, pr, hz1, h1⟩ | ⟨t, hz1, h1⟩ <;> rw [h1] at hr
      · simp at hr
      · obtain ⟨rfl, rfl⟩ := by simpa using hr
        exact hzs _ hκd _ _ hz1 hP
      · obtain ⟨rfl, rfl⟩ := by simpa using hr
        exact hzs _ hκd _ _ hz1 (hc _ _ hP)
      · refine ih _ ?_ ?_ ?_ hr
        · simp only [hz1.frame.kappaMax]; exact hkm
        · simp
        · exact hzs _ hκd _ _ hz1 (hc _ _ hP)
      · refine ih _ ?_ ?_ ?_ hr
        · simp only [hlllDown, hz1.frame.kappaMax]; exact hkm
        · simp
        · exact hd _ hκd hpos _ (hzs _ hκd _ _ hz1 (hc _ _ hP))
    · obtain ⟨rfl, rfl⟩ := by simpa using hr
      exact hP

/-- Any predicate preserved by the elementary integer steps holds on return of `hlll`. -/
theorem hlll_induct (P : Lat F → Prop) (d : Nat)
    (hz : ∀ κ < d, ∀ s s', ZStep κ s s' → P s → P s')
    (hd : ∀ κ < d, 0 < κ → ∀ s, P s → P (hlllDown κ s))
    (hc : ∀ s k, P s → P { s with nblov := k })
    (hf : ∀ s p b, P s → P { s with fp := p, ub := b })
    (hv : ∀ s k, P s → P { s with verboseDepth := k })
    (δ : F) (fuel : Nat) (v : Bool) (s s' : Lat F) (st : Int) (hkm : s.kappaMax ≤ d) (hP : P s)
    (hr : hlll o fuel δ v s = some (st, s')) : P s' := by
  unfold hlll at hr
  simp only [] at hr
  split at hr
  · simp at hr
  · rename_i st1 s1 hl
    obtain ⟨rfl, rfl⟩ := by simpa using hr
    have h1 : P s1 := by
      refine hlllLoop_induct o P d hz hd hc δ fuel _ ?_ Nat.one_pos ?_ _ _ hl
      · cases v <;> exact hkm
      · refine hf _ _ _ ?_
        cases v
        · exact hP
        · exact hv _ _ hP
    cases v
    · exact h1
    · exact hv _ _ h1

/-- The transformation matrix stays unimodular and below the profile, in every thread setting. -/
structure UInv (d : Nat) (s : Lat F) : Prop where
  hd : s.d = d
  tr : s.transf = true
  mono : ∀ i j, i ≤ j → j < d → s.str i ≤ s.str j
  usupp : ∀ j < d, ∀ r, r < d → s.str j < r → s.U j r = 0
  uni : IsUnit (toMatrix d d s.U).det

theorem UInv.zstep {d κ : Nat} {s s' : Lat F} (hκ : κ < d) (h : ZStep κ s s') (hI : UInv d s) :
    UInv d s' := by
  obtain ⟨hd, htr, hmono, husupp, hU⟩ := hI
  cases h with
  | fp p b => exact ⟨hd, htr, hmono, husupp, hU⟩
  | pcol i c l h hl hp => exact ⟨hd, htr, hmono, husupp, hU⟩
  | col p b i c h =>
    have hne : (⟨i, by omega⟩ : Fin d) ≠ ⟨κ, hκ⟩ := by simp [Fin.ext_iff]; omega
    refine ⟨hd, htr, hmono, ?_, ?_⟩
    · simp only [htr, if_true]
      exact axpy_supp s.str s.U c _ h hκ (hmono i κ (by omega) hκ) husupp
    · simp only [htr, if_true]
      rw [show toMatrix d d (axpy s.U κ i c (min s.d (nmaxOf s.str i))) =
        toMatrix d d s.U * transvection ⟨i, by omega⟩ ⟨κ, hκ⟩ c from ?_]
      · rw [Matrix.det_mul, det_transvection_of_ne _ _ hne, mul_one]; exact hU
      · refine toMatrix_axpy d d s.U ⟨κ, hκ⟩ ⟨i, by omega⟩ hne c _ ?_
        intro r hr hrn
        refine husupp i (by omega) r hrn ?_
        unfold nmaxOf at hr
        rw [hd] at hr
        omega

theorem UInv.down {d κ : Nat} {s : Lat F} (hκ : κ < d) (h0 : 0 < κ) (hI : UInv d s) :
    UInv d (hlllDown κ s) := by
  obtain ⟨hd, htr, hmono, husupp, hU⟩ := hI
  have hne : (⟨κ - 1, by omega⟩ : Fin d) ≠ ⟨κ, hκ⟩ := by simp [Fin.ext_iff]; omega
  have hmk : s.str (κ - 1) ≤ s.str κ := hmono _ _ (by omega) hκ
  refine ⟨hd, htr, ?_, ?_, ?_⟩
  · intro i j hij hj
    simp only [hlllDown]
    by_cases h1 : i = κ - 1
    · subst h1
      rw [setAt_same]
      by_cases h2 : j = κ - 1
      · subst h2; rw [setAt_same]
      · rw [setAt_ne _ _ h2]; exact hmono κ j (by omega) hj
    · rw [setAt_ne _ _ h1]
      by_cases h2 : j = κ - 1
      · subst h2; rw [setAt_same]; exact hmono i κ (by omega) hκ
      · rw [setAt_ne _ _ h2]; exact hmono i j hij hj
  · simp only [hlllDown, htr, if_true]
    exact colswap_supp s.str s.U hκ h0 hmk husupp
  · simp only [hlllDown, htr, if_true]
    rw [toMatrix_colswap d d s.U ⟨κ - 1, by omega⟩ ⟨κ, hκ⟩, Matrix.det_mul, det_swapMat _ _ hne]
    exact hU.mul (by decide)

theorem UInv.hlll {d : Nat} (δ : F) (fuel : Nat) (v : Bool) (s s' : Lat F) (st : Int)
    (hkm : s.kappaMax ≤ d) (hI : UInv d s) (hr : HPLLL.hlll o fuel δ v s = some (st, s')) :
    UInv d s' := by
  refine hlll_induct o (UInv d) d (fun κ hκ s s' h hI => hI.zstep hκ h)
    (fun κ hκ h0 s hI => hI.down hκ h0) ?_ ?_ ?_ δ fuel v s s' st hkm hI hr
  all_goals
    intros
    rename_i hI
    obtain ⟨hd, htr, hmono, husupp, hU⟩ := hI
    exact ⟨hd, htr, hmono, husupp, hU⟩

theorem UInv.of_basis {n d : Nat} (A : Mat Int) (s : Lat F) (hd : s.d = d)
    (hstr : s.str = matrixStructure n A) (ht : s.transf = true) (hU : s.U = idMat)
    (hA : FullColumnRank (toMatrix n d A)) : UInv d s := by
  refine ⟨hd, ht, ?_, ?_, ?_⟩
  · intro i j hij _; rw [hstr]; exact matrixStructure_mono n A hij
  · intro j hj r hr hs
    rw [hU]
    have := structure_ge_diag n d A hA s.str
      (by intro i j hij _; rw [hstr]; exact matrixStructure_mono n A hij)
      (by intro j _; rw [hstr]; exact matrixStructure_lt n A j)
      (by intro j _ r hr hs; rw [hstr] at hs; exact matrixStructure_supp n A j r hr hs) j hj
    simp only [idMat]
    rw [if_neg (by omega)]
  · rw [hU, show toMatrix d d idMat = (1 : Matrix (Fin d) (Fin d) ℤ) from ?_]
    · simp
    · ext i j
      simp only [toMatrix, idMat, of_apply, Matrix.one_apply, Fin.ext_iff]

end HPLLL
