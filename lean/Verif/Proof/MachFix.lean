import Verif.Proof.IdemStep
import Verif.Proof.Mach
/-! On a reduced basis the machine run does no integer operation. -/

namespace HPLLL
open Spec Finset InnerProductSpace

section
variable {F : Type} {o : FPOps F} {c : EntF F}

theorem sizeUpdateLoop_true (κ m : Nat) (q : Lat F × Bool) (h : q.2 = true) :
    (sizeUpdateLoop o κ m q).2 = true := by
  induction m generalizing q with
  | zero => exact h
  | succ m ih =>
    simp only [sizeUpdateLoop]
    refine ih _ ?_
    unfold sizeUpdateStep
    simp only []
    split
    · exact h
    · rfl

theorem mSizeUpdateLoop_zero (κ m : Nat) (q : Lat F × Bool) (h : (sizeUpdateLoop o κ m q).2 = false) :
    mSizeUpdateLoop o c κ m q = sizeUpdateLoop o κ m q := by
  induction m generalizing q with
  | zero => rfl
  | succ m ih =>
    simp only [mSizeUpdateLoop, sizeUpdateLoop] at h ⊢
    have hs : mSizeUpdateStep o c κ m q = sizeUpdateStep o κ m q := by
      unfold mSizeUpdateStep sizeUpdateStep
      simp only []
      split
      · rfl
      · rename_i hz
        exfalso
        have : (sizeUpdateStep o κ m q).2 = true := by
          unfold sizeUpdateStep
          simp only [if_neg hz]
        rw [sizeUpdateLoop_true κ m _ this] at h
        simp at h
    rw [hs]
    exact ih _ h

end

variable {o : FPOps ℝ} {c : EntF ℝ}

theorem mHlllReduce_fixed (ho : ExactTies o) {n d κ : ℕ} {A : Mat Int} {track : Prop}
    (hκ : 0 < κ) (hκd : κ < d) (hA : FullColumnRank (toMatrix n d A)) (fuel : ℕ) (s : Lat ℝ)
    (hS : 0 < s.numS) (hseq : s.numS = 1 ∨ (d : ℤ) ≤ s.parThr + 1)
    (hI : LInv n d A track s) (hM : Mid n d κ s) (hf : s.seysenFlag < 1)
    (hB : SizeReduced (toMatrix n d s.B)) :
    mHlllReduce o c fuel κ s = hlllReduce o fuel κ s := by
  have hg := hI.geo hA
  have hpost := hM.hhR ho.toExact hκ hκd hg
  have hI' : LInv n d A track (s.hhR o κ) := hI.congr rfl rfl rfl rfl rfl rfl rfl rfl
  have hn : κ < n := by have := hg.diag _ hκd; have := hg.le _ hκd; omega
  obtain ⟨hh, vf, -, -⟩ := Post.up (s := s.hhR o κ) ho.toExact hκ hκd hI.hn hg hpost
  have hq := (hh.full (by omega)).qr
  have hsr : SizeRed κ (s.hhR o κ).fp.R := by
    have := sizeReduced_sizeRed hκd hn hB hq
    intro i hi
    have e := this i hi
    rw [show (hlllUp κ ((s.hhR o κ).hhV o κ)).fp.R = ((s.hhR o κ).hhV o κ).fp.R from rfl] at e
    rw [vf.Rκ i (by omega), vf.R i (by omega)] at e
    exact e
  obtain ⟨-, -, c6⟩ := pass_spec ho.toExact hκ hκd hA (s := s.hhR o κ) hS hI' hpost
  have hq2 := c6 ho hsr
  have hp : (s.hhR o κ).numS = 1 ∨ (κ : Int) - 1 < (s.hhR o κ).parThr := by
    rcases hseq with h | h
    · exact Or.inl h
    · right; show (κ : ℤ) - 1 < s.parThr; omega
  have hpe : mHsizePass o c κ κ (s.hhR o κ) = hsizePass o κ κ (s.hhR o κ) := by
    unfold mHsizePass hsizePass at *
    rw [if_pos hp] at hq2 ⊢
    rw [if_pos hp]
    exact mSizeUpdateLoop_zero κ κ _ hq2
  unfold mHlllReduce hlllReduce
  rw [if_pos hf, if_pos hf]
  unfold mHsizereduce hsizereduce
  simp only [Nat.lt_irrefl, if_false]
  rw [show κ - 1 + 1 = κ by omega]
  cases fuel with
  | zero => rfl
  | succ fuel =>
    simp only [mHsizeLoop, hsizeLoop, hpe, hq2, Bool.false_eq_true, if_false]

theorem mHlllStep_fixed (ho : ExactTies o) {n d : ℕ} {A : Mat Int} {track : Prop} {δ : ℝ} {h : HState ℝ}
    (hA : FullColumnRank (toMatrix n d A)) (hE : ExInv n d A track δ h) (hκd : h.kappa < d)
    (hseq : h.s.numS = 1 ∨ (d : ℤ) ≤ h.s.parThr + 1) (hf : h.s.seysenFlag < 1)
    (hB : SizeReduced (toMatrix n d h.s.B)) (fuel : ℕ) :
    mHlllStep o c fuel δ h = hlllStep o fuel δ h := by
  obtain ⟨hM, hI1⟩ := hE.mid ho.toExact hA hκd
  have hpf := (hlllPrep_zs o h.kappa h.s).frame
  have hBe : (hlllPrep o h.kappa h.s).B = h.s.B := by
    unfold hlllPrep; split <;> rfl
  unfold mHlllStep hlllStep
  simp only []
  rw [mHlllReduce_fixed ho hE.pos hκd hA fuel _ (by rw [hpf.numS]; exact hE.numS)
    (by rw [hpf.numS, hpf.parThr]; exact hseq) hI1 hM (by rw [hpf.seysenFlag]; exact hf)
    (by rw [hBe]; exact hB)]
  cases hlllReduce o fuel h.kappa (hlllPrep o h.kappa h.s) <;> rfl

theorem mHlllLoop_fixed (ho : ExactTies o) {n d : ℕ} {A A0 : Mat Int} {track : Prop} {δ : ℝ} (hδ : δ ≤ 1)
    (hA : FullColumnRank (toMatrix n d A)) (hA0 : ∀ k < d, gramSchmidt ℝ (HPLLL.colN n A0) k ≠ 0)
    (hL : LovMin δ n d A0) : ∀ (fuel : ℕ) (h : HState ℝ), ExInv n d A track δ h →
    h.s.kappaMax = d → UniTri n d A0 h.s.B → h.s.numS = 1 ∨ (d : ℤ) ≤ h.s.parThr + 1 →
    h.s.seysenFlag < 1 → SizeReduced (toMatrix n d h.s.B) →
    mHlllLoop o c δ fuel h = hlllLoop o δ fuel h := by
  intro fuel
  induction fuel with
  | zero => intro h _ _ _ _ _ _; rfl
  | succ fuel ih =>
    intro h hE hkm hu hseq hf hB
    simp only [mHlllLoop, hlllLoop]
    split
    · rename_i hc
      have hκd : h.kappa < d := by omega
      rw [mHlllStep_fixed ho hA hE hκd hseq hf hB]
      have hst := hE.step ho.toExact hA hκd (fuel + 1)
      cases hs : hlllStep o (fuel + 1) δ h with
      | diverge => rfl
      | fail s => rfl
      | next h1 =>
        rw [hs] at hst
        obtain ⟨e1, e2, e3, e4⟩ := hst
        obtain ⟨f1, f2, f3, f4⟩ := hE.step_noswap ho.toExact hA hκd (fuel + 1) hA0 hu hL hs
        have hBB := f4 ho hf hB
        exact ih h1 e1 (by rw [e4.kappaMax, hkm]) f3 (by rw [e4.numS, e4.parThr]; exact hseq)
          (by rw [e4.seysenFlag]; exact hf) (by rw [hBB]; exact hB)
    · rfl

end HPLLL
