import Verif.Model.Mach
import Verif.Proof.Fuel
/-!
# More steps do not change a run on machine or floating point integers
-/

namespace HPLLL
variable {F : Type} (o : FPOps F) (c : EntF F)

theorem mHsizeLoop_mono (κ m : Nat) : ∀ (f k : Nat) (b : Bool) (s : Lat F) r,
    mHsizeLoop o c κ m f b s = some r → mHsizeLoop o c κ m (f + k) b s = some r := by
  intro f
  induction f with
  | zero => intro k b s r h; simp [mHsizeLoop] at h
  | succ f ih =>
    intro k b s r h
    rw [show f + 1 + k = (f + k) + 1 by omega]
    simp only [mHsizeLoop] at h ⊢
    split
    · rename_i hc
      rw [if_pos hc] at h
      split
      · rename_i hc2; rw [if_pos hc2] at h; exact h
      · rename_i hc2; rw [if_neg hc2] at h; exact ih k _ _ _ h
    · rename_i hc; rw [if_neg hc] at h; exact h

theorem mSeysenLoop_mono (κ : Nat) : ∀ (f k : Nat) (a b : Bool) (t v : Nat → F) (s : Lat F) r,
    mSeysenLoop o c κ f a b t v s = some r → mSeysenLoop o c κ (f + k) a b t v s = some r := by
  intro f
  induction f with
  | zero => intro k a b t v s r h; simp [mSeysenLoop] at h
  | succ f ih =>
    intro k a b t v s r h
    rw [show f + 1 + k = (f + k) + 1 by omega]
    simp only [mSeysenLoop] at h ⊢
    split
    · rename_i hc
      rw [if_pos hc] at h
      split
      · rename_i hc2; rw [if_pos hc2] at h; exact ih k _ _ _ _ _ _ h
      · rename_i hc2; rw [if_neg hc2] at h; exact h
    · rename_i hc; rw [if_neg hc] at h; exact h

theorem mHlllReduce_mono (κ f k : Nat) (s : Lat F) (r) (h : mHlllReduce o c f κ s = some r) :
    mHlllReduce o c (f + k) κ s = some r := by
  unfold mHlllReduce at *
  split
  · rename_i hc; rw [if_pos hc] at h; exact mHsizeLoop_mono o c _ _ f k _ _ _ h
  · rename_i hc; rw [if_neg hc] at h; exact mSeysenLoop_mono o c _ f k _ _ _ _ _ _ h

theorem mHlllStep_mono (δ : F) (f k : Nat) (h : HState F) (r) (hr : mHlllStep o c f δ h = r)
    (hne : r ≠ .diverge) : mHlllStep o c (f + k) δ h = r := by
  unfold mHlllStep at *
  simp only [] at *
  cases hq : mHlllReduce o c f h.kappa (hlllPrep o h.kappa h.s) with
  | none => rw [hq] at hr; simp only [] at hr; exact absurd hr.symm hne
  | some q => rw [hq] at hr; rw [mHlllReduce_mono o c _ f k _ _ hq]; exact hr

theorem mHlllLoop_mono (δ : F) : ∀ (f k : Nat) (h : HState F) r,
    mHlllLoop o c δ f h = some r → mHlllLoop o c δ (f + k) h = some r := by
  intro f
  induction f with
  | zero => intro k h r hr; simp [mHlllLoop] at hr
  | succ f ih =>
    intro k h r hr
    rw [show f + 1 + k = (f + k) + 1 by omega]
    simp only [mHlllLoop] at hr ⊢
    split
    · rename_i hc
      rw [if_pos hc] at hr
      cases hs : mHlllStep o c (f + 1) δ h with
      | diverge => rw [hs] at hr; simp at hr
      | fail s =>
        rw [hs] at hr
        rw [show f + k + 1 = f + 1 + k by omega, mHlllStep_mono o c δ (f + 1) k h _ hs (by simp)]
        exact hr
      | next h1 =>
        rw [hs] at hr
        rw [show f + k + 1 = f + 1 + k by omega, mHlllStep_mono o c δ (f + 1) k h _ hs (by simp)]
        exact ih k _ _ hr
    · rename_i hc; rw [if_neg hc] at hr; exact hr

/-- The result of `gHlll`, once available, does not depend on the fuel. -/
theorem gHlll_mono (f k : Nat) (δ : F) (v : Bool) (s : Lat F) (r)
    (h : gHlll o c f δ v s = some r) : gHlll o c (f + k) δ v s = some r := by
  unfold gHlll at *
  simp only [] at *
  cases hl : mHlllLoop o c δ f (hlllInit o
      (if v then { s with verboseDepth := s.verboseDepth - 1 } else s)) with
  | none => rw [hl] at h; simp at h
  | some q => rw [hl] at h; rw [mHlllLoop_mono o c δ f k _ _ hl]; exact h

end HPLLL
