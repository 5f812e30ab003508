import Verif.Model.Lattice
/-! The fuel argument only decides whether a result is available, never which one. -/

namespace HPLLL

variable {F : Type} (o : FPOps F)

theorem hsizeLoop_mono (κ m : Nat) : ∀ (f k : Nat) (b : Bool) (s : Lat F) r,
    hsizeLoop o κ m f b s = some r → hsizeLoop o κ m (f + k) b s = some r := by
  intro f
  induction f with
  | zero => intro k b s r h; simp [hsizeLoop] at h
  | succ f ih =>
    intro k b s r h
    rw [show f + 1 + k = (f + k) + 1 by omega]
    simp only [hsizeLoop] at h ⊢
    split
    · rename_i hc
      rw [if_pos hc] at h
      split
      · rename_i hc2; rw [if_pos hc2] at h; exact h
      · rename_i hc2; rw [if_neg hc2] at h; exact ih k _ _ _ h
    · rename_i hc; rw [if_neg hc] at h; exact h

theorem seysenLoop_mono (κ : Nat) : ∀ (f k : Nat) (a b : Bool) (t v : Nat → F) (s : Lat F) r,
    seysenLoop o κ f a b t v s = some r → seysenLoop o κ (f + k) a b t v s = some r := by
  intro f
  induction f with
  | zero => intro k a b t v s r h; simp [seysenLoop] at h
  | succ f ih =>
    intro k a b t v s r h
    rw [show f + 1 + k = (f + k) + 1 by omega]
    simp only [seysenLoop] at h ⊢
    split
    · rename_i hc
      rw [if_pos hc] at h
      split
      · rename_i hc2; rw [if_pos hc2] at h; exact ih k _ _ _ _ _ _ h
      · rename_i hc2; rw [if_neg hc2] at h; exact h
    · rename_i hc; rw [if_neg hc] at h; exact h

theorem hlllReduce_mono (κ f k : Nat) (s : Lat F) (r) (h : hlllReduce o f κ s = some r) :
    hlllReduce o (f + k) κ s = some r := by
  unfold hlllReduce at *
  split
  · rename_i hc; rw [if_pos hc] at h; exact hsizeLoop_mono o _ _ f k _ _ _ h
  · rename_i hc; rw [if_neg hc] at h; exact seysenLoop_mono o _ f k _ _ _ _ _ _ h

theorem hlllStep_mono (δ : F) (f k : Nat) (h : HState F) (r) (hr : hlllStep o f δ h = r)
    (hne : r ≠ .diverge) : hlllStep o (f + k) δ h = r := by
  unfold hlllStep at *
  simp only [] at *
  cases hq : hlllReduce o f h.kappa (hlllPrep o h.kappa h.s) with
  | none => rw [hq] at hr; simp only [] at hr; exact absurd hr.symm hne
  | some q => rw [hq] at hr; rw [hlllReduce_mono o _ f k _ _ hq]; exact hr

theorem hlllLoop_mono (δ : F) : ∀ (f k : Nat) (h : HState F) r,
    hlllLoop o δ f h = some r → hlllLoop o δ (f + k) h = some r := by
  intro f
  induction f with
  | zero => intro k h r hr; simp [hlllLoop] at hr
  | succ f ih =>
    intro k h r hr
    rw [show f + 1 + k = (f + k) + 1 by omega]
    simp only [hlllLoop] at hr ⊢
    split
    · rename_i hc
      rw [if_pos hc] at hr
      cases hs : hlllStep o (f + 1) δ h with
      | diverge => rw [hs] at hr; simp at hr
      | fail s =>
        rw [hs] at hr
        rw [show f + k + 1 = f + 1 + k by omega, hlllStep_mono o δ (f + 1) k h _ hs (by simp)]
        exact hr
      | next h1 =>
        rw [hs] at hr
        rw [show f + k + 1 = f + 1 + k by omega, hlllStep_mono o δ (f + 1) k h _ hs (by simp)]
        exact ih k _ _ hr
    · rename_i hc; rw [if_neg hc] at hr; exact hr

/-- The result of `hlll`, once available, does not depend on the fuel. -/
theorem hlll_mono (f k : Nat) (δ : F) (v : Bool) (s : Lat F) (r)
    (h : hlll o f δ v s = some r) : hlll o (f + k) δ v s = some r := by
  unfold hlll at *
  simp only [] at *
  cases hl : hlllLoop o δ f (hlllInit o
      (if v then { s with verboseDepth := s.verboseDepth - 1 } else s)) with
  | none => rw [hl] at h; simp at h
  | some q => rw [hl] at h; rw [hlllLoop_mono o δ f k _ _ hl]; exact h

end HPLLL
