import Verif.Proof.LInv
/-! From the loop invariant to the API functions. -/

namespace HPLLL
open Spec Matrix

variable {F : Type} (o : FPOps F)

theorem hlll_exit {n d : Nat} {A : Mat Int} {track : Prop} (fuel : Nat) (δ : F) (v : Bool)
    (s s' : Lat F) (st : Int) (hI : LInv n d A track s) (hkm : s.kappaMax ≤ d)
    (h : hlll o fuel δ v s = some (st, s')) : ExitInv n d A track s st s' := by
  unfold hlll at h
  simp only [] at h
  split at h
  · simp at h
  · rename_i st1 s1 hl
    obtain ⟨rfl, rfl⟩ := by simpa using h
    set s2 : Lat F := if v then { s with verboseDepth := s.verboseDepth - 1 } else s with hs2
    have hE : ExitInv n d A track s2 st1 s1 := by
      refine MainInv.loop o δ fuel (hlllInit o s2) ?_ ?_ st1 s1 hl
      · rw [hs2]; split <;> exact hkm
      · refine ⟨?_, ?_, by simp [hlllInit], ⟨0, 0, rfl, le_refl _, ?_⟩, ?_, ?_⟩
        · refine hI.congr ?_ ?_ ?_ ?_ ?_ ?_ ?_ ?_ <;> (simp only [hlllInit, hs2]; split <;> rfl)
        · constructor <;> rfl
        · simp [hlllInit]
        · simp [hlllInit]
        · simp [hlllInit]
    obtain ⟨h1, h2, h3, h4, h5, h6⟩ := hE
    obtain ⟨c1, c2, c3, c4, c5, c6, c7, c8, c9, c10⟩ := h2
    cases v
    · simp only [Bool.false_eq_true, if_false] at *
      exact ⟨h1, ⟨c1, c2, c3, c4, c5, c6, c7, c8, c9, c10⟩, h3, h4, h5, h6⟩
    · simp only [if_true] at *
      refine ⟨h1.congr rfl rfl rfl rfl rfl rfl rfl rfl, ⟨c1, c2, c3, c4, c5, c6, c7, c8, c9, ?_⟩,
        ?_, ?_, h5, ?_⟩
      · simp only [c10, hs2]; omega
      · exact h3
      · exact h4
      · intro h0 hb
        obtain ⟨w, w1, e⟩ := h6 h0 hb
        exact ⟨w, w1, e⟩

theorem LInv.of_basis {n d : Nat} (A : Mat Int) (track : Prop) (s : Lat F)
    (hn : s.n = n) (hd : s.d = d) (hB : s.B = A) (hstr : s.str = matrixStructure n A)
    (ht : track → s.transf = true ∧ s.U = idMat ∧ FullColumnRank (toMatrix n d A) ∧
      (s.numS = 1 ∨ (d : Int) ≤ s.parThr + 1)) : LInv n d A track s := by
  refine ⟨hn, hd, ?_, ?_, ?_, fun h => (ht h).2.2.2, ?_, fun h => (ht h).1, 1, by simp, ?_, ?_⟩
  · intro j _; rw [hstr]; exact matrixStructure_lt n A j
  · intro i j hij _; rw [hstr]; exact matrixStructure_mono n A hij
  · intro j _ r hr hs; rw [hB]; rw [hstr] at hs; exact matrixStructure_supp n A j r hr hs
  · intro h j hj r hr hs
    rw [(ht h).2.1]
    have := structure_ge_diag n d A (ht h).2.2.1 s.str
      (by intro i j hij _; rw [hstr]; exact matrixStructure_mono n A hij)
      (by intro j _; rw [hstr]; exact matrixStructure_lt n A j)
      (by intro j _ r hr hs; rw [hstr] at hs; exact matrixStructure_supp n A j r hr hs) j hj
    simp only [idMat]
    rw [if_neg (by omega)]
  · rw [hB, Matrix.mul_one]
  · intro h
    rw [(ht h).2.1]
    ext i j
    simp only [toMatrix, idMat, of_apply, Matrix.one_apply, Fin.ext_iff]

end HPLLL
