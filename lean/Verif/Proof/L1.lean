import Verif.Model.L1
import Verif.Props.Relations
/-! The recursive L1 reduction and `put`. -/

namespace HPLLL
open Spec Matrix Finset Props

variable {F : Type}

/-- The profile of an object whose transformation is unimodular is never above the diagonal. -/
theorem UInv.diag {d : ℕ} {s : Lat F} (h : UInv d s) : ∀ j < d, (j : ℤ) ≤ s.str j := by
  intro j hj
  have hr : FullColumnRank (toMatrix d d s.U) := by
    have : LinearIndependent ℤ fun j : Fin d => fun i : Fin d => (toMatrix d d s.U) i j :=
      Matrix.linearIndependent_cols_of_det_ne_zero (A := toMatrix d d s.U) (by
        intro h0; have := h.uni; rw [h0] at this; simp at this)
    exact this
  have := structure_ge_diag d d s.U hr (fun j => min (s.str j) (d - 1))
    (fun i j hij hj => min_le_min (h.mono i j hij hj) (le_refl _))
    (fun j _ => by omega)
    (fun j hj r hr hs => h.usupp j hj r hr (by omega)) j hj
  omega

theorem UInv.put {d : ℕ} {s : Lat F} (T : Mat Int) (h : UInv d s) : UInv d (s.put T) := by
  have hd := h.diag
  obtain ⟨h1, h2, h3, h4, h5⟩ := h
  have hU : (s.put T).U = idMat := by simp [Lat.put, h2]
  refine ⟨h1, h2, h3, ?_, ?_⟩
  · intro j hj r hr hs
    rw [hU]
    have := hd j hj
    have hs' : s.str j < r := hs
    simp only [idMat]
    rw [if_neg (by omega)]
  · rw [hU, show toMatrix d d idMat = (1 : Matrix (Fin d) (Fin d) ℤ) from ?_]
    · simp
    · ext i j
      simp only [toMatrix, idMat, of_apply, Matrix.one_apply, Fin.ext_iff]

theorem hlll_kappaMax (o : FPOps F) {d : ℕ} (δ : F) (fuel : ℕ) (v : Bool) (s s' : Lat F) (st : ℤ)
    (hk : s.kappaMax = d) (h : hlll o fuel δ v s = some (st, s')) : s'.kappaMax = d := by
  refine hlll_induct o (fun s => s.kappaMax = d) d (fun κ _ s s' h1 h2 => ?_) (fun κ _ _ s h => ?_)
    (fun s k h => h) (fun s p b h => h) (fun s k h => h) δ fuel v s s' st (le_of_eq hk) hk h
  · rw [h1.frame.kappaMax]; exact h2
  · exact h

structure L1Inv (d : ℕ) (L : Lat F) : Prop where
  u : UInv d L
  km : L.kappaMax = d

/-- The method is one of the two that are implemented, and the external reducer returns unimodular matrices. -/
def L1Method (e : L1Env F) (d : ℕ) (lllmethod : ℤ) : Prop :=
  lllmethod = methodHLLL ∨ (lllmethod = methodFPLLL ∧ ∀ T, Unimodular (toMatrix d d (e.fplll T)))

theorem l1Rec_inv {e : L1Env F} {n d : ℕ} (hd : 0 < d) {leafbits lllmethod : ℤ} (hm : L1Method e d lllmethod) :
    ∀ (depth : ℕ) (U B : Mat Int) (L : Lat F) (l level : ℤ) (U' : Mat Int) (L' : Lat F), L1Inv d L →
      l1Rec e n d leafbits lllmethod depth U B L l level = some (U', L') →
      L1Inv d L' ∧ IsUnit (toMatrix d d U').det := by
  intro depth
  induction depth with
  | zero => intro U B L l level U' L' _ h; simp [l1Rec] at h
  | succ depth ih =>
    intro U B L l level U' L' hI h
    unfold l1Rec at h
    split at h
    · split at h
      · split at h
        · simp at h
        rename_i st L1 hl
        simp only [Option.some.injEq, Prod.mk.injEq] at h
        obtain ⟨rfl, rfl⟩ := h
        have h1 := UInv.hlll e.o e.d99 e.fuel true _ L1 st (by exact le_of_eq hI.km) (hI.u.put _) hl
        refine ⟨⟨h1, hlll_kappaMax e.o e.d99 e.fuel true _ L1 st (by exact hI.km) hl⟩, ?_⟩
        simp only [Lat.getU, h1.tr, if_true]
        exact h1.uni
      split at h
      · simp only [Option.some.injEq, Prod.mk.injEq] at h
        obtain ⟨rfl, rfl⟩ := h
        refine ⟨hI, ?_⟩
        rw [C46_transpose_in, Matrix.det_transpose]
        rcases hm with hm | ⟨-, hm⟩
        · contradiction
        · exact isUnit_of_unimodular (hm _)
      · rcases hm with hm | ⟨hm, -⟩ <;> contradiction
    · simp only [] at h
      split at h
      · simp at h
      rename_i U1 L1 h1
      obtain ⟨k1, k2⟩ := ih _ _ _ _ _ U1 L1 hI h1
      split at h
      · simp at h
      rename_i U2 L2 h2
      obtain ⟨m1, m2⟩ := ih _ _ _ _ _ U2 L2 k1 h2
      simp only [Option.some.injEq, Prod.mk.injEq] at h
      obtain ⟨rfl, rfl⟩ := h
      refine ⟨m1, ?_⟩
      rw [(C46_products d d d hd U1 U2 fun _ _ => 0).2.2.2, Matrix.det_mul]
      exact k2.mul m2

end HPLLL
