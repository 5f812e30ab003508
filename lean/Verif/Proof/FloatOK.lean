import Verif.Model.FloatInt
import Verif.Proof.MachOK
import Verif.Proof.MachFuel
/-! Exact operations on floating point integers are those on unbounded integers. -/

namespace HPLLL

theorem EntOK.float {F : Type} (o : FPOps F) (rd rdE : ℤ → ℤ) : EntOK o (fEntry o rd rdE) id := by
  intro fl x xz a b h
  unfold fEntry multOf at *
  simp only [id] at h ⊢
  by_cases he : (o.getSiExp x).2 = 0
  · simp only [he, if_true] at h ⊢
    by_cases h1 : (o.getSiExp x).1 = 1
    · simp only [h1, if_true, decide_eq_true_eq] at h ⊢
      rw [h]; ring
    · simp only [h1, if_false] at h ⊢
      by_cases h2 : (o.getSiExp x).1 = -1
      · simp only [h2, if_true, decide_eq_true_eq] at h ⊢
        rw [h]; ring
      · simp only [h2, if_false] at h ⊢
        cases fl
        · simp only [Bool.false_eq_true, if_false, Bool.and_eq_true, decide_eq_true_eq] at h ⊢
          rw [h.1.1, h.1.2, h.2]; ring
        · simp only [if_true, Bool.and_eq_true, decide_eq_true_eq] at h ⊢
          rw [h.1.1.2, h.1.2, h.2]; ring
  · simp only [he, if_false] at h ⊢
    cases fl
    · simp only [Bool.false_eq_true, if_false, Bool.and_eq_true, decide_eq_true_eq] at h ⊢
      rw [h.1.1, h.1.2, h.2]; ring
    · simp only [if_true, Bool.and_eq_true, decide_eq_true_eq] at h ⊢
      rw [h.1.1.1.2, h.1.1.2, h.1.2, h.2]; ring

/-- A run on floating point integers none of whose operations is rounded is a run on unbounded integers. -/
theorem fHlll_exact {F : Type} {o : FPOps F} {rd rdE : ℤ → ℤ} {fuel : ℕ} {δ : F} {v : Bool} {s t : Lat F} {st : ℤ}
    (h : fHlll o rd rdE fuel δ v s = some (st, t)) (hub : t.ub = false) : hlll o fuel δ v s = some (st, t) := by
  obtain ⟨t', h1, h2⟩ := gHlll_sim (EntOK.float o rd rdE) fuel δ v s st t h hub
  rw [FPOps.via_id] at h1
  rw [Lat.fmap_id] at h2
  subst h2
  exact h1

/-- More steps do not change a run. -/
theorem fHlll_mono {F : Type} (o : FPOps F) (rd rdE : ℤ → ℤ) (f k : ℕ) (δ : F) (v : Bool) (s : Lat F) (r)
    (h : fHlll o rd rdE f δ v s = some r) : fHlll o rd rdE (f + k) δ v s = some r :=
  gHlll_mono o _ f k δ v s r h

end HPLLL
