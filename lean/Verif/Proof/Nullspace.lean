import Verif.Spec.Nullspace
import Mathlib.LinearAlgebra.Dimension.Localization
import Mathlib.LinearAlgebra.FreeModule.PID
/-! Integer kernels: a matrix with a left inverse whose columns are in the kernel. -/

namespace HPLLL
open Spec Matrix

namespace Null

theorem mem_lattice {n k : ℕ} {C : Matrix (Fin n) (Fin k) ℤ} {v : Fin n → ℤ} :
    v ∈ lattice C ↔ ∃ w, C *ᵥ w = v := by
  have : lattice C = LinearMap.range C.mulVecLin := by
    rw [Matrix.range_mulVecLin]; rfl
  rw [this]; simp

variable {d n k : ℕ} {A : Matrix (Fin d) (Fin n) ℤ} {C : Matrix (Fin n) (Fin k) ℤ}
  {D : Matrix (Fin k) (Fin n) ℤ}

theorem fcr_of_inv (hD : D * C = 1) : FullColumnRank C := by
  have : Function.Injective C.mulVec := by
    intro v w h
    have := congrArg (D *ᵥ ·) h
    simpa [Matrix.mulVec_mulVec, hD] using this
  exact Matrix.mulVec_injective_iff.1 this

theorem primitive_of_inv (hD : D * C = 1) : Primitive C := by
  intro v m hm h
  obtain ⟨w, hw⟩ := mem_lattice.1 h
  refine mem_lattice.2 ⟨D *ᵥ v, ?_⟩
  have h1 : w = m • (D *ᵥ v) := by
    have := congrArg (D *ᵥ ·) hw
    simp only [Matrix.mulVec_mulVec, hD, Matrix.one_mulVec, Matrix.mulVec_smul] at this
    exact this
  rw [h1, Matrix.mulVec_smul] at hw
  exact smul_right_injective _ hm hw

theorem le_kernel (h0 : A * C = 0) : lattice C ≤ kernelZ A := by
  intro v hv
  obtain ⟨w, rfl⟩ := mem_lattice.1 hv
  simp [kernelZ, Matrix.mulVec_mulVec, h0]

theorem rank_nullity {R M N : Type} [CommRing R] [IsDomain R] [AddCommGroup M] [AddCommGroup N]
    [Module R M] [Module R N] (f : M →ₗ[R] N) [Module.Finite R M] :
    Module.finrank R (LinearMap.range f) + Module.finrank R (LinearMap.ker f) = Module.finrank R M := by
  rw [← (LinearMap.quotKerEquivRange f).finrank_eq]
  exact Submodule.finrank_quotient_add_finrank _

theorem kernel_gen {R : Type} [CommRing R] [IsDomain R] [IsPrincipalIdealRing R] {A : Matrix (Fin d) (Fin n) R}
    {C : Matrix (Fin n) (Fin k) R} {D : Matrix (Fin k) (Fin n) R} (h0 : A * C = 0) (hD : D * C = 1) :
    A.rank + k ≤ n ∧ ((∀ v, A *ᵥ v = 0 → ∃ w, C *ᵥ w = v) ↔ A.rank + k = n) := by
  have hr : A.rank + Module.finrank R (LinearMap.ker A.mulVecLin) = n := by
    have := rank_nullity A.mulVecLin
    simpa [Matrix.rank] using this
  let f : LinearMap.ker A.mulVecLin →ₗ[R] (Fin k → R) :=
    D.mulVecLin.comp (LinearMap.ker A.mulVecLin).subtype
  have hc : ∀ w, C *ᵥ w ∈ LinearMap.ker A.mulVecLin := by
    intro w; simp [Matrix.mulVec_mulVec, h0]
  have hs : LinearMap.range f = ⊤ := by
    rw [LinearMap.range_eq_top]
    intro w
    refine ⟨⟨C *ᵥ w, hc w⟩, ?_⟩
    simp [f, Matrix.mulVec_mulVec, hD]
  have hf := rank_nullity f
  rw [hs] at hf
  simp only [finrank_top, Module.finrank_fintype_fun_eq_card, Fintype.card_fin] at hf
  have hz : A.rank + k = n ↔ Module.finrank R (LinearMap.ker f) = 0 := by omega
  refine ⟨by omega, ?_⟩
  rw [hz, Submodule.finrank_eq_zero, LinearMap.ker_eq_bot]
  constructor
  · intro h
    rw [← LinearMap.ker_eq_bot, LinearMap.ker_eq_bot']
    rintro ⟨v, hv⟩ h1
    obtain ⟨w, hw⟩ := h v (by simpa using hv)
    have h2 : D *ᵥ v = 0 := h1
    rw [← hw, Matrix.mulVec_mulVec, hD, Matrix.one_mulVec] at h2
    subst h2
    apply Subtype.ext
    simpa using hw.symm
  · intro hi v hv
    refine ⟨D *ᵥ v, ?_⟩
    have := @hi ⟨C *ᵥ (D *ᵥ v), hc _⟩ ⟨v, by simpa using hv⟩ (by
      simp only [f, LinearMap.comp_apply, Submodule.subtype_apply, Matrix.mulVecLin_apply,
        Matrix.mulVec_mulVec]
      rw [← Matrix.mul_assoc, hD, Matrix.one_mul])
    exact congrArg Subtype.val this

/-- The lattice of `C` is the whole kernel exactly when it has the right dimension. -/
theorem kernel_iff (h0 : A * C = 0) (hD : D * C = 1) : IsKernelBasis A C ↔ A.rank + k = n := by
  rw [← (kernel_gen h0 hD).2]
  constructor
  · rintro ⟨-, h⟩ v hv
    have : v ∈ kernelZ A := by simpa [kernelZ] using hv
    rw [← h] at this
    exact mem_lattice.1 this
  · intro h
    refine ⟨fcr_of_inv hD, le_antisymm (le_kernel h0) ?_⟩
    intro v hv
    exact mem_lattice.2 (h v (by simpa [kernelZ] using hv))

theorem kernelPart (h0 : A * C = 0) (hD : D * C = 1) : KernelPart A C :=
  ⟨h0, fcr_of_inv hD, primitive_of_inv hD, (kernel_gen h0 hD).1, kernel_iff h0 hD⟩

end Null
end HPLLL
