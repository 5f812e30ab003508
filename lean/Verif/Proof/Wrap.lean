import Verif.Proof.MatH
import Verif.Proof.History
import Verif.Model.Wrap
/-! Lattices of partially reduced matrices, and the phases of the wrappers. -/

namespace HPLLL
open Spec Matrix

variable {F G H : Type}

theorem toMatrix_congr {n d : Nat} {M M' : Mat Int}
    (h : ∀ j, j < d → ∀ i, i < n → M j i = M' j i) : toMatrix n d M = toMatrix n d M' := by
  ext i j
  exact h j j.2 i i.2

theorem mem_lattice {n d : Nat} (M : Mat Int) (j : Nat) (hj : j < d) :
    (fun i : Fin n => M j i) ∈ lattice (toMatrix n d M) :=
  Submodule.subset_span ⟨⟨j, hj⟩, rfl⟩

theorem lattice_prefix_le {n a d : Nat} (h : a ≤ d) (M : Mat Int) :
    lattice (toMatrix n a M) ≤ lattice (toMatrix n d M) := by
  refine Submodule.span_le.2 ?_
  rintro _ ⟨j, rfl⟩
  exact mem_lattice M j (lt_of_lt_of_le j.2 h)

theorem lattice_split_le {n a d : Nat} (M M' : Mat Int) (had : a ≤ d)
    (hc : ∀ j, a ≤ j → j < d → ∀ i, i < n → M j i = M' j i)
    (hl : lattice (toMatrix n a M) ≤ lattice (toMatrix n a M')) :
    lattice (toMatrix n d M) ≤ lattice (toMatrix n d M') := by
  refine Submodule.span_le.2 ?_
  rintro _ ⟨j, rfl⟩
  by_cases hj : (j : ℕ) < a
  · exact lattice_prefix_le had M' (hl (mem_lattice M j hj))
  · have : (fun i : Fin n => toMatrix n d M i j) = fun i : Fin n => M' j i := by
      funext i
      exact hc j (by omega) j.2 i i.2
    show (fun i : Fin n => toMatrix n d M i j) ∈ _
    rw [this]
    exact mem_lattice M' j j.2

/-- Replacing the first columns by other generators of the same lattice. -/
theorem lattice_split {n a d : Nat} (M M' : Mat Int) (had : a ≤ d)
    (hc : ∀ j, a ≤ j → j < d → ∀ i, i < n → M j i = M' j i)
    (hl : lattice (toMatrix n a M) = lattice (toMatrix n a M')) :
    lattice (toMatrix n d M) = lattice (toMatrix n d M') :=
  le_antisymm (lattice_split_le M M' had hc hl.le)
    (lattice_split_le M' M had (fun j h1 h2 i hi => (hc j h1 h2 i hi).symm) hl.ge)

/-- Generators of the same lattice, as many, one family independent: they differ by a unimodular
matrix. -/
theorem unimodular_of_lattice_eq {n d : Nat} (M M' : Matrix (Fin n) (Fin d) ℤ)
    (hl : lattice M = lattice M') (hr : FullColumnRank M') :
    ∃ X : Matrix (Fin d) (Fin d) ℤ, IsUnit X.det ∧ M = M' * X := by
  have key : ∀ P Q : Matrix (Fin n) (Fin d) ℤ, lattice P ≤ lattice Q →
      ∃ X : Matrix (Fin d) (Fin d) ℤ, P = Q * X := by
    intro P Q h
    have : ∀ j, ∃ v : Fin d → ℤ, Q.mulVec v = fun i => P i j := by
      intro j
      have hj : (fun i => P i j) ∈ lattice Q := h (Submodule.subset_span ⟨j, rfl⟩)
      rw [lattice_eq_range] at hj
      obtain ⟨v, hv⟩ := hj
      exact ⟨v, by simpa using hv⟩
    choose v hv using this
    refine ⟨Matrix.of fun k j => v j k, ?_⟩
    ext i j
    have := congrFun (hv j) i
    rw [← this]
    rfl
  obtain ⟨X, hX⟩ := key M M' hl.le
  obtain ⟨Y, hY⟩ := key M' M hl.ge
  refine ⟨X, ?_, hX⟩
  have h1 : M' * (X * Y) = M' * (1 : Matrix (Fin d) (Fin d) ℤ) := by rw [← Matrix.mul_assoc, ← hX, ← hY, Matrix.mul_one]
  have h2 : X * Y = 1 := by
    ext k j
    have hc : M'.mulVec (fun k => (X * Y) k j) = M'.mulVec fun k => (1 : Matrix (Fin d) (Fin d) ℤ) k j := by
      funext i
      exact congrFun (congrFun h1 i) j
    have hli := hr
    unfold FullColumnRank at hli
    have hinj := LinearIndependent.fintypeLinearCombination_injective hli
    have : (fun k => (X * Y) k j) = fun k => (1 : Matrix (Fin d) (Fin d) ℤ) k j := by
      apply hinj
      funext i
      have := congrFun hc i
      simp only [Fintype.linearCombination_apply, Finset.sum_apply, Pi.smul_apply, smul_eq_mul]
      simp only [Matrix.mulVec, dotProduct] at this
      simpa [mul_comm] using this
    exact congrFun this k
  exact (Matrix.isUnit_iff_isUnit_det X).1 (IsUnit.of_mul_eq_one Y h2)

theorem copyCols_apply (n a b : Nat) (A T : Mat Int) (c r : Nat) :
    copyCols n a b A T c r = if r < n ∧ a ≤ c ∧ c < b then A c r else T c r := by
  unfold copyCols
  have h := forRange_fill (fun i j => A j i) 0 0 n a b T c r
  simpa using h

theorem reducePhase_ok (o : FPOps F) (junk : F) (fuel : Nat) (δ : F) (m : Int) (n d : Nat)
    (T C : Mat Int) (vd vd' : Int) (h : reducePhase o junk fuel δ m n d T vd = some (C, vd')) :
    lattice (toMatrix n d C) = lattice (toMatrix n d T) ∧ vd' = vd := by
  unfold reducePhase at h
  split at h
  · simp at h
  · rename_i st s hs
    simp only [Option.some.injEq, Prod.mk.injEq] at h
    obtain ⟨rfl, rfl⟩ := h
    have hE := hlll_exit o fuel δ true _ s st (LInv.of_basis (n := n) (d := d) T False
      (newLattice o junk n d T false m true vd) rfl rfl rfl rfl (fun h => h.elim)) (le_refl d) hs
    obtain ⟨W, hW, hB, -⟩ := hE.inv.uni
    refine ⟨?_, hE.cfg.verboseDepth⟩
    simp only [Lat.getbase]
    rw [hB, lattice_mul_unit _ _ hW]

/-- What is needed of a phase. -/
def PhaseOk (n : Nat) (P : Nat → Nat → Mat Int → Int → Option (Mat Int × Int)) : Prop :=
  ∀ k d T vd C vd', P k d T vd = some (C, vd') →
    lattice (toMatrix n d C) = lattice (toMatrix n d T) ∧ vd' = vd

theorem wrapPhase_ok (o : FPOps F) (junk delta : F) (o2 : FPOps G) (junk2 delta2 : G) (fuel n : Nat) :
    PhaseOk n (wrapPhase o junk delta o2 junk2 delta2 fuel n) := by
  intro k d T vd C vd' h
  unfold wrapPhase at h
  split at h
  · exact reducePhase_ok _ _ _ _ _ _ _ _ _ _ _ h
  · split at h <;> exact reducePhase_ok _ _ _ _ _ _ _ _ _ _ _ h

theorem lattice_setMat (n a : Nat) (A T : Mat Int) :
    lattice (toMatrix n a (setMat n a A T)) = lattice (toMatrix n a A) := by
  congr 1
  exact toMatrix_congr fun j hj i hi => by rw [setMat_apply, if_pos ⟨hi, hj⟩]

/-- `[C | rest of A]` as built by the mpz wrappers. -/
theorem lattice_concat (n a d : Nat) (had : a ≤ d) (A C : Mat Int)
    (h : lattice (toMatrix n a C) = lattice (toMatrix n a A)) :
    lattice (toMatrix n d (copyCols n a d A (setMat n a C fun _ _ => 0))) =
      lattice (toMatrix n d A) := by
  refine lattice_split _ _ had ?_ ?_
  · intro j h1 h2 i hi
    rw [copyCols_apply, if_pos ⟨hi, h1, h2⟩]
  · rw [← h]
    congr 1
    refine toMatrix_congr fun j hj i hi => ?_
    rw [copyCols_apply, if_neg (by omega), setMat_apply, if_pos ⟨hi, hj⟩]

/-- `[C | rest of B]` as built in place. -/
theorem lattice_setIn (n a d : Nat) (had : a ≤ d) (B C : Mat Int)
    (h : lattice (toMatrix n a C) = lattice (toMatrix n a B)) :
    lattice (toMatrix n d (setMat n a C B)) = lattice (toMatrix n d B) := by
  refine lattice_split _ _ had ?_ ?_
  · intro j h1 h2 i hi
    rw [setMat_apply, if_neg (by omega)]
  · rw [lattice_setMat, h]

theorem threePhases_ok {n : Nat} {P} (hP : PhaseOk n P) (d1 d2 d : Nat) (h12 : d1 ≤ d2)
    (A C : Mat Int) (vd vd' : Int) (h : threePhases d1 d2 n d P A vd = some (C, vd')) :
    lattice (toMatrix n d C) = lattice (toMatrix n d A) ∧ vd' = vd := by
  unfold threePhases at h
  split at h
  · exact hP _ _ _ _ _ _ h
  rename_i hd1
  split at h
  · split at h
    · simp at h
    rename_i C1 v1 h1
    obtain ⟨e1, rfl⟩ := hP _ _ _ _ _ _ h1
    obtain ⟨e2, rfl⟩ := hP _ _ _ _ _ _ h
    rw [lattice_setMat] at e1
    exact ⟨by rw [e2, lattice_concat n d1 d (by omega) A C1 e1], rfl⟩
  · split at h
    · simp at h
    rename_i hd2 _ C1 v1 h1
    split at h
    · simp at h
    rename_i C2 v2 h2
    obtain ⟨e1, rfl⟩ := hP _ _ _ _ _ _ h1
    obtain ⟨e2, rfl⟩ := hP _ _ _ _ _ _ h2
    obtain ⟨e3, rfl⟩ := hP _ _ _ _ _ _ h
    rw [lattice_setMat] at e1
    rw [lattice_concat n d1 d2 h12 A C1 e1] at e2
    exact ⟨by rw [e3, lattice_concat n d2 d (by omega) A C2 e2], rfl⟩

theorem threePhasesIn_ok {n : Nat} {P} (hP : PhaseOk n P) (d1 d2 d : Nat)
    (A C : Mat Int) (vd vd' : Int) (h : threePhasesIn d1 d2 n d P A vd = some (C, vd')) :
    lattice (toMatrix n d C) = lattice (toMatrix n d A) ∧ vd' = vd := by
  unfold threePhasesIn at h
  split at h
  · exact hP _ _ _ _ _ _ h
  rename_i hd1
  split at h
  · split at h
    · simp at h
    rename_i C1 v1 h1
    obtain ⟨e1, rfl⟩ := hP _ _ _ _ _ _ h1
    obtain ⟨e2, rfl⟩ := hP _ _ _ _ _ _ h
    rw [lattice_setMat] at e1
    exact ⟨by rw [e2, lattice_setIn n d1 d (by omega) A C1 e1], rfl⟩
  · split at h
    · simp at h
    rename_i hd2 _ C1 v1 h1
    simp only [] at h
    split at h
    · simp at h
    rename_i C2 v2 h2
    obtain ⟨e1, rfl⟩ := hP _ _ _ _ _ _ h1
    obtain ⟨e2, rfl⟩ := hP _ _ _ _ _ _ h2
    obtain ⟨e3, rfl⟩ := hP _ _ _ _ _ _ h
    rw [lattice_setMat] at e1 e2
    refine ⟨?_, rfl⟩
    rw [e3, lattice_setIn n d2 d (by omega) _ C2 e2, lattice_setIn n d1 d (by omega) _ C1 e1]

end HPLLL
