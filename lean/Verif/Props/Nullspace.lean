import Verif.Props.Decomp
import Verif.Proof.NullLll
import Verif.Spec.Nullspace
/-!
# The integer nullspace functions

`A` has size `d × n`.  All theorems but `C71_complete` hold for every floating point behaviour.
-/

namespace HPLLL.Props
open HPLLL Spec Matrix

/-! ## C69: `nullspace_direct_decomp` -/

/-- **C69.** For `0 < d < n` and every floating point behaviour, `nullspace_direct_decomp` uses no index
out of range and either returns -1 and leaves `C` as it was, or returns `n - d` and `C` is an
`n × (n-d)` matrix of independent relations that misses no primitive relation of their span. -/
theorem C69_direct {F : Type} (o : FPOps F) (fp : FPart F) (junk gamma gap : F) (fuel d n : ℕ)
    (hd : 0 < d) (hn : d < n) (A : Mat Int) (C : ZMat) (r : NullRes)
    (h : nullspaceDirect o fp junk fuel gamma gap d n A C = some r) :
    r.ub = false ∧
    ((r.ret = -1 ∧ r.C = C) ∨
     (r.ret = (n : ℤ) - d ∧ r.C.rows = n ∧ r.C.cols = n - d ∧
       KernelPart (toMatrix d n A) (toMatrix n (n - d) r.C.M))) := by
  have hub : r.ub = false := by
    have h' := h
    unfold nullspaceDirect at h'
    split at h'
    · simp at h'
    · rename_i c s hs
      have := Dec.zDecomp_safe (s := newZFgas fp d n A true 0)
        ⟨hd, hn, hd, fun h => by simp [newZFgas] at h⟩ rfl hd (by simp [newZFgas]) hs
      simp only at h'
      split at h' <;>
      · simp only [Option.some.injEq] at h'
        subst h'
        exact this
  exact ⟨hub, Null.direct_spec h hub⟩

/-- **C69, completeness.** When it returns `n - d`, the columns of `C` are a basis of the integer
kernel of `A` exactly when `A` has rank `d`. -/
theorem C69_direct_basis {F : Type} (o : FPOps F) (fp : FPart F) (junk gamma gap : F) (fuel d n : ℕ)
    (hd : 0 < d) (hn : d < n) (A : Mat Int) (C : ZMat) (r : NullRes)
    (h : nullspaceDirect o fp junk fuel gamma gap d n A C = some r) (hr : 0 ≤ r.ret) :
    IsKernelBasis (toMatrix d n A) (toMatrix n (n - d) r.C.M) ↔ (toMatrix d n A).rank = d := by
  rcases (C69_direct o fp junk gamma gap fuel d n hd hn A C r h).2 with h1 | ⟨-, -, -, hK⟩
  · omega
  · rw [hK.basis]; omega

/-- A run that finds the kernel: `(23,-38,7,3)` and `(-16,27,-3,-4)`. -/
example : (match nullspaceDirect (nearOps 53) fpZero 0 100 gamma115 gapDef 2 4
      (ofCols [[10, 3], [7, 4], [3, 8], [5, 9]]) ⟨0, 0, fun _ _ => 0⟩ with
    | some r => (r.ret, r.C.rows, r.C.cols, toCols 4 2 r.C.M) ==
        (2, 4, 2, [[23, -38, 7, 3], [-16, 27, -3, -4]])
    | none => false) = true := by decide +kernel

/-- **C69, the converse fails.** `A = (10^10, 1)` has rank `d = 1`, and its kernel is generated by
`(1, -10^10)`; the decomposition takes the quotient `1e-10` of two successive diagonal entries for a
zero, and the function returns -1. -/
theorem C69_gap_defect :
    (match nullspaceDirect (nearOps 53) fpZero 0 100 gamma115 gapDef 1 2
      (ofCols [[10000000000], [1]]) ⟨0, 0, fun _ _ => 0⟩ with
    | some r => r.ret == -1
    | none => false) = true ∧
    IsKernelBasis (toMatrix 1 2 (ofCols [[10000000000], [1]])) !![1; -10000000000] := by
  refine ⟨by decide +kernel, ?_⟩
  have hA : toMatrix 1 2 (ofCols [[10000000000], [1]]) = !![10000000000, 1] := by
    ext i j
    fin_cases i; fin_cases j <;> rfl
  rw [hA]
  have h0 : (!![10000000000, 1] : Matrix (Fin 1) (Fin 2) ℤ) * !![1; -10000000000] = 0 := by
    ext i j
    fin_cases i; fin_cases j
    simp [Matrix.mul_apply, Fin.sum_univ_two]
  have hD : (!![1, 0] : Matrix (Fin 1) (Fin 2) ℤ) * !![1; -10000000000] = 1 := by
    ext i j
    fin_cases i; fin_cases j
    simp [Matrix.mul_apply, Fin.sum_univ_two]
  refine ⟨Null.fcr_of_inv hD, le_antisymm (Null.le_kernel h0) ?_⟩
  intro v hv
  refine Null.mem_lattice.2 ⟨fun _ => v 0, ?_⟩
  have hv' : 10000000000 * v 0 + v 1 = 0 := by
    have : (!![10000000000, 1] : Matrix (Fin 1) (Fin 2) ℤ) *ᵥ v = 0 := hv
    have := congrFun this 0
    simpa [Matrix.mulVec, dotProduct, Fin.sum_univ_two] using this
  funext i
  fin_cases i
  · simp [Matrix.mulVec, dotProduct]
  · simp [Matrix.mulVec, dotProduct]; linarith

/-! ## C70: `nullspace_hjls`, `nullspace_indirect_decomp` -/

/-- **C70, `nullspace_hjls`.** Either the value is -1, or it is `n - d` and `C` is an `n × (n-d)` matrix
of independent relations that misses no primitive relation of their span. -/
theorem C70_hjls {F : Type} (o : FPOps F) (fp : FPart F) (junk gamma gap : F) (fuel d n : ℕ)
    (hd : 0 < d) (hn : d < n) (A : Mat Int) (C : ZMat) (r : NullRes)
    (h : nullspaceHjls o fp junk fuel gamma gap d n A C = some r) :
    r.ub = false ∧
    (r.ret = -1 ∨
     (r.ret = (n : ℤ) - d ∧ r.C.rows = n ∧ r.C.cols = n - d ∧
       KernelPart (toMatrix d n A) (toMatrix n (n - d) r.C.M))) := by
  have hub : r.ub = false := by
    have h' := h
    unfold nullspaceHjls at h'
    split at h'
    · simp at h'
    · rename_i c s hs
      have := Dec.zDecomp_safe (s := newZFgas fp n (n + d) (hjlsInput d A) false d)
        ⟨by simp [newZFgas]; omega, by simp [newZFgas]; omega, by simp [newZFgas]; omega,
          fun h => by simp [newZFgas] at h⟩ rfl (by simp [newZFgas]; omega) (by simp [newZFgas]) hs
      split at h'
      · simp only [Option.some.injEq] at h'
        subst h'
        exact this
      · simp only [Option.some.injEq] at h'
        rw [← h']
        unfold nullCheck
        simp only
        split <;> exact this
  exact ⟨hub, Null.hjls_spec hn h hub⟩

theorem C70_hjls_basis {F : Type} (o : FPOps F) (fp : FPart F) (junk gamma gap : F) (fuel d n : ℕ)
    (hd : 0 < d) (hn : d < n) (A : Mat Int) (C : ZMat) (r : NullRes)
    (h : nullspaceHjls o fp junk fuel gamma gap d n A C = some r) (hr : 0 ≤ r.ret) :
    IsKernelBasis (toMatrix d n A) (toMatrix n (n - d) r.C.M) ↔ (toMatrix d n A).rank = d := by
  rcases (C70_hjls o fp junk gamma gap fuel d n hd hn A C r h).2 with h1 | ⟨-, -, -, hK⟩
  · omega
  · rw [hK.basis]; omega

/-- **C70, `nullspace_indirect_decomp`.** The same, whatever the arithmetic of both floating point types
and the uninitialised entries of the matrix that `fgasgen` decomposes. -/
theorem C70_indirect {X F : Type} (q : XOps X F) (o : FPOps F) (oX : FPOps X) (qX : XOps X X)
    (fpX : FPart X) (junkX : X) (fp : FPart F) (p : FgPar X F) (fuel d n : ℕ) (hd : 0 < d) (hn : d < n)
    (A : Mat Int) (C : ZMat) (r : NullRes)
    (h : nullspaceIndirect q o oX qX fpX junkX fp fuel p d n A C = some r) :
    r.ub = false ∧
    (r.ret = -1 ∨
     (r.ret = (n : ℤ) - d ∧ r.C.rows = n ∧ r.C.cols = n - d ∧
       KernelPart (toMatrix d n A) (toMatrix n (n - d) r.C.M))) := by
  have hub : r.ub = false := by
    have h' := h
    unfold nullspaceIndirect at h'
    simp only at h'
    split at h'
    · simp at h'
    · rename_i c s hs
      have := Dec.fDecomp_safe (s := newFgas fp (n - d) n (fgasgen oX qX fpX junkX d n A)
          (fgasgen oX qX fpX junkX d n A) false 0)
        ⟨by simp [newFgas]; omega, by simp [newFgas]; omega, by simp [newFgas]; omega,
          fun h => by simp [newFgas] at h⟩ rfl (by simp [newFgas]; omega)
          (by simp [newFgas]; omega) hs
      split at h'
      · simp only [Option.some.injEq] at h'
        subst h'
        exact this
      · simp only [Option.some.injEq] at h'
        rw [← h']
        unfold nullCheck
        simp only
        split <;> exact this
  exact ⟨hub, Null.indirect_spec hn h hub⟩

theorem C70_indirect_basis {X F : Type} (q : XOps X F) (o : FPOps F) (oX : FPOps X) (qX : XOps X X)
    (fpX : FPart X) (junkX : X) (fp : FPart F) (p : FgPar X F) (fuel d n : ℕ) (hd : 0 < d) (hn : d < n)
    (A : Mat Int) (C : ZMat) (r : NullRes)
    (h : nullspaceIndirect q o oX qX fpX junkX fp fuel p d n A C = some r) (hr : 0 ≤ r.ret) :
    IsKernelBasis (toMatrix d n A) (toMatrix n (n - d) r.C.M) ↔ (toMatrix d n A).rank = d := by
  rcases (C70_indirect q o oX qX fpX junkX fp p fuel d n hd hn A C r h).2 with h1 | ⟨-, -, -, hK⟩
  · omega
  · rw [hK.basis]; omega

/-- Runs of both functions that end with `n - d` relations. -/
example : (match nullspaceIndirect nearX (nearOps 53) (nearOps 53) nearX fpZero 0 fpZero 100 (parDef 0 500)
      2 4 (ofCols [[10, 3], [7, 4], [3, 8], [5, 9]]) ⟨0, 0, fun _ _ => 0⟩ with
    | some r => (r.ret, r.C.rows, r.C.cols, toCols 4 2 r.C.M) ==
        (2, 4, 2, [[7, -11, 4, -1], [2, -5, -5, 6]])
    | none => false) = true := by decide +kernel

example : (match nullspaceHjls (nearOps 53) fpZero 0 100 gamma115 gapDef 2 4
      (ofCols [[10, 3], [7, 4], [3, 8], [5, 9]]) ⟨0, 0, fun _ _ => 0⟩ with
    | some r => (r.ret, r.C.rows, r.C.cols, toCols 4 2 r.C.M) ==
        (2, 4, 2, [[-7, 11, -4, 1], [2, -5, -5, 6]])
    | none => false) = true := by decide +kernel

/-! ## C71: `nullspace_lll` -/

/-- **C71.** Unique shift, `HLLL`: either the value is -1 and `C` is as it was, or it is a number
`k ≥ n - d` and `C` is an `n × k` matrix of independent relations that misses no primitive relation of
their span. -/
theorem C71_lll {F : Type} (o : FPOps F) (junk delta : F) (fuel alpha d n : ℕ) (vd : ℤ)
    (A : Mat Int) (C : ZMat) (r : NullRes)
    (h : nullspaceLll o junk fuel delta vd alpha d n A C = some r) :
    (r.ret = -1 ∧ r.C = C) ∨
    ∃ k : ℕ, r.ret = k ∧ (n : ℤ) - d ≤ k ∧ r.C.rows = n ∧ r.C.cols = k ∧
      KernelPart (toMatrix d n A) (toMatrix n k r.C.M) := Null.lll_spec h

/-- **C71, rank `d`.** If `A` has rank `d`, a value other than -1 means a basis of the kernel. -/
theorem C71_lll_basis {F : Type} (o : FPOps F) (junk delta : F) (fuel alpha d n : ℕ) (vd : ℤ)
    (A : Mat Int) (hA : (toMatrix d n A).rank = d) (C : ZMat) (r : NullRes)
    (h : nullspaceLll o junk fuel delta vd alpha d n A C = some r) (hr : r.ret ≠ -1) :
    r.ret = (n : ℤ) - d ∧ r.C.cols = n - d ∧
      IsKernelBasis (toMatrix d n A) (toMatrix n (n - d) r.C.M) := by
  rcases Null.lll_spec h with h1 | ⟨k, h1, h2, -, h3, hK⟩
  · exact absurd h1.1 hr
  · have := hK.count
    have e : k = n - d := by omega
    subst e
    exact ⟨by omega, h3, hK.basis.2 (by omega)⟩

/-- **C71, completeness.** In exact arithmetic, with `1/4 < δ ≤ 1`, for a matrix of any rank: let
`x_1, ..., x_k` be any `k = n - rank A` independent relations of squared length at most `N`.  With a shift
of `alpha` bits, `(1/(δ-1/4))^(n-1) N < 4^alpha`, `nullspace_lll` ends and returns a basis of the integer
kernel, provided `hlll` does not use up its default budget of `2^32 - 1` tests. -/
theorem C71_complete {o : FPOps ℝ} (ho : ExactTies o) (junk δ : ℝ) (h4 : 1 / 4 < δ) (hδ : δ ≤ 1)
    (alpha d n : ℕ) (vd : ℤ) (A : Mat Int) (C : ZMat) {k : ℕ}
    (hk : (toMatrix d n A).rank + k = n)
    (x : Fin k → Fin n → ℤ) (hx : ∀ t, toMatrix d n A *ᵥ x t = 0) (hxi : LinearIndependent ℤ x) (N : ℝ)
    (hN : ∀ t, ∑ i, (x t i : ℝ) ^ 2 ≤ N) (hα : (1 / (δ - 1 / 4)) ^ (n - 1) * N < 4 ^ alpha)
    (hb : ∀ (fuel : ℕ) (s : Lat ℝ),
      hlll o fuel δ true (newLattice o junk (d + n) n (nullLllInput alpha d A) false 0 true vd) = some (0, s) →
      s.nblov < 4294967295) :
    ∃ r : NullRes, (∀ fuel : ℕ, 2 * potential (d + n) n (nullLllInput alpha d A) + n + 2 ≤ fuel →
        nullspaceLll o junk fuel δ vd alpha d n A C = some r) ∧
      r.ret = k ∧ r.C.rows = n ∧ r.C.cols = k ∧
      IsKernelBasis (toMatrix d n A) (toMatrix n k r.C.M) :=
  Null.lll_complete ho junk δ h4 hδ alpha d n vd A C hk x hx hxi N hN hα hb

/-- Runs: a shift of 10 bits finds the kernel of `(30, 50, 17)`, a shift of one bit does not. -/
example : (match nullspaceLll (nearOps 53) 0 100 (mkRat 999 1000) 0 10 1 3
      (ofCols [[30], [50], [17]]) ⟨0, 0, fun _ _ => 0⟩ with
    | some r => (r.ret, r.C.rows, r.C.cols, toCols 3 2 r.C.M) == (2, 3, 2, [[-5, 3, 0], [-4, -1, 10]])
    | none => false) = true := by decide +kernel

/-- **C71, the shift matters.** -/
theorem C71_small_shift : (match nullspaceLll (nearOps 53) 0 100 (mkRat 999 1000) 0 1 1 3
      (ofCols [[30], [50], [17]]) ⟨0, 0, fun _ _ => 0⟩ with
    | some r => r.ret == -1
    | none => false) = true := by decide +kernel

/-- The hypotheses of `C71_complete` hold for `A = (1, 1)`, `x = (1, -1)`, a shift of 2 bits, `δ = 1`. -/
example : ∃ r : NullRes, (∀ fuel : ℕ, 2 * potential 3 2 (nullLllInput 2 1 (ofCols [[1], [1]])) + 2 + 2 ≤ fuel →
      nullspaceLll realOps 0 fuel 1 0 2 1 2 (ofCols [[1], [1]]) ⟨0, 0, fun _ _ => 0⟩ = some r) ∧ r.ret = 1 := by
  have hA : toMatrix 1 2 (ofCols [[1], [1]]) = !![1, 1] := by
    ext i j; fin_cases i; fin_cases j <;> rfl
  have h0 : (!![1, 1] : Matrix (Fin 1) (Fin 2) ℤ) * !![1; -1] = 0 := by
    ext i j; fin_cases i; fin_cases j; simp [Matrix.mul_apply, Fin.sum_univ_two]
  have hD : (!![1, 0] : Matrix (Fin 1) (Fin 2) ℤ) * !![1; -1] = 1 := by
    ext i j; fin_cases i; fin_cases j; simp [Matrix.mul_apply, Fin.sum_univ_two]
  have hr : (toMatrix 1 2 (ofCols [[1], [1]])).rank + 1 = 2 := by
    rw [hA, ← Null.kernel_iff h0 hD]
    refine ⟨Null.fcr_of_inv hD, le_antisymm (Null.le_kernel h0) ?_⟩
    intro v hv
    refine Null.mem_lattice.2 ⟨fun _ => v 0, ?_⟩
    have hv' : v 0 + v 1 = 0 := by
      have : (!![1, 1] : Matrix (Fin 1) (Fin 2) ℤ) *ᵥ v = 0 := hv
      have := congrFun this 0
      simpa [Matrix.mulVec, dotProduct, Fin.sum_univ_two] using this
    funext i
    fin_cases i
    · simp [Matrix.mulVec, dotProduct]
    · simp [Matrix.mulVec, dotProduct]; linarith
  have hpot : potential 3 2 (nullLllInput 2 1 (ofCols [[1], [1]])) = 17 := by decide +kernel
  obtain ⟨r, h1, h2, -⟩ := C71_complete (k := 1) realOps_exact 0 1 (by norm_num) (le_refl _) 2 1 2 0
    (ofCols [[1], [1]]) ⟨0, 0, fun _ _ => 0⟩ hr (fun _ => ![1, -1])
    (fun t => by rw [hA]; funext i; fin_cases i; simp [Matrix.mulVec, dotProduct, Fin.sum_univ_two])
    (by
      rw [Fintype.linearIndependent_iff]
      intro g hg i
      fin_cases i
      have := congrFun hg 0
      simpa using this)
    2 (fun t => by simp [Fin.sum_univ_two]; norm_num) (by norm_num)
    (fun fuel s hs => by
      have := (C10_swap_bound realOps_exact.toExact 0 3 2 (nullLllInput 2 1 (ofCols [[1], [1]])) false 0 true 0 1
        (by norm_num) 1000000 4294967295 (Null.lllInput_fcr 2 1 2 _) fuel 1 (by norm_num) true s hs).2 (le_refl _)
      rw [hpot] at this
      omega)
  exact ⟨r, h1, h2⟩

/-! ## C11, all vectors -/

/-- **C11, successive minima.** For any `k` independent vectors of the lattice of squared length at most
`N`, the first `k` vectors of the output have squared length at most `(1/(δ-1/4))^(d-1) N`. -/
theorem C11_successive_minima {o : FPOps ℝ} (ho : Exact o) (junk : ℝ) (n d : ℕ) (A : Mat Int)
    (forU : Bool) (method : ℤ) (hm : method < 1) (longFlag : Bool) (vd : ℤ) (S : ℕ) (hS : 0 < S)
    (thr : ℤ) (nb : ℕ) (hA : FullColumnRank (toMatrix n d A))
    (fuel : ℕ) (δ : ℝ) (h4 : 1 / 4 < δ) (hδ : δ ≤ 1) (verbose : Bool) (s' : Lat ℝ)
    (h : hlll o fuel δ verbose
      (fresh o junk n d A forU method longFlag vd S thr nb) = some (0, s'))
    (hb : s'.nblov < nb) {k : ℕ} (x : Fin k → Fin n → ℤ)
    (hx : ∀ t, x t ∈ lattice (toMatrix n d A)) (hxi : LinearIndependent ℤ x) (N : ℝ)
    (hN : ∀ t, ∑ i, (x t i : ℝ) ^ 2 ≤ N) (j : Fin d) (hj : (j : ℕ) < k) :
    ∑ i : Fin n, (s'.getbase.M j i : ℝ) ^ 2 ≤ (1 / (δ - 1 / 4)) ^ (d - 1) * N := by
  obtain ⟨_, a, b⟩ := C08_output_reduced ho junk n d A forU method longFlag vd S hS thr nb hA fuel δ
    verbose s' h hb
  exact LLLReduced.minima h4 hδ (a hm) x (fun t => by rw [b]; exact hx t) hxi N hN j hj

end HPLLL.Props
