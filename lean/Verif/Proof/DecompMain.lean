import Verif.Proof.DecompAlg
import Verif.Proof.DecompSafe
import Verif.Proof.Nullspace
import Verif.Proof.HlllExit
import Verif.Model.Nullspace
import Verif.Proof.MatH
import Mathlib.Data.List.GetD
/-! The decompositions of new objects, and the nullspace functions. -/

namespace HPLLL
open Spec Matrix

namespace Dec

variable {X F : Type} {o : FPOps F} {q : XOps X F}

theorem zDecomp_alg {lo fuel : Nat} {junk gamma gap : F} {targetdim : Int} {fp : FPart F} {d n dec : Nat}
    {A : Mat Int} {transf : Bool} {s' : Fg Int F} {c : Int} (hlo : LoOK lo d dec targetdim)
    (h : zDecomp o junk fuel gamma gap targetdim (newZFgas fp d n A transf dec) = some (c, s'))
    (hub : s'.ub = false) :
    ∃ T W, Alg n lo T W s' ∧ toMatrix d n s'.M = toMatrix d n A * T := by
  have hm := zDecomp_mvs (s := newZFgas fp d n A transf dec) hlo h
  obtain ⟨T, W, hA, h1, h2⟩ := (MEq.carried (o := o) (zX_ring o) d lo A).mvs hm (n := n)
    ⟨1, 1, Alg.init rfl rfl rfl, rfl, fun r hr j => by
      rw [Finset.sum_eq_single j]
      · simp [newZFgas]
      · intro b _ hb; simp [Matrix.one_apply_ne hb]
      · simp⟩ hub
  refine ⟨T, W, hA, ?_⟩
  ext i j
  rw [Matrix.mul_apply]
  simp only [toMatrix, of_apply]
  rw [h2 i i.2 j]
  simp

theorem fDecomp_alg {lo fuel : Nat} {p : FgPar X F} {fp : FPart F} {d n dec : Nat} {A Y0 : Mat X}
    {transf : Bool} {s' : Fg X F} {c : Int} (hlo : LoOK lo d dec p.targetdim)
    (h : fDecomp o q fuel p (newFgas fp d n A Y0 transf dec) = some (c, s'))
    (hub : s'.ub = false) : ∃ T W, Alg n lo T W s' :=
  Alg.mvs (fDecomp_mvs (s := newFgas fp d n A Y0 transf dec) hlo h) ⟨1, 1, Alg.init rfl rfl rfl⟩ hub

theorem fDecomp_exact [CommRing X] (hq : ExactEntries q) {fuel : Nat} {p : FgPar X F} {fp : FPart F}
    {d n dec : Nat} {A Y0 : Mat X} {transf : Bool} {s' : Fg X F} {c : Int}
    (h : fDecomp o q fuel p (newFgas fp d n A Y0 transf dec) = some (c, s')) (hub : s'.ub = false) :
    ∃ T W, Alg n 0 T W s' ∧ MEq d A n T W s' ∧ YEq dec Y0 n T W s' := by
  have hm := fDecomp_mvs (lo := 0) (s := newFgas fp d n A Y0 transf dec) (Or.inl rfl) h
  have c1 := MEq.carried (o := o) hq d 0 A
  have c2 := YEq.carried (o := o) hq dec 0 Y0
  have c3 : Carried (fun n T W s => MEq (F := F) d A n T W s ∧ YEq (F := F) dec Y0 n T W s) o q 0 :=
    ⟨fun n T W s κ i x hi hA hu hp => ⟨c1.comb n T W s κ i x hi hA hu hp.1, c2.comb n T W s κ i x hi hA hu hp.2⟩,
     fun n T W s a b ha hb hA hu hp => ⟨c1.swap n T W s a b ha hb hA hu hp.1, c2.swap n T W s a b ha hb hA hu hp.2⟩,
     fun n T W s p l k b hp => ⟨c1.fp n T W s p l k b hp.1, c2.fp n T W s p l k b hp.2⟩⟩
  refine c3.mvs hm (n := n) ⟨1, 1, Alg.init rfl rfl rfl, ⟨rfl, fun r hr j => ?_⟩, rfl, fun ht c hc j hj => ?_⟩ hub
  · rw [Finset.sum_eq_single j]
    · simp [newFgas]
    · intro b _ hb; simp [Matrix.one_apply_ne hb]
    · simp
  · rw [Finset.sum_eq_single j]
    · simp [newFgas, hj]
    · intro b _ hb; simp [Matrix.one_apply_ne hb]
    · simp

end Dec

namespace Null

/-! ## Zero columns -/

theorem mem_zeroCols {d n : Nat} {M : Mat Int} {j : Nat} :
    j ∈ zeroCols d n M ↔ j < n ∧ ∀ i, i < d → M j i = 0 := by
  simp [zeroCols, isZeroCol]

theorem zeroCols_nodup (d n : Nat) (M : Mat Int) : (zeroCols d n M).Nodup :=
  List.Nodup.filter _ List.nodup_range

theorem zeroCols_getD {d n : Nat} {M : Mat Int} {j : Nat} (h : j < (zeroCols d n M).length) :
    (zeroCols d n M).getD j 0 < n ∧ ∀ i, i < d → M ((zeroCols d n M).getD j 0) i = 0 := by
  rw [List.getD_eq_getElem _ _ h]
  exact mem_zeroCols.1 (List.getElem_mem h)

theorem zeroCols_inj {d n : Nat} {M : Mat Int} {i j : Nat} (hi : i < (zeroCols d n M).length)
    (hj : j < (zeroCols d n M).length) (h : (zeroCols d n M).getD i 0 = (zeroCols d n M).getD j 0) :
    i = j := by
  rw [List.getD_eq_getElem _ _ hi, List.getD_eq_getElem _ _ hj] at h
  exact (List.Nodup.getElem_inj_iff (zeroCols_nodup d n M)).1 h

/-- Every column is zero when there are as many zero columns as columns. -/
theorem zeroCols_all {d n : Nat} {M : Mat Int} (h : (zeroCols d n M).length = n) (j : Nat) (hj : j < n)
    (i : Nat) (hi : i < d) : M j i = 0 := by
  have h1 : (zeroCols d n M).Sublist (List.range n) := List.filter_sublist
  have h2 := h1.eq_of_length (by simpa using h)
  have : j ∈ zeroCols d n M := by rw [h2]; simpa using hj
  exact (mem_zeroCols.1 this).2 i hi

/-- Selected columns of a transformation, with the rows of its inverse. -/
theorem select_inv {n k : Nat} {T W : Matrix (Fin n) (Fin n) ℤ} (h : Wᵀ * T = 1) (z : Fin k → Fin n)
    (hz : Function.Injective z) :
    Matrix.of (fun (j : Fin k) (i : Fin n) => W i (z j)) *
      Matrix.of (fun (i : Fin n) (j : Fin k) => T i (z j)) = 1 := by
  ext a b
  have := congrFun (congrFun h (z a)) (z b)
  rw [Matrix.mul_apply] at this
  rw [Matrix.mul_apply]
  simp only [Matrix.of_apply]
  simp only [Matrix.transpose_apply] at this
  rw [this, Matrix.one_apply, Matrix.one_apply]
  simp [hz.eq_iff]

/-- The matrix of the selected columns. -/
theorem select_zero {d n k : Nat} {A : Matrix (Fin d) (Fin n) ℤ} {B : Matrix (Fin d) (Fin n) ℤ}
    {T W : Matrix (Fin n) (Fin n) ℤ} (hB : B = A * T) (h : Wᵀ * T = 1) (z : Fin k → Fin n)
    (hz : Function.Injective z) (h0 : ∀ j i, B i (z j) = 0) :
    KernelPart A (Matrix.of (fun (i : Fin n) (j : Fin k) => T i (z j))) := by
  refine kernelPart (D := Matrix.of (fun (j : Fin k) (i : Fin n) => W i (z j))) ?_ (select_inv h z hz)
  ext i j
  have := h0 j i
  rw [hB, Matrix.mul_apply] at this
  rw [Matrix.mul_apply]
  simpa using this

theorem direct_spec {F : Type} {o : FPOps F} {fp : FPart F} {junk gamma gap : F} {fuel d n : Nat}
    {A : Mat Int} {C : ZMat} {r : NullRes}
    (h : nullspaceDirect o fp junk fuel gamma gap d n A C = some r) (hub : r.ub = false) :
    (r.ret = -1 ∧ r.C = C) ∨
    (r.ret = (n : Int) - d ∧ r.C.rows = n ∧ r.C.cols = n - d ∧
      KernelPart (toMatrix d n A) (toMatrix n (n - d) r.C.M)) := by
  unfold nullspaceDirect at h
  split at h
  · simp at h
  · rename_i c s hs
    simp only at h
    split at h
    · simp only [Option.some.injEq] at h
      subst h
      exact Or.inl ⟨rfl, rfl⟩
    · rename_i hz
      simp only [Option.some.injEq] at h
      subst h
      obtain ⟨T, W, hA, hM⟩ := Dec.zDecomp_alg (lo := 0) (Or.inl rfl) hs hub
      have hl := (Dec.zDecomp_mvs (lo := 0) (s := newZFgas fp d n A true 0) (Or.inl rfl) hs).le
      have htr : s.transf = true := hl.2.2.2.1
      have htU : s.trU = true := hl.2.2.2.2.1
      simp only [not_not] at hz
      set z := zeroCols d n s.zgetbase.M with hzd
      refine Or.inr ⟨hz, rfl, rfl, ?_⟩
      have hlen : ∀ j : Fin (n - d), j.1 < z.length := fun j => by have := j.2; omega
      have := select_zero (k := n - d) hM hA.inv (fun j => ⟨z.getD j 0, (zeroCols_getD (hlen j)).1⟩)
        (fun a b hab => by
          simp only [Fin.mk.injEq] at hab
          exact Fin.ext (zeroCols_inj (hlen a) (hlen b) hab))
        (fun j i => (zeroCols_getD (hlen j)).2 i i.2)
      convert this using 1
      ext i j
      rw [← hA.u htU]
      simp [toMatrix, Fg.zgetU, htr]

theorem nullCheck_spec {d n : Nat} (hn : 0 < n) {A : Mat Int} {C : ZMat} {ub : Bool}
    (h : (nullCheck d n A C ub).ret ≠ -1) :
    (nullCheck d n A C ub).ret = (n : Int) - d ∧ toMatrix d n A * toMatrix n (n - d) C.M = 0 := by
  unfold nullCheck at h ⊢
  simp only at h ⊢
  split
  · rename_i h'
    rw [if_pos h'] at h
    exact absurd rfl h
  · rename_i h'
    simp only [not_not] at h'
    refine ⟨h', ?_⟩
    ext i j
    have hdn : d ≤ n := by omega
    have := zeroCols_all (d := d) (n := n - d) (M := matprod d n (n - d) A C.M fun _ _ => 0) (by omega)
      j j.2 i i.2
    rw [matprod_apply _ _ _ hn, if_pos ⟨i.2, j.2⟩] at this
    rw [Matrix.mul_apply]
    simp only [toMatrix, of_apply, Matrix.zero_apply]
    rw [← this, Finset.sum_range]

/-- The output of `nullspace_indirect_decomp` and `nullspace_hjls`, when it is of the right form. -/
theorem hjls_spec {F : Type} {o : FPOps F} {fp : FPart F} {junk gamma gap : F} {fuel d n : Nat}
    {A : Mat Int} {C : ZMat} {r : NullRes} (hn : d < n)
    (h : nullspaceHjls o fp junk fuel gamma gap d n A C = some r) (hub : r.ub = false) :
    r.ret = -1 ∨
    (r.ret = (n : Int) - d ∧ r.C.rows = n ∧ r.C.cols = n - d ∧
      KernelPart (toMatrix d n A) (toMatrix n (n - d) r.C.M)) := by
  unfold nullspaceHjls at h
  split at h
  · simp at h
  · rename_i c s hs
    split at h
    · simp only [Option.some.injEq] at h
      subst h
      exact Or.inl rfl
    · simp only [Option.some.injEq] at h
      by_cases hr : r.ret = -1
      · exact Or.inl hr
      right
      set C' : ZMat := ⟨n, n - d, fun j i => s.zgetV.M (2 * d + j) (d + i)⟩ with hC'
      have hC : r.C = C' := by rw [← h]; unfold nullCheck; simp only; split <;> rfl
      have hu : r.ub = s.ub := by rw [← h]; unfold nullCheck; simp only; split <;> rfl
      obtain ⟨h1, h2⟩ := nullCheck_spec (by omega) (A := A) (C := C') (ub := s.ub) (d := d) (n := n)
        (by rw [h]; exact hr)
      rw [h] at h1
      refine ⟨h1, by rw [hC], by rw [hC], ?_⟩
      rw [hC]
      obtain ⟨T, W, hA, -⟩ := Dec.zDecomp_alg (lo := d) (n := n + d) (Or.inr ⟨le_refl _, by omega⟩) hs
        (by rw [← hu]; exact hub)
      have hl := (Dec.zDecomp_mvs (lo := 0) (s := newZFgas fp n (n + d) (hjlsInput d A) false d)
        (Or.inl rfl) hs).le
      have htr : s.transf = false := hl.2.2.2.1
      have htW : s.trW = true := hl.2.2.2.2.2.1
      have hw := hA.w htW
      refine kernelPart (D := Matrix.of fun (j : Fin (n - d)) (i : Fin n) =>
        T ⟨d + i, by omega⟩ ⟨2 * d + j, by omega⟩) h2 ?_
      ext a b
      have key := congrFun (congrFun hA.inv ⟨2 * d + b, by omega⟩) ⟨2 * d + a, by omega⟩
      rw [Matrix.mul_apply, Matrix.one_apply] at key
      rw [Matrix.mul_apply, Matrix.one_apply]
      have hsplit : ∑ k : Fin (n + d), Wᵀ ⟨2 * d + b, by omega⟩ k * T k ⟨2 * d + a, by omega⟩ =
          ∑ i : Fin n, W ⟨d + i, by omega⟩ ⟨2 * d + b, by omega⟩ *
            T ⟨d + i, by omega⟩ ⟨2 * d + a, by omega⟩ := by
        have e : n + d = d + n := by omega
        rw [← (finCongr e.symm).sum_comp, Fin.sum_univ_add]
        rw [Finset.sum_eq_zero (fun i _ => ?_), zero_add]
        · rfl
        · rw [Matrix.transpose_apply, hA.w0 _ _ (by simp) (by simp; omega), zero_mul]
      rw [hsplit] at key
      have heq : (⟨2 * d + b, by omega⟩ : Fin (n + d)) = ⟨2 * d + a, by omega⟩ ↔ a = b := by
        rw [Fin.mk.injEq, Fin.ext_iff]; omega
      rw [if_congr heq rfl rfl] at key
      rw [← key]
      refine Finset.sum_congr rfl fun i _ => ?_
      rw [← hw]
      simp only [toMatrix, of_apply, hC', Fg.zgetV, htr]
      rw [mul_comm]
      rfl

theorem indirect_spec {X F : Type} {q : XOps X F} {o : FPOps F} {oX : FPOps X} {qX : XOps X X}
    {fpX : FPart X} {junkX : X} {fp : FPart F} {fuel : Nat} {p : FgPar X F} {d n : Nat} (hn : d < n)
    {A : Mat Int} {C : ZMat} {r : NullRes}
    (h : nullspaceIndirect q o oX qX fpX junkX fp fuel p d n A C = some r) (hub : r.ub = false) :
    r.ret = -1 ∨
    (r.ret = (n : Int) - d ∧ r.C.rows = n ∧ r.C.cols = n - d ∧
      KernelPart (toMatrix d n A) (toMatrix n (n - d) r.C.M)) := by
  unfold nullspaceIndirect at h
  simp only at h
  split at h
  · simp at h
  · rename_i c s hs
    split at h
    · simp only [Option.some.injEq] at h
      subst h
      exact Or.inl rfl
    · simp only [Option.some.injEq] at h
      by_cases hr : r.ret = -1
      · exact Or.inl hr
      right
      set C' : ZMat := ⟨n, n - d, fun j i => s.fgetV.M (d + j) i⟩ with hC'
      have hC : r.C = C' := by rw [← h]; unfold nullCheck; simp only; split <;> rfl
      have hu : r.ub = s.ub := by rw [← h]; unfold nullCheck; simp only; split <;> rfl
      obtain ⟨h1, h2⟩ := nullCheck_spec (by omega) (A := A) (C := C') (ub := s.ub) (d := d) (n := n)
        (by rw [h]; exact hr)
      rw [h] at h1
      refine ⟨h1, by rw [hC], by rw [hC], ?_⟩
      rw [hC]
      obtain ⟨T, W, hA⟩ := Dec.fDecomp_alg (lo := 0) (Or.inl rfl) hs (by rw [← hu]; exact hub)
      have hl := (Dec.fDecomp_mvs (lo := 0) (Or.inl rfl) hs).le
      have htW : s.trW = true := hl.2.2.2.2.2.1
      have hw := hA.w htW
      have hi : Tᵀ * W = 1 := by
        have := congrArg Matrix.transpose hA.inv
        simpa [Matrix.transpose_mul] using this
      have := select_inv hi (fun j : Fin (n - d) => ⟨d + j, by omega⟩)
        (fun a b hab => by simp only [Fin.mk.injEq] at hab; exact Fin.ext (by omega))
      refine kernelPart
        (D := Matrix.of (fun (j : Fin (n - d)) (i : Fin n) => T i ⟨d + j, by omega⟩)) h2 ?_
      convert this using 2
      ext i j
      rw [← hw]
      rfl

theorem lll_spec {F : Type} {o : FPOps F} {junk delta : F} {fuel alpha d n : Nat} {vd : Int}
    {A : Mat Int} {C : ZMat} {r : NullRes}
    (h : nullspaceLll o junk fuel delta vd alpha d n A C = some r) :
    (r.ret = -1 ∧ r.C = C) ∨
    ∃ k : Nat, r.ret = k ∧ (n : Int) - d ≤ k ∧ r.C.rows = n ∧ r.C.cols = k ∧
      KernelPart (toMatrix d n A) (toMatrix n k r.C.M) := by
  unfold nullspaceLll at h
  split at h
  · simp at h
  · rename_i c s hs
    have hE : ExitInv (d + n) n (nullLllInput alpha d A) False _ c s := hlll_exit o fuel delta true _ s c
      (LInv.of_basis (nullLllInput alpha d A) False
        (newLattice o junk (d + n) n (nullLllInput alpha d A) false 0 true vd) rfl rfl rfl rfl
        (fun h => h.elim)) (le_refl n) hs
    obtain ⟨W, hW, hB, -⟩ := hE.inv.uni
    simp only at h
    set z := zeroCols d n s.getbase.M with hzd
    split at h
    · simp only [Option.some.injEq] at h
      subst h
      exact Or.inl ⟨rfl, rfl⟩
    · rename_i hz
      simp only [Option.some.injEq] at h
      subst h
      refine Or.inr ⟨z.length, rfl, by omega, rfl, rfl, ?_⟩
      have hent : ∀ (i : Fin (d + n)) (j : Fin n), s.getbase.M j i =
          ∑ k : Fin n, nullLllInput alpha d A k i * W k j := by
        intro i j
        have := congrFun (congrFun hB i) j
        rw [Matrix.mul_apply] at this
        exact this
      obtain ⟨V, hV⟩ : ∃ V : Matrix (Fin n) (Fin n) ℤ, V * W = 1 :=
        ⟨W⁻¹, Matrix.nonsing_inv_mul _ hW⟩
      have := select_zero (k := z.length) (A := toMatrix d n A) (B := toMatrix d n A * W) (T := W)
        (W := Vᵀ) rfl (by rw [Matrix.transpose_transpose]; exact hV)
        (fun j => ⟨z.getD j 0, (zeroCols_getD j.2).1⟩)
        (fun a b hab => by
          simp only [Fin.mk.injEq] at hab
          exact Fin.ext (zeroCols_inj a.2 b.2 hab))
        (fun j i => by
          have h1 := (zeroCols_getD j.2).2 i i.2
          have h2 := hent ⟨i, by omega⟩ ⟨z.getD j 0, (zeroCols_getD j.2).1⟩
          simp only at h2
          rw [h1] at h2
          simp only [nullLllInput, i.2, if_true] at h2
          rw [Matrix.mul_apply]
          simp only [toMatrix, of_apply]
          have h3 : (2 : ℤ) ^ alpha * ∑ k : Fin n, A k i * W k ⟨z.getD j 0, (zeroCols_getD j.2).1⟩ = 0 := by
            rw [Finset.mul_sum]
            exact (Finset.sum_congr rfl fun k _ => by ring).trans h2.symm
          exact (mul_eq_zero.1 h3).resolve_left (by positivity : (2 : ℤ) ^ alpha ≠ 0))
      convert this using 1
      ext i j
      simp only [toMatrix, of_apply]
      have h2 := hent ⟨i + d, by omega⟩ ⟨z.getD j 0, (zeroCols_getD j.2).1⟩
      simp only at h2
      rw [h2, Finset.sum_eq_single i]
      · simp [nullLllInput, add_comm]
      · intro b _ hb
        have : ¬ (i.1 + d = d + b.1) := fun e => hb (Fin.ext (by omega))
        simp [nullLllInput, this]
      · simp

end Null
end HPLLL
