import Verif.Proof.DecompAlg
/-! FGAS decompositions of an object in any state: what is applied to its matrices. -/

namespace HPLLL
open Spec Matrix

namespace Dec

variable {X F : Type} {o : FPOps F} {q : XOps X F}

/-- `s'` is obtained from `s` by the transformation `T`, with inverse transpose `W`. -/
structure Rel [CommRing X] (n : Nat) (T W : Matrix (Fin n) (Fin n) ℤ) (s s' : Fg X F) : Prop where
  hn : s'.n = n
  hd : s'.d = s.d
  inv : Wᵀ * T = 1
  u : s.trU = true → s'.trU = true ∧ toMatrix n n s'.U = toMatrix n n s.U * T
  w : s.trW = true → s'.trW = true ∧ toMatrix n n s'.W = toMatrix n n s.W * W
  m : ∀ (r : Nat), r < s.d → ∀ j : Fin n, s'.M j r = ∑ k : Fin n, s.M k r * ((T k j : ℤ) : X)

theorem Rel.mvs [CommRing X] (hq : ExactEntries q) {lo n : Nat} {s s' : Fg X F} (h : Mvs o q lo s s')
    (hn : s.n = n) (hub : s'.ub = false) : ∃ T W, Rel n T W s s' := by
  induction h with
  | refl =>
    refine ⟨1, 1, hn, rfl, by simp, fun h => ⟨h, by simp⟩, fun h => ⟨h, by simp⟩, fun r _ j => ?_⟩
    rw [Finset.sum_eq_single j]
    · simp
    · intro b _ hb; simp [Matrix.one_apply_ne hb]
    · simp
  | tail a b ih =>
    rename_i s1 s2
    obtain ⟨T, W, hR⟩ := ih (b.le.2.2.2.2.2.2.2 hub)
    cases b with
    | fp p => exact ⟨T, W, hR.hn, hR.hd, hR.inv, hR.u, hR.w, hR.m⟩
    | ctr l k => exact ⟨T, W, hR.hn, hR.hd, hR.inv, hR.u, hR.w, hR.m⟩
    | chk b => exact ⟨T, W, hR.hn, hR.hd, hR.inv, hR.u, hR.w, hR.m⟩
    | comb κ i x hi =>
      obtain ⟨-, h1, h2⟩ := combine_ok hub
      rw [hR.hn] at h1 h2
      obtain ⟨e1, e2, e3, e4, e5, e6, e7, -⟩ := (Mv.comb (o := o) (q := q) (lo := 0) s1 κ i x hi).le
      have hne : (⟨i, h2⟩ : Fin n) ≠ ⟨κ, h1⟩ := fun e => by simp only [Fin.mk.injEq] at e; omega
      have hne' : (⟨κ, h1⟩ : Fin n) ≠ ⟨i, h2⟩ := hne.symm
      refine ⟨T * transvection ⟨i, h2⟩ ⟨κ, h1⟩ (-(o.toZ x)), W * transvection ⟨κ, h1⟩ ⟨i, h2⟩ (o.toZ x),
        e2.trans hR.hn, e1.trans hR.hd, ?_, ?_, ?_, ?_⟩
      · rw [Matrix.transpose_mul, show (transvection (⟨κ, h1⟩ : Fin n) ⟨i, h2⟩ (o.toZ x))ᵀ =
          transvection ⟨i, h2⟩ ⟨κ, h1⟩ (o.toZ x) by simp [transvection, Matrix.transpose_add]]
        rw [Matrix.mul_assoc, ← Matrix.mul_assoc Wᵀ, hR.inv, Matrix.one_mul,
          transvection_mul_transvection_same _ _ hne]
        simp
      · intro ht
        obtain ⟨a1, a2⟩ := hR.u ht
        refine ⟨e5.trans a1, ?_⟩
        rw [combine_U, if_pos a1, hR.hn,
          toMatrix_axpy _ _ _ ⟨κ, h1⟩ ⟨i, h2⟩ hne _ _ (fun r a b => by omega), a2, Matrix.mul_assoc]
      · intro ht
        obtain ⟨a1, a2⟩ := hR.w ht
        refine ⟨e6.trans a1, ?_⟩
        rw [combine_W, if_pos a1, hR.hn,
          toMatrix_axpy _ _ _ ⟨i, h2⟩ ⟨κ, h1⟩ hne' _ _ (fun r a b => by omega), a2, Matrix.mul_assoc]
      · intro r hr j
        rw [combine_M hq, sum_trans T (fun k => s.M k r)]
        by_cases hj : j = ⟨κ, h1⟩
        · subst hj
          rw [setCol_same, if_pos rfl, if_pos (by rw [hR.hd]; exact hr)]
          have a1 := hR.m r hr ⟨κ, h1⟩
          have a2 := hR.m r hr ⟨i, h2⟩
          simp only at a1 a2
          rw [a1, a2]
          push_cast; ring
        · rw [setCol_ne _ _ (fun e => hj (Fin.ext e)), if_neg hj, hR.m r hr]
    | swap a b ha hb =>
      obtain ⟨-, h1, h2, -⟩ := swap_ok hub
      rw [hR.hn] at h1 h2
      refine ⟨T * (Equiv.swap (⟨a, h1⟩ : Fin n) ⟨b, h2⟩).permMatrix ℤ,
        W * (Equiv.swap (⟨a, h1⟩ : Fin n) ⟨b, h2⟩).permMatrix ℤ, hR.hn, hR.hd, ?_, ?_, ?_, ?_⟩
      · rw [Matrix.transpose_mul, Matrix.mul_assoc, ← Matrix.mul_assoc Wᵀ, hR.inv, Matrix.one_mul,
          perm_orth]
      · intro ht
        obtain ⟨a1, a2⟩ := hR.u ht
        refine ⟨a1, ?_⟩
        simp only [Fg.swap, a1, if_true]
        have := toMatrix_colswap n n s1.U ⟨a, h1⟩ ⟨b, h2⟩
        rw [this, a2, Matrix.mul_assoc]
      · intro ht
        obtain ⟨a1, a2⟩ := hR.w ht
        refine ⟨a1, ?_⟩
        simp only [Fg.swap, a1, if_true]
        have := toMatrix_colswap n n s1.W ⟨a, h1⟩ ⟨b, h2⟩
        rw [this, a2, Matrix.mul_assoc]
      · intro r hr j
        have : (s1.swap a b).M j = s1.M (Equiv.swap (⟨a, h1⟩ : Fin n) ⟨b, h2⟩ j) := by
          simp only [Fg.swap, colswap]
          by_cases h1' : j = ⟨a, h1⟩
          · subst h1'; simp
          · by_cases h2' : j = ⟨b, h2⟩
            · subst h2'
              have e : ¬ b = a := fun e => h1' (by subst e; rfl)
              rw [if_neg e, if_pos rfl]; simp
            · rw [Equiv.swap_apply_of_ne_of_ne h1' h2', if_neg (fun e => h1' (Fin.ext e)),
                if_neg (fun e => h2' (Fin.ext e))]
        rw [this, hR.m r hr]
        refine Finset.sum_congr rfl fun k _ => ?_
        rw [mul_perm_apply]

end Dec
end HPLLL
