import Verif.Proof.UInv
/-! The Seysen reduction with threads (`set_num_S(S ≠ 1, thr ≤ 1)`) does nothing to the basis; runs
without swaps are unitriangular. -/

namespace HPLLL
open Spec Matrix

variable {F : Type} (o : FPOps F)

theorem seysenBlock_par (κ ld ind : Nat) (q : SeyState F) (hS : q.s.numS ≠ 1) (ht : q.s.parThr ≤ 1)
    (hld : 1 ≤ ld) : (seysenBlock o κ ld ind q).s = q.s ∧
      (seysenBlock o κ ld ind q).somedone = q.somedone := by
  unfold seysenBlock
  simp only []
  by_cases hc : q.s.numS = 1 ∨ ((if κ / ld % 2 = 0 then 0 else ld : Nat) : Int) < q.s.parThr
  · rw [if_pos hc]
    have h0 : κ / ld % 2 = 0 := by
      by_contra h0
      rcases hc with h | h
      · exact hS h
      · rw [if_neg h0] at h; omega
    simp only [h0, if_true, Nat.sub_zero, Nat.sub_self, seysenUpdateLoop, Bool.or_false]
    trivial
  · rw [if_neg hc]
    exact ⟨rfl, rfl⟩

theorem seysenBlocks_par (κ : Nat) : ∀ (fuel ld ind : Nat) (q : SeyState F), q.s.numS ≠ 1 →
    q.s.parThr ≤ 1 → 1 ≤ ld → (seysenBlocks o κ fuel ld ind q).s = q.s ∧
      (seysenBlocks o κ fuel ld ind q).somedone = q.somedone := by
  intro fuel
  induction fuel with
  | zero => intro ld ind q _ _ _; exact ⟨rfl, rfl⟩
  | succ fuel ih =>
    intro ld ind q h1 h2 h3
    simp only [seysenBlocks]
    split
    · obtain ⟨e1, e2⟩ := seysenBlock_par o κ ld ind q h1 h2 h3
      obtain ⟨i1, i2⟩ := ih (ld * 2) (ind + (if κ / ld % 2 = 0 then 0 else ld))
        (seysenBlock o κ ld ind q) (by rw [e1]; exact h1) (by rw [e1]; exact h2) (by omega)
      exact ⟨i1.trans e1, i2.trans e2⟩
    · exact ⟨rfl, rfl⟩

theorem seysenreduce_par (fuel κ : Nat) (s s' : Lat F) (st : Int) (hS : s.numS ≠ 1)
    (ht : s.parThr ≤ 1) (h : seysenreduce o fuel κ s = some (st, s')) : s' = s.hhR o κ ∧ st = 0 := by
  unfold seysenreduce at h
  cases fuel with
  | zero => simp [seysenLoop] at h
  | succ fuel =>
    simp only [seysenLoop] at h
    obtain ⟨e1, e2⟩ := seysenBlocks_par o κ (κ + 1) 1 0
      { s := s.hhR o κ, tmpcol := fun _ => o.zero, vectx := fun _ => o.zero, somedone := false }
      hS ht (le_refl 1)
    rw [e2] at h
    simp only [Bool.false_eq_true, if_false, Option.some.injEq, Prod.mk.injEq] at h
    exact ⟨h.2.symm.trans e1, h.1.symm⟩

/-- `B` is obtained from `A` by a permutation of the columns `< d`. -/
def PermOf (d : Nat) (A B : Mat Int) : Prop := ∃ σ : Equiv.Perm (Fin d), ∀ j : Fin d, B j = A (σ j)

theorem PermOf.swap {d κ : Nat} {A B : Mat Int} (h0 : 0 < κ) (hκ : κ < d) (h : PermOf d A B) :
    PermOf d A (colswap B (κ - 1) κ) := by
  obtain ⟨σ, hσ⟩ := h
  refine ⟨(Equiv.swap ⟨κ - 1, by omega⟩ ⟨κ, hκ⟩).trans σ, fun j => ?_⟩
  simp only [colswap, Equiv.trans_apply]
  by_cases h1 : (j : Nat) = κ - 1
  · have hj : j = ⟨κ - 1, Nat.lt_of_le_of_lt (Nat.sub_le κ 1) hκ⟩ := Fin.ext h1
    rw [if_pos h1, hj, Equiv.swap_apply_left]
    exact hσ ⟨κ, hκ⟩
  · by_cases h2 : (j : Nat) = κ
    · have hj : j = ⟨κ, hκ⟩ := Fin.ext h2
      rw [if_neg h1, if_pos h2, hj, Equiv.swap_apply_right]
      exact hσ ⟨κ - 1, by omega⟩
    · rw [Equiv.swap_apply_of_ne_of_ne (by simpa [Fin.ext_iff] using h1)
        (by simpa [Fin.ext_iff] using h2)]
      simp only [if_neg h1, if_neg h2]
      exact hσ j

theorem hlllStep_seysen_par (fuel : Nat) (δ : F) (h : HState F) (hf : ¬ h.s.seysenFlag < 1)
    (hS : h.s.numS ≠ 1) (ht : h.s.parThr ≤ 1) :
    match hlllStep o fuel δ h with
    | .diverge => True
    | .fail s => s.B = h.s.B
    | .next h' => (h'.s.seysenFlag = h.s.seysenFlag ∧ h'.s.numS = h.s.numS ∧
        h'.s.parThr = h.s.parThr ∧ h'.s.kappaMax = h.s.kappaMax ∧ 0 < h'.kappa) ∧
        (h'.s.B = h.s.B ∨ h'.s.B = colswap h.s.B (h.kappa - 1) h.kappa) := by
  unfold hlllStep
  simp only []
  have p1 : (hlllPrep o h.kappa h.s).B = h.s.B ∧ (hlllPrep o h.kappa h.s).seysenFlag = h.s.seysenFlag ∧
      (hlllPrep o h.kappa h.s).numS = h.s.numS ∧ (hlllPrep o h.kappa h.s).parThr = h.s.parThr ∧
      (hlllPrep o h.kappa h.s).kappaMax = h.s.kappaMax := by
    unfold hlllPrep; split <;> exact ⟨rfl, rfl, rfl, rfl, rfl⟩
  obtain ⟨b1, b2, b3, b4, b5⟩ := p1
  have hr0 : hlllReduce o fuel h.kappa (hlllPrep o h.kappa h.s) =
      seysenreduce o fuel h.kappa (hlllPrep o h.kappa h.s) := by
    unfold hlllReduce; rw [if_neg (by rw [b2]; exact hf)]
  rw [hr0]
  cases hr : seysenreduce o fuel h.kappa (hlllPrep o h.kappa h.s) with
  | none => trivial
  | some r =>
    obtain ⟨flag, s⟩ := r
    obtain ⟨rfl, rfl⟩ := seysenreduce_par o fuel h.kappa _ s flag (by rw [b3]; exact hS)
      (by rw [b4]; exact ht) hr
    simp only [show ¬ (0 : Int) = -1 by decide, if_false]
    by_cases hle : o.le (lovtest o δ h.kappa (Lat.hhR o h.kappa (hlllPrep o h.kappa h.s)).fp)
      (newt o (Lat.hhR o h.kappa (hlllPrep o h.kappa h.s)).str h.kappa
        (Lat.hhR o h.kappa (hlllPrep o h.kappa h.s)).fp) = true
    · rw [if_pos hle]
      split
      · rename_i heq; split at heq <;> cases heq
      · rename_i heq; split at heq
        · cases heq; exact b1
        · cases heq
      · rename_i heq; split at heq
        · cases heq
        · cases heq
          exact ⟨⟨b2, b3, b4, b5, Nat.succ_pos _⟩, Or.inl b1⟩
    · rw [if_neg hle]
      refine ⟨⟨b2, b3, b4, b5, ?_⟩, Or.inr ?_⟩
      · show 0 < max _ 1; omega
      · show colswap (hlllPrep o h.kappa h.s).B _ _ = _
        rw [b1]

theorem hlllLoop_seysen_par {d : Nat} (A : Mat Int) (δ : F) : ∀ (fuel : Nat) (h : HState F),
    ¬ h.s.seysenFlag < 1 → h.s.numS ≠ 1 → h.s.parThr ≤ 1 → h.s.kappaMax ≤ d → 0 < h.kappa →
    PermOf d A h.s.B → ∀ st s', hlllLoop o δ fuel h = some (st, s') → PermOf d A s'.B := by
  intro fuel
  induction fuel with
  | zero => intro h _ _ _ _ _ _ st s' hl; simp [hlllLoop] at hl
  | succ fuel ih =>
    intro h h1 h2 h3 h4 h5 h6 st s' hl
    simp only [hlllLoop] at hl
    split at hl
    · rename_i hc
      have hst := hlllStep_seysen_par o (fuel + 1) δ h h1 h2 h3
      cases hs : hlllStep o (fuel + 1) δ h with
      | diverge => rw [hs] at hl; simp at hl
      | fail s =>
        rw [hs] at hl hst
        obtain ⟨-, rfl⟩ := by simpa using hl
        simp only [] at hst
        rw [hst]; exact h6
      | next h' =>
        rw [hs] at hl hst
        obtain ⟨⟨c1, c2, c3, c4, c5⟩, hB⟩ := hst
        refine ih h' (by rw [c1]; exact h1) (by rw [c2]; exact h2) (by rw [c3]; exact h3)
          (by rw [c4]; exact h4) c5 ?_ st s' hl
        rcases hB with hB | hB
        · rw [hB]; exact h6
        · rw [hB]; exact h6.swap h5 (by omega)
    · obtain ⟨-, rfl⟩ := by simpa using hl
      exact h6

/-- `B` is obtained from `A` by adding to each column a combination of the previous ones. -/
def UniTri (n d : Nat) (A B : Mat Int) : Prop :=
  ∀ j < d, ∃ c : Nat → Int, ∀ r < n, B j r = A j r + ∑ i ∈ Finset.range j, c i * A i r

theorem UniTri.axpy {n d κ i : Nat} {A B : Mat Int} (h : UniTri n d A B) (hi : i < κ) (hκ : κ < d)
    (c : Int) (l : Nat) (hl : ∀ r, l ≤ r → r < n → B i r = 0) :
    UniTri n d A (HPLLL.axpy B κ i c l) := by
  intro j hj
  by_cases hjk : j = κ
  · subst hjk
    obtain ⟨c1, h1⟩ := h j hj
    obtain ⟨c2, h2⟩ := h i (by omega)
    refine ⟨fun k => c1 k + (if k = i then c else 0) + (if k < i then c * c2 k else 0),
      fun r hr => ?_⟩
    have e : HPLLL.axpy B j i c l j r = B j r + c * B i r := by
      unfold HPLLL.axpy
      rw [setCol_same]
      split
      · rfl
      · rw [hl r (by omega) hr]; simp
    rw [e, h1 r hr, h2 r hr]
    have s1 : ∑ k ∈ Finset.range j, (if k = i then c else 0) * A k r = c * A i r := by
      simp only [ite_mul, zero_mul]
      rw [Finset.sum_ite_eq' (Finset.range j) i (fun k => c * A k r), if_pos (Finset.mem_range.mpr hi)]
    have s2 : ∑ k ∈ Finset.range j, (if k < i then c * c2 k else 0) * A k r =
        c * ∑ k ∈ Finset.range i, c2 k * A k r := by
      rw [Finset.mul_sum]
      rw [← Finset.sum_subset (s₁ := Finset.range i)]
      · refine Finset.sum_congr rfl fun k hk => ?_
        rw [if_pos (Finset.mem_range.mp hk)]; ring
      · intro k hk; simp only [Finset.mem_range] at *; omega
      · intro k _ hk
        rw [if_neg (by simpa using hk)]; simp
    simp only [add_mul, Finset.sum_add_distrib]
    rw [s1, s2]; ring
  · have e : HPLLL.axpy B κ i c l j = B j := by unfold HPLLL.axpy; rw [setCol_ne _ _ hjk]
    rw [e]; exact h j hj

/-- Runs without swaps only add to each column combinations of the previous ones. -/
theorem hlll_unitri {n d : Nat} {A : Mat Int} (δ : F) (fuel : Nat) (v : Bool) (s s' : Lat F) (st : Int)
    (hkm : s.kappaMax ≤ d) (hI : LInv n d A False s)
    (hr : hlll o fuel δ v s = some (st, s')) : s'.nbswaps = s.nbswaps → UniTri n d s.B s'.B := by
  have := hlll_induct o (fun t => LInv n d A False t ∧ s.nbswaps ≤ t.nbswaps ∧
    (t.nbswaps = s.nbswaps → UniTri n d s.B t.B)) d ?_ ?_ ?_ ?_ ?_ δ fuel v s s' st hkm
    ⟨hI, le_refl _, fun _ j _ => ⟨fun _ => 0, fun r _ => by simp⟩⟩ hr
  · exact this.2.2
  · rintro κ hκ t t' hz ⟨h1, h2, h3⟩
    refine ⟨h1.zstep hκ hz, by rw [hz.frame.nbswaps]; exact h2, ?_⟩
    intro he
    rw [hz.frame.nbswaps] at he
    have h3 := h3 he
    cases hz with
    | fp p b => exact h3
    | col p b i c hi =>
      refine h3.axpy hi hκ c _ fun r hr hrn => h1.supp i (by omega) r hrn ?_
      unfold nmaxOf at hr; omega
    | pcol i c l hi hl hp =>
      refine h3.axpy hi hκ c _ fun r hr hrn => h1.supp i (by omega) r hrn ?_
      unfold nmaxOf at hl; omega
  · rintro κ hκ h0 t ⟨h1, h2, h3⟩
    refine ⟨h1.down hκ h0, ?_, ?_⟩
    · show s.nbswaps ≤ t.nbswaps + 1; omega
    · intro he
      have : t.nbswaps + 1 = s.nbswaps := he
      omega
  · rintro t k ⟨h1, h2, h3⟩
    exact ⟨h1.congr rfl rfl rfl rfl rfl rfl rfl rfl, h2, h3⟩
  · rintro t p b ⟨h1, h2, h3⟩
    exact ⟨h1.congr rfl rfl rfl rfl rfl rfl rfl rfl, h2, h3⟩
  · rintro t k ⟨h1, h2, h3⟩
    exact ⟨h1.congr rfl rfl rfl rfl rfl rfl rfl rfl, h2, h3⟩

end HPLLL
