import Verif.Proof.DecompMain
import Verif.Proof.Minima
import Verif.Props.Exact
/-! `nullspace_lll` in exact arithmetic. -/

namespace HPLLL
open Spec Matrix

namespace Null

theorem lllInput_fcr (alpha d n : Nat) (A : Mat Int) :
    FullColumnRank (toMatrix (d + n) n (nullLllInput alpha d A)) := by
  unfold FullColumnRank
  rw [Fintype.linearIndependent_iff]
  intro g hg j
  have := congrFun hg ⟨d + j, by omega⟩
  simp only [Finset.sum_apply, Pi.smul_apply, smul_eq_mul, Pi.zero_apply, toMatrix, of_apply,
    nullLllInput] at this
  rw [Finset.sum_eq_single j] at this
  · simpa using this
  · intro b _ hb
    have : ¬ j.1 = b.1 := fun e => hb (Fin.ext e.symm)
    simp [this]
  · simp

/-- Kernel vectors are in the lattice of the shifted matrix, with zeros on top. -/
theorem lllInput_mem {alpha d n : Nat} {A : Mat Int} {x : Fin n → ℤ} (hx : toMatrix d n A *ᵥ x = 0) :
    (fun i : Fin (d + n) => if h : d ≤ i.1 then x ⟨i - d, by omega⟩ else 0) ∈
      lattice (toMatrix (d + n) n (nullLllInput alpha d A)) := by
  refine mem_lattice.2 ⟨x, ?_⟩
  funext i
  simp only [Matrix.mulVec, dotProduct, toMatrix, of_apply, nullLllInput]
  by_cases hi : d ≤ i.1
  · rw [dif_pos hi]
    rw [Finset.sum_eq_single ⟨i - d, by omega⟩]
    · have h1 : ¬ i.1 < d := by omega
      have h2 : i.1 = d + (i.1 - d) := by omega
      rw [if_neg h1, if_pos h2, one_mul]
    · intro b _ hb
      have h1 : ¬ i.1 < d := by omega
      have h2 : ¬ i.1 = d + b.1 := fun e => hb (Fin.ext (by simp only; omega))
      rw [if_neg h1, if_neg h2, zero_mul]
    · simp
  · rw [dif_neg hi]
    have := congrFun hx ⟨i, by omega⟩
    simp only [Matrix.mulVec, dotProduct, toMatrix, of_apply, Pi.zero_apply] at this
    have h1 : i.1 < d := by omega
    simp only [h1, if_true]
    calc ∑ k : Fin n, A k i * 2 ^ alpha * x k = 2 ^ alpha * ∑ k : Fin n, A k i * x k := by
          rw [Finset.mul_sum]; exact Finset.sum_congr rfl fun k _ => by ring
      _ = 0 := by rw [this, mul_zero]

theorem lllInput_normsq {d n : Nat} (x : Fin n → ℤ) :
    ∑ i : Fin (d + n), ((if h : d ≤ i.1 then x ⟨i - d, by omega⟩ else 0 : ℤ) : ℝ) ^ 2 =
      ∑ i : Fin n, (x i : ℝ) ^ 2 := by
  rw [Fin.sum_univ_add]
  have h1 : ∀ i : Fin d, ¬ d ≤ (Fin.castAdd n i).1 := fun i => by simp
  rw [Finset.sum_eq_zero (fun i _ => by rw [dif_neg (h1 i)]; simp), zero_add]
  refine Finset.sum_congr rfl fun i _ => ?_
  have h2 : d ≤ (Fin.natAdd d i).1 := by simp
  rw [dif_pos h2]
  congr 3
  ext; simp

theorem zeroCols_length {d n k : Nat} {M : Mat Int} (hk : k ≤ n)
    (h : ∀ j, j < k → ∀ i, i < d → M j i = 0) : k ≤ (zeroCols d n M).length := by
  have h1 : List.range k ⊆ zeroCols d n M := by
    intro j hj
    have hj' := List.mem_range.1 hj
    exact mem_zeroCols.2 ⟨by omega, h j hj'⟩
  have := (List.subperm_of_subset List.nodup_range h1).length_le
  simpa using this

/-- Exact arithmetic and a large enough shift: `nullspace_lll` finds the whole kernel. -/
theorem lll_complete {o : FPOps ℝ} (ho : ExactTies o) (junk δ : ℝ) (h4 : 1 / 4 < δ) (hδ : δ ≤ 1)
    (alpha d n : Nat) (vd : Int) (A : Mat Int) (C : ZMat) {k : Nat}
    (hk : (toMatrix d n A).rank + k = n)
    (x : Fin k → Fin n → ℤ) (hx : ∀ t, toMatrix d n A *ᵥ x t = 0) (hxi : LinearIndependent ℤ x) (N : ℝ)
    (hN : ∀ t, ∑ i, (x t i : ℝ) ^ 2 ≤ N) (hα : (1 / (δ - 1 / 4)) ^ (n - 1) * N < 4 ^ alpha)
    (hb : ∀ (fuel : Nat) (s : Lat ℝ),
      hlll o fuel δ true (newLattice o junk (d + n) n (nullLllInput alpha d A) false 0 true vd) = some (0, s) →
      s.nblov < 4294967295) :
    ∃ r : NullRes, (∀ fuel : Nat,
        2 * Props.potential (d + n) n (nullLllInput alpha d A) + n + 2 ≤ fuel →
        nullspaceLll o junk fuel δ vd alpha d n A C = some r) ∧
      r.ret = k ∧ r.C.rows = n ∧ r.C.cols = k ∧
      IsKernelBasis (toMatrix d n A) (toMatrix n k r.C.M) := by
  obtain ⟨s, hs⟩ := Props.C10_terminates ho junk (d + n) n (nullLllInput alpha d A)
    false 0 (by norm_num) true vd 1 (by norm_num) 1000000 4294967295 (lllInput_fcr alpha d n A) δ hδ true
  obtain ⟨fuel0, hf0⟩ : ∃ fuel : Nat, 2 * Props.potential (d + n) n (nullLllInput alpha d A) + n + 2 ≤ fuel :=
    ⟨(2 * Props.potential (d + n) n (nullLllInput alpha d A) + n + 2).toNat, Int.self_le_toNat _⟩
  obtain ⟨-, hred, hlat⟩ := Props.C08_output_reduced ho.toExact junk (d + n) n (nullLllInput alpha d A)
    false 0 true vd 1 (by norm_num) 1000000 4294967295 (lllInput_fcr alpha d n A) fuel0 δ true s
    (hs fuel0 hf0) (hb fuel0 s (hs fuel0 hf0))
  replace hred := hred (by norm_num)
  -- the run
  have hrun : ∀ fuel : Nat, 2 * Props.potential (d + n) n (nullLllInput alpha d A) + n + 2 ≤ fuel →
      nullspaceLll o junk fuel δ vd alpha d n A C =
        (if ((zeroCols d n s.getbase.M).length : Int) < (n : Int) - d then some ⟨-1, C, s.ub⟩
        else some ⟨(zeroCols d n s.getbase.M).length, ⟨n, (zeroCols d n s.getbase.M).length,
          fun j i => s.getbase.M ((zeroCols d n s.getbase.M).getD j 0) (i + d)⟩, s.ub⟩) := by
    intro fuel hf
    have := hs fuel hf
    unfold nullspaceLll
    have e : newLattice o junk (d + n) n (nullLllInput alpha d A) false 0 true vd =
      Props.fresh o junk (d + n) n (nullLllInput alpha d A) false 0 true vd 1 1000000 4294967295 := rfl
    rw [e, this]
  -- the first k columns are zero on top
  have hzero : ∀ j, j < k → ∀ i, i < d → s.getbase.M j i = 0 := by
    intro j hj i hi
    have hjn : j < n := by omega
    have hm := LLLReduced.minima h4 hδ hred
      (fun t => fun i : Fin (d + n) => if h : d ≤ i.1 then x t ⟨i - d, by omega⟩ else 0)
      (fun t => by rw [hlat]; exact lllInput_mem (hx t))
      (by
        rw [Fintype.linearIndependent_iff] at hxi ⊢
        intro g hg
        refine hxi g ?_
        funext l
        have := congrFun hg ⟨d + l, by omega⟩
        simp only [Finset.sum_apply, Pi.smul_apply, smul_eq_mul, Pi.zero_apply] at this ⊢
        rw [← this]
        refine Finset.sum_congr rfl fun t _ => ?_
        rw [dif_pos (by simp)]
        congr 2; ext; simp)
      N (fun t => by rw [lllInput_normsq]; exact hN t) ⟨j, hjn⟩ hj
    -- the entry is a multiple of 2^alpha
    have hmem : (fun r : Fin (d + n) => s.getbase.M j r) ∈
        lattice (toMatrix (d + n) n (nullLllInput alpha d A)) := by
      rw [← hlat]
      exact Submodule.subset_span ⟨⟨j, hjn⟩, rfl⟩
    obtain ⟨w, hw⟩ := mem_lattice.1 hmem
    have hent := congrFun hw ⟨i, by omega⟩
    simp only [Matrix.mulVec, dotProduct, toMatrix, of_apply, nullLllInput, hi, if_true] at hent
    have hdvd : (2 : ℤ) ^ alpha ∣ s.getbase.M j i := by
      rw [← hent]
      exact Finset.dvd_sum fun k _ => ⟨A k i * w k, by ring⟩
    obtain ⟨c, hc⟩ := hdvd
    by_contra hne
    have hc0 : c ≠ 0 := by rintro rfl; exact hne (by rw [hc]; ring)
    have h1 : (1 : ℝ) ≤ (c : ℝ) ^ 2 := by
      have : (1 : ℤ) ≤ c ^ 2 := by have := Int.one_le_abs hc0; nlinarith [sq_abs c]
      exact_mod_cast this
    have h2 : (s.getbase.M j i : ℝ) ^ 2 ≤ ∑ r : Fin (d + n),
        (toMatrix (d + n) n s.getbase.M r ⟨j, hjn⟩ : ℝ) ^ 2 :=
      Finset.single_le_sum (f := fun r : Fin (d + n) =>
        (toMatrix (d + n) n s.getbase.M r ⟨j, hjn⟩ : ℝ) ^ 2) (fun r _ => sq_nonneg _)
        (Finset.mem_univ (⟨i, by omega⟩ : Fin (d + n)))
    have h3 : (4 : ℝ) ^ alpha ≤ (s.getbase.M j i : ℝ) ^ 2 := by
      rw [hc]; push_cast
      rw [mul_pow, ← pow_mul, mul_comm alpha 2, pow_mul]
      have h5 : (0 : ℝ) < (2 ^ 2) ^ alpha := by positivity
      have h6 : ((2 : ℝ) ^ 2) ^ alpha = 4 ^ alpha := by norm_num
      rw [← h6]
      nlinarith
    linarith
  have hlen := zeroCols_length (d := d) (n := n) (M := s.getbase.M) (k := k) (by omega) hzero
  have hrd : (toMatrix d n A).rank ≤ d := by
    have := Matrix.rank_le_card_height (toMatrix d n A)
    simpa using this
  have hno : ¬ ((zeroCols d n s.getbase.M).length : Int) < (n : Int) - d := by omega
  refine ⟨_, fun fuel hf => by rw [hrun fuel hf, if_neg hno], ?_⟩
  have hsp := lll_spec ((hrun fuel0 hf0).trans (if_neg hno))
  rcases hsp with h | ⟨k', hk', -, -, -, hK⟩
  · have := h.1; simp only at this; omega
  · have e : (zeroCols d n s.getbase.M).length = k' := by simp only at hk'; exact_mod_cast hk'
    have hc := hK.count
    have ek : (zeroCols d n s.getbase.M).length = k := by omega
    have ek' : k' = k := by omega
    subst ek'
    exact ⟨by simp [ek], rfl, ek, hK.basis.2 hk⟩

end Null
end HPLLL
