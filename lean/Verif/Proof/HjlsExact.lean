import Verif.Proof.DecLoop
import Verif.Proof.DecompMain
import Verif.Proof.NullLll
/-! `nullspace_hjls` in exact arithmetic, with `gamma > 2/sqrt 3`. -/

namespace HPLLL
open Spec Matrix

namespace Null

theorem block_inv {d n : ℕ} {T W : Matrix (Fin (n + d)) (Fin (n + d)) ℤ} (hinv : Wᵀ * T = 1)
    (w0 : ∀ i j : Fin (n + d), i.1 < d → d ≤ j.1 → W i j = 0) (b c : Fin (n + d)) (hb : d ≤ b.1) :
    ∑ i : Fin n, W ⟨d + i, by omega⟩ b * T ⟨d + i, by omega⟩ c = if b = c then 1 else 0 := by
  have key := congrFun (congrFun hinv b) c
  rw [Matrix.mul_apply, Matrix.one_apply] at key
  rw [← key]
  have e : n + d = d + n := by omega
  rw [← (finCongr e.symm).sum_comp, Fin.sum_univ_add]
  symm
  rw [Finset.sum_eq_zero (fun i _ => ?_), zero_add]
  · rfl
  · rw [Matrix.transpose_apply, w0 _ _ (by simp) hb, zero_mul]

theorem hjls_alg {d n : ℕ} (hn : d < n) {A : Matrix (Fin d) (Fin n) ℤ}
    {T W : Matrix (Fin (n + d)) (Fin (n + d)) ℤ} (hinv : Wᵀ * T = 1)
    (w0 : ∀ i j : Fin (n + d), i.1 < d → d ≤ j.1 → W i j = 0) (z : Fin d → Fin d → ℝ)
    (hz : ∀ (k : Fin d) (i : Fin n), ((T ⟨d + i, by omega⟩ ⟨d + k, by omega⟩ : ℤ) : ℝ) = ∑ a, (A a i : ℝ) * z k a)
    (a : Fin d) (j : Fin (n - d)) : ∑ i : Fin n, A a i * W ⟨d + i, by omega⟩ ⟨2 * d + j, by omega⟩ = 0 := by
  let D : Matrix (Fin d) (Fin n) ℝ := Matrix.of fun k i => ((W ⟨d + i, by omega⟩ ⟨d + k, by omega⟩ : ℤ) : ℝ)
  let Y : Matrix (Fin n) (Fin d) ℝ := Matrix.of fun i k => ((T ⟨d + i, by omega⟩ ⟨d + k, by omega⟩ : ℤ) : ℝ)
  let Z : Matrix (Fin d) (Fin d) ℝ := Matrix.of fun a k => z k a
  let Ar : Matrix (Fin d) (Fin n) ℝ := A.map (Int.cast : ℤ → ℝ)
  let v : Fin n → ℝ := fun i => ((W ⟨d + i, by omega⟩ ⟨2 * d + j, by omega⟩ : ℤ) : ℝ)
  have hY : Y = Arᵀ * Z := by
    ext i k
    rw [Matrix.mul_apply]
    exact hz k i
  have hDY : D * Y = 1 := by
    ext k l
    rw [Matrix.mul_apply, Matrix.one_apply]
    have := block_inv hinv w0 ⟨d + k, by omega⟩ ⟨d + l, by omega⟩ (by simp)
    have heq : (⟨d + k, by omega⟩ : Fin (n + d)) = ⟨d + l, by omega⟩ ↔ k = l := by
      rw [Fin.mk.injEq, Fin.ext_iff]; omega
    rw [if_congr heq rfl rfl] at this
    show ∑ i, ((W _ _ : ℤ) : ℝ) * ((T _ _ : ℤ) : ℝ) = _
    have h2 := congrArg (Int.cast : ℤ → ℝ) this
    push_cast at h2
    exact h2
  have hvY : v ᵥ* Y = 0 := by
    funext l
    have := block_inv hinv w0 ⟨2 * d + j, by omega⟩ ⟨d + l, by omega⟩ (by simp; omega)
    rw [if_neg (by rw [Fin.mk.injEq]; omega)] at this
    have h2 := congrArg (Int.cast : ℤ → ℝ) this
    push_cast at h2
    exact h2
  have hZ : Z * (D * Arᵀ) = 1 := by
    rw [mul_eq_one_comm, Matrix.mul_assoc, ← hY]; exact hDY
  have hu : (v ᵥ* Arᵀ) = 0 := by
    have h1 : (v ᵥ* Arᵀ) ᵥ* Z = 0 := by rw [Matrix.vecMul_vecMul, ← hY, hvY]
    calc v ᵥ* Arᵀ = (v ᵥ* Arᵀ) ᵥ* (Z * (D * Arᵀ)) := by rw [hZ, Matrix.vecMul_one]
      _ = ((v ᵥ* Arᵀ) ᵥ* Z) ᵥ* (D * Arᵀ) := by simp only [Matrix.vecMul_vecMul, Matrix.mul_assoc]
      _ = 0 := by rw [h1, Matrix.zero_vecMul]
  have h3 : (v ᵥ* Arᵀ) a = 0 := congrFun hu a
  have h4 : ∑ i : Fin n, ((A a i : ℤ) : ℝ) * ((W ⟨d + i, by omega⟩ ⟨2 * d + j, by omega⟩ : ℤ) : ℝ) = 0 := by
    refine Eq.trans ?_ h3
    refine Finset.sum_congr rfl fun i _ => ?_
    rw [mul_comm]; rfl
  exact_mod_cast h4

/-- Real combinations of the rows of `A`. -/
noncomputable def rowMap (d n : ℕ) (A : Mat Int) : (Fin d → ℝ) →ₗ[ℝ] (ℕ → ℝ) where
  toFun z := fun i => if i < n then ∑ a : Fin d, (A i a : ℝ) * z a else 0
  map_add' x y := by
    funext i
    simp only [Pi.add_apply]
    split
    · rw [← Finset.sum_add_distrib]
      exact Finset.sum_congr rfl fun a _ => by ring
    · simp
  map_smul' c x := by
    funext i
    simp only [Pi.smul_apply, smul_eq_mul, RingHom.id_apply]
    split
    · rw [Finset.mul_sum]
      exact Finset.sum_congr rfl fun a _ => by ring
    · simp

/-- Columns of `[Aᵀ | I] T`. -/
theorem input_mul {d n : ℕ} {A M : Mat Int} {T : Matrix (Fin (n + d)) (Fin (n + d)) ℤ}
    (hM : toMatrix n (n + d) M = toMatrix n (n + d) (hjlsInput d A) * T) (c : Fin (n + d)) :
    bv n M c = rowMap d n A (fun a => ((T ⟨a, by omega⟩ c : ℤ) : ℝ)) +
      fun i => if h : i < n then ((T ⟨d + i, by omega⟩ c : ℤ) : ℝ) else 0 := by
  funext i
  unfold bv
  simp only [Pi.add_apply, rowMap, LinearMap.coe_mk, AddHom.coe_mk]
  by_cases hi : i < n
  · rw [if_pos hi, if_pos hi, dif_pos hi]
    have h := congrFun (congrFun hM ⟨i, hi⟩) c
    rw [Matrix.mul_apply] at h
    simp only [toMatrix, of_apply] at h
    rw [h]
    have e : n + d = d + n := by omega
    rw [← (finCongr e.symm).sum_comp, Fin.sum_univ_add]
    push_cast
    congr 1
    · refine Finset.sum_congr rfl fun a _ => ?_
      unfold hjlsInput
      simp
      exact Or.inl rfl
    · rw [Finset.sum_eq_single (⟨i, hi⟩ : Fin n)]
      · unfold hjlsInput
        simp
      · intro b _ hb
        unfold hjlsInput
        have : ¬ (b.1 = i) := fun h => hb (Fin.ext h)
        simp
        intro h; omega
      · simp
  · rw [if_neg hi, if_neg hi, dif_neg hi]; simp

theorem hjls_zero {d n : ℕ} (hn : d < n) {A M : Mat Int} {T W : Matrix (Fin (n + d)) (Fin (n + d)) ℤ}
    (hM : toMatrix n (n + d) M = toMatrix n (n + d) (hjlsInput d A) * T) (hinv : Wᵀ * T = 1)
    (t0 : ∀ i j : Fin (n + d), d ≤ i.1 → j.1 < d → T i j = 0)
    (w0 : ∀ i j : Fin (n + d), i.1 < d → d ≤ j.1 → W i j = 0)
    (hsp : ∀ j, j < 2 * d → bv n M j ∈ Dec.Sp n M d) (a : Fin d) (j : Fin (n - d)) :
    ∑ i : Fin n, A i a * W ⟨d + i, by omega⟩ ⟨2 * d + j, by omega⟩ = 0 := by
  have hS : Dec.Sp n M d ≤ LinearMap.range (rowMap d n A) := by
    refine Dec.Sp_le fun i hi => ?_
    have h1 := input_mul hM ⟨i, by omega⟩
    have h2 : (fun r => if h : r < n then ((T ⟨d + r, by omega⟩ ⟨i, by omega⟩ : ℤ) : ℝ) else 0) =
        (0 : ℕ → ℝ) := by
      funext r
      split
      · rw [t0 _ _ (by simp) hi]; simp
      · rfl
    rw [h2, add_zero] at h1
    exact ⟨_, h1.symm⟩
  have hy : ∀ k : Fin d, ∃ z : Fin d → ℝ, ∀ i : Fin n,
      ((T ⟨d + i, by omega⟩ ⟨d + k, by omega⟩ : ℤ) : ℝ) = ∑ a : Fin d, ((toMatrix d n A a i : ℤ) : ℝ) * z a := by
    intro k
    obtain ⟨z1, h1⟩ := hS (hsp (d + k) (by omega))
    have h2 := input_mul hM ⟨d + k, by omega⟩
    obtain ⟨z2, hz2⟩ : ∃ z2 : Fin d → ℝ, z2 = fun a : Fin d => ((T ⟨a, by omega⟩ ⟨d + k, by omega⟩ : ℤ) : ℝ) :=
      ⟨_, rfl⟩
    rw [← hz2, ← h1] at h2
    have h3 : rowMap d n A (z1 - z2) = fun i => if h : i < n then
        ((T ⟨d + i, by omega⟩ ⟨d + k, by omega⟩ : ℤ) : ℝ) else 0 := by
      rw [map_sub, h2]; abel
    refine ⟨z1 - z2, fun i => ?_⟩
    have h4 := congrFun h3 i
    rw [dif_pos i.2] at h4
    rw [← h4]
    simp only [rowMap, LinearMap.coe_mk, AddHom.coe_mk]
    rw [if_pos i.2]
    rfl
  choose z hz using hy
  exact hjls_alg hn (A := toMatrix d n A) hinv w0 z hz a j

/-- The matrix given to the decomposition has independent first columns. -/
theorem hjlsInput_fcr {d n : ℕ} (hn : d ≤ n) {A : Mat Int}
    (hA : FullColumnRank (toMatrix d d fun j i => A (n - d + j) i)) :
    FullColumnRank (toMatrix n n (hjlsInput d A)) := by
  rw [fcr_iff_det] at hA ⊢
  intro h0
  obtain ⟨v, hv, hz⟩ := Matrix.exists_mulVec_eq_zero_iff.2 h0
  have hrow : ∀ i : Fin n, ∑ j : Fin n, hjlsInput d A j i * v j = 0 := fun i => congrFun hz i
  have hsplit : ∀ i : Fin n, ∑ j : Fin n, hjlsInput d A j i * v j =
      (∑ a : Fin d, A i a * v ⟨a, by omega⟩) + if h : d + i < n then v ⟨d + i, h⟩ else 0 := by
    intro i
    obtain ⟨m, rfl⟩ : ∃ m, n = d + m := ⟨n - d, by omega⟩
    rw [Fin.sum_univ_add]
    congr 1
    · refine Finset.sum_congr rfl fun a _ => ?_
      unfold hjlsInput
      simp
      exact Or.inl rfl
    · by_cases h : d + i.1 < d + m
      · rw [dif_pos h, Finset.sum_eq_single (⟨i, by omega⟩ : Fin m)]
        · unfold hjlsInput
          simp
        · intro b _ hb
          unfold hjlsInput
          have : ¬ (b.1 = i) := fun h => hb (Fin.ext h)
          simp [this]
        · simp
      · rw [dif_neg h]
        refine Finset.sum_eq_zero fun b _ => ?_
        unfold hjlsInput
        have : ¬ (b.1 = i) := by omega
        simp [this]
  have hva : ∀ a : Fin d, v ⟨a, by omega⟩ = 0 := by
    have h1 : (toMatrix d d fun j i => A (n - d + j) i)ᵀ.det ≠ 0 := by rw [Matrix.det_transpose]; exact hA
    have h2 : (toMatrix d d fun j i => A (n - d + j) i)ᵀ *ᵥ (fun a : Fin d => v ⟨a, by omega⟩) = 0 := by
      funext j
      have h3 := hrow ⟨n - d + j, by omega⟩
      rw [hsplit, dif_neg (by simp only; omega), add_zero] at h3
      exact h3
    have h4 := Matrix.eq_zero_of_mulVec_eq_zero h1 h2
    intro a
    exact congrFun h4 a
  apply hv
  funext j
  by_cases hj : j.1 < d
  · exact hva ⟨j, hj⟩
  · have h3 := hrow ⟨j - d, by omega⟩
    rw [hsplit, Finset.sum_eq_zero (fun a _ => by rw [hva a, mul_zero]), zero_add, dif_pos (by simp only; omega)] at h3
    have : (⟨d + (j.1 - d), by omega⟩ : Fin n) = j := Fin.ext (by simp only; omega)
    rw [← this]; exact h3

end Null
end HPLLL
