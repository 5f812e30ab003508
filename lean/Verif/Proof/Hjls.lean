import Verif.Model.Hjls
import Verif.Proof.DecompMain
import Verif.Proof.FpErrDot
/-! The relation finders of `hjls.cc`. -/

namespace HPLLL
open Spec Matrix

namespace Hjls

variable {X F : Type}

/-- The last columns of a block triangular unimodular matrix, without their first rows. -/
theorem blk_inv {n d k : ℕ} (hk : k ≤ n) {T W : Matrix (Fin (n + d)) (Fin (n + d)) ℤ} (hinv : Wᵀ * T = 1)
    (w0 : ∀ i j : Fin (n + d), i.1 < d → d ≤ j.1 → W i j = 0) :
    Matrix.of (fun (j : Fin k) (i : Fin n) => T ⟨d + i, by omega⟩ ⟨n + d - k + j, by omega⟩) *
      Matrix.of (fun (i : Fin n) (j : Fin k) => W ⟨d + i, by omega⟩ ⟨n + d - k + j, by omega⟩) = 1 := by
  ext a b
  have key := congrFun (congrFun hinv ⟨n + d - k + b, by omega⟩) ⟨n + d - k + a, by omega⟩
  rw [Matrix.mul_apply, Matrix.one_apply] at key
  rw [Matrix.mul_apply, Matrix.one_apply]
  have hsplit : ∑ m : Fin (n + d), Wᵀ ⟨n + d - k + b, by omega⟩ m * T m ⟨n + d - k + a, by omega⟩ =
      ∑ i : Fin n, W ⟨d + i, by omega⟩ ⟨n + d - k + b, by omega⟩ *
        T ⟨d + i, by omega⟩ ⟨n + d - k + a, by omega⟩ := by
    have e : n + d = d + n := by omega
    rw [← (finCongr e.symm).sum_comp, Fin.sum_univ_add]
    rw [Finset.sum_eq_zero (fun i _ => ?_), zero_add]
    · rfl
    · rw [Matrix.transpose_apply, w0 _ _ (by simp) (by simp; omega), zero_mul]
  rw [hsplit] at key
  have heq : (⟨n + d - k + b, by omega⟩ : Fin (n + d)) = ⟨n + d - k + a, by omega⟩ ↔ a = b := by
    rw [Fin.mk.injEq, Fin.ext_iff]; omega
  rw [if_congr heq rfl rfl] at key
  rw [← key]
  refine Finset.sum_congr rfl fun i _ => ?_
  simp only [of_apply]
  rw [mul_comm]

theorem filter_full {k : ℕ} {f : ℕ → Bool} (h : ((List.range k).filter f).length = k) :
    ∀ j < k, f j = true := by
  intro j hj
  have h1 : ((List.range k).filter f).Sublist (List.range k) := List.filter_sublist
  have h2 := h1.eq_of_length (by simpa using h)
  have : j ∈ (List.range k).filter f := by rw [h2]; simpa using hj
  exact (List.mem_filter.1 this).2

theorem zeroCol_iff {oX : FPOps X} {d : ℕ} {eps : X} {ZM : Mat X} {j : ℕ} :
    fpZeroCol oX d eps ZM j = true ↔ ∀ i < d, oX.lt eps (oX.abs (ZM j i)) = false := by
  simp [fpZeroCol]

/-- A passed test, with the standard model of rounding. -/
theorem residual {oX : FPOps X} {val : X → ℝ} {u : ℝ} (h : StdModel oX val u) {n : ℕ} (hn : 0 < n)
    (A : Mat X) (C : Mat Int) (eps : X) (i j : ℕ)
    (ht : oX.lt eps (oX.abs (fpProd oX n A C j i)) = false) :
    |∑ k ∈ Finset.range n, val (A k i) * (C j k : ℝ)| ≤ val eps +
      ((1 / (1 - u)) ^ (n + 1) - 1) * ∑ k ∈ Finset.range n, |val (A k i)| * |(C j k : ℝ)| := by
  have h1 : |val (fpProd oX n A C j i)| ≤ val eps := by
    rw [← h.abs]
    by_contra hc
    have := (h.lt eps (oX.abs (fpProd oX n A C j i))).2 (lt_of_not_ge hc)
    rw [ht] at this
    cases this
  obtain ⟨m, rfl⟩ : ∃ m, n = m + 1 := ⟨n - 1, by omega⟩
  have h2 := Err.fold_err h 0 (fun k => A k i) (fun k => oX.ofZ (C j k)) m
  simp only [zero_add] at h2
  have h3 : fpProd oX (m + 1) A C j i = (List.range m).foldl
      (fun acc k => oX.addmul acc (A (k + 1) i) (oX.ofZ (C j (k + 1)))) (oX.mul (A 0 i) (oX.ofZ (C j 0))) := rfl
  rw [← h3] at h2
  have hκ := Err.kap_one h
  have hκu := Err.kap_u h
  have hu := h.u0
  obtain ⟨κ, hk⟩ : ∃ κ, κ = 1 / (1 - u) := ⟨_, rfl⟩
  rw [← hk] at h2 hκ hκu ⊢
  have hz : ∀ k, |val (oX.ofZ (C j k)) - C j k| ≤ u * |(C j k : ℝ)| := by
    intro k
    obtain ⟨e, he, hv⟩ := h.ofZ (C j k)
    rw [hv, show (C j k : ℝ) * (1 + e) - C j k = e * C j k by ring, abs_mul]
    exact mul_le_mul_of_nonneg_right he (abs_nonneg _)
  have hz' : ∀ k, |val (oX.ofZ (C j k))| ≤ (1 + u) * |(C j k : ℝ)| := by
    intro k
    have := abs_sub_abs_le_abs_sub (val (oX.ofZ (C j k))) (C j k : ℝ)
    have := hz k
    linarith
  have hM : ∑ k ∈ Finset.range (m + 1), |val (A k i)| * |val (oX.ofZ (C j k))| ≤
      (1 + u) * ∑ k ∈ Finset.range (m + 1), |val (A k i)| * |(C j k : ℝ)| := by
    rw [Finset.mul_sum]
    refine Finset.sum_le_sum fun k _ => ?_
    have := mul_le_mul_of_nonneg_left (hz' k) (abs_nonneg (val (A k i)))
    linarith
  have hD : |∑ k ∈ Finset.range (m + 1), val (A k i) * val (oX.ofZ (C j k)) -
      ∑ k ∈ Finset.range (m + 1), val (A k i) * (C j k : ℝ)| ≤
      u * ∑ k ∈ Finset.range (m + 1), |val (A k i)| * |(C j k : ℝ)| := by
    rw [← Finset.sum_sub_distrib, Finset.mul_sum]
    refine (Finset.abs_sum_le_sum_abs _ _).trans (Finset.sum_le_sum fun k _ => ?_)
    rw [← mul_sub, abs_mul]
    have := mul_le_mul_of_nonneg_left (hz k) (abs_nonneg (val (A k i)))
    linarith
  obtain ⟨S, hS⟩ : ∃ S, S = ∑ k ∈ Finset.range (m + 1), val (A k i) * (C j k : ℝ) := ⟨_, rfl⟩
  obtain ⟨S', hS'⟩ : ∃ S, S = ∑ k ∈ Finset.range (m + 1), val (A k i) * val (oX.ofZ (C j k)) := ⟨_, rfl⟩
  obtain ⟨M, hMd⟩ : ∃ S, S = ∑ k ∈ Finset.range (m + 1), |val (A k i)| * |(C j k : ℝ)| := ⟨_, rfl⟩
  have hM0 : 0 ≤ M := by rw [hMd]; exact Finset.sum_nonneg fun _ _ => by positivity
  rw [← hS, ← hS', ← hMd] at hD
  rw [← hMd] at hM
  rw [← hS'] at h2
  rw [← hS, ← hMd]
  have hp : 1 ≤ κ ^ (m + 1) := one_le_pow₀ hκ
  have h5 : |val (fpProd oX (m + 1) A C j i) - S'| ≤ (κ ^ (m + 1) - 1) * ((1 + u) * M) :=
    h2.trans (mul_le_mul_of_nonneg_left hM (by linarith))
  have h6 : |S| ≤ val eps + (κ ^ (m + 1) - 1) * ((1 + u) * M) + u * M := by
    have e1 : S = val (fpProd oX (m + 1) A C j i) - (val (fpProd oX (m + 1) A C j i) - S') - (S' - S) := by ring
    rw [e1]
    refine (abs_sub _ _).trans ?_
    refine (add_le_add_left (abs_sub _ _) _).trans ?_
    linarith
  refine h6.trans ?_
  have h7 : κ ^ (m + 1) * (1 + u) ≤ κ ^ (m + 1 + 1) := by
    rw [pow_succ κ (m + 1)]
    exact mul_le_mul_of_nonneg_left hκu (by linarith)
  nlinarith [mul_le_mul_of_nonneg_right h7 hM0]

/-- The decomposition object of `relations_hjls`. -/
theorem relations_spec {o : FPOps F} {q : XOps X F} {oX : FPOps X} {fp : FPart F} {junkX : X} {fuel : ℕ}
    {p : FgPar X F} {d n nbrel : ℕ} {A : Mat X} {C : ZMat} {r : NullRes} (hd : 0 < d) (hn : d < n)
    (hb : nbrel ≤ n - d) (h : relationsHjls o q oX fp junkX fuel p d n nbrel A C = some r) :
    r.ub = false ∧ ((r.ret = -1) ∨ (r.ret = nbrel ∧ r.C.rows = n ∧ r.C.cols = nbrel ∧
      (∃ D : Matrix (Fin nbrel) (Fin n) ℤ, D * toMatrix n nbrel r.C.M = 1) ∧
      ∀ j < nbrel, ∀ i < d, oX.lt p.epsilon (oX.abs (fpProd oX n A r.C.M j i)) = false)) := by
  unfold relationsHjls at h
  simp only at h
  split at h
  · simp at h
  rename_i flag s hs
  have hub : s.ub = false := Dec.fDecomp_safe (s := newFgas fp n (n + d) (hjlsFp q.one junkX d A)
      (hjlsFp q.one junkX d A) false d)
    ⟨by simp only [newFgas]; omega, by simp only [newFgas]; omega, by simp only [newFgas]; omega,
      fun _ => by simp only [newFgas]; omega⟩ rfl (by simp only [newFgas]; omega)
    (by simp only [newFgas]; omega) hs
  split at h
  · simp only [Option.some.injEq] at h
    subst h
    exact ⟨hub, Or.inl rfl⟩
  split at h
  · simp only [Option.some.injEq] at h
    subst h
    exact ⟨hub, Or.inl rfl⟩
  rename_i hnull
  simp only [not_not] at hnull
  simp only [Option.some.injEq] at h
  subst h
  obtain ⟨T, W, hA⟩ := Dec.fDecomp_alg (lo := d) (n := n + d) (Or.inr ⟨le_refl _, by simp only; omega⟩) hs hub
  have htW : s.trW = true := (Dec.fDecomp_mvs (lo := 0) (s := newFgas fp n (n + d) (hjlsFp q.one junkX d A)
      (hjlsFp q.one junkX d A) false d) (Or.inl rfl) hs).le.2.2.2.2.2.1
  refine ⟨hub, Or.inr ⟨rfl, rfl, rfl, ⟨Matrix.of (fun (j : Fin nbrel) (i : Fin n) =>
    T ⟨d + i, by omega⟩ ⟨n + d - nbrel + j, by omega⟩), ?_⟩, ?_⟩⟩
  · have := blk_inv (k := nbrel) (by omega) hA.inv hA.w0
    rw [← this]
    congr 1
    ext i j
    rw [← hA.w htW]
    rfl
  · intro j hj
    exact zeroCol_iff.1 (filter_full hnull j hj)

end Hjls
end HPLLL

namespace HPLLL
open Spec Matrix

namespace Hjls

variable {X F : Type}

/-- `set` on a new object with the same matrices changes nothing. -/
theorem set_new (fp : FPart F) (d n : ℕ) (A Y0 : Mat X) (transf : Bool) (dec : ℕ) :
    (newFgas fp d n A Y0 transf dec).set A Y0 = newFgas fp d n A Y0 transf dec := by
  have hid : ∀ j i, (if i = j ∧ i < n then (1 : ℤ) else idMat j i) = idMat j i := by
    intro j i
    split
    · rename_i h; simp [idMat, h.1]
    · rfl
  unfold Fg.set
  have e1 : (if (newFgas fp d n A Y0 transf dec).trY then Y0 else (newFgas fp d n A Y0 transf dec).Y) = Y0 :=
    ite_self _
  have e2 : (fun j i => if i = j ∧ i < (newFgas fp d n A Y0 transf dec).n then (1 : ℤ)
      else (newFgas fp d n A Y0 transf dec).W j i) = idMat := by
    funext j i; exact hid j i
  have e3 : (fun j i => if i = j ∧ i < (newFgas fp d n A Y0 transf dec).n then (1 : ℤ)
      else (newFgas fp d n A Y0 transf dec).U j i) = idMat := by
    funext j i; exact hid j i
  rw [e1, e2, e3]
  have e4 : (if (newFgas fp d n A Y0 transf dec).trU then (idMat : Mat ℤ) else
      (newFgas fp d n A Y0 transf dec).U) = idMat := ite_self _
  rw [e4]
  rfl

theorem toMatrix_matprodIn (m n : ℕ) (hn : 0 < n) (U A : Mat Int) :
    toMatrix m n (matprodIn m n U A) = toMatrix m n A * toMatrix n n U := by
  ext i j
  rw [Matrix.mul_apply]
  simp only [toMatrix, of_apply]
  rw [matprodIn_apply _ _ hn, if_pos ⟨i.2, j.2⟩, Finset.sum_range]

theorem loop_restarts {e : RestEnv X F} {d n nbrel : ℕ} {A : Mat X} (fuel : ℕ) : ∀ {s s' : RestState X F},
    restLoop e d n nbrel A fuel s = some s' → s.restarts ≤ s'.restarts ∧ s'.notfound = false := by
  induction fuel with
  | zero => intro s s' h; simp [restLoop] at h
  | succ fuel ih =>
    intro s s' h
    unfold restLoop at h
    split at h
    · split at h
      · simp at h
      · rename_i s1 h1
        obtain ⟨a, b⟩ := ih h
        refine ⟨le_trans ?_ a, b⟩
        unfold restStep at h1
        simp only at h1
        split at h1
        · simp at h1
        split at h1
        · simp only [Option.some.injEq] at h1; subst h1; exact le_rfl
        split at h1
        · simp at h1
        · simp only [Option.some.injEq] at h1; subst h1; exact Nat.le_succ _
    · rename_i hnf
      simp only [Option.some.injEq] at h
      subst h
      exact ⟨le_rfl, by simpa using hnf⟩

/-- The transformation at the end of a run without restart. -/
theorem restart_free {e : RestEnv X F} {d n nbrel fuel : ℕ} {A : Mat X} {s0 s : RestState X F} (hd : 0 < d)
    (hn : d < n) (hb : nbrel ≤ n - d) (h0 : restStart e d n A = some s0)
    (h : restLoop e d n nbrel A fuel s0 = some s) (hr : s.restarts = 0) :
    s.G.ub = false ∧ s.F'.ub = false ∧ ∃ T W : Matrix (Fin (n + d)) (Fin (n + d)) ℤ,
      Wᵀ * T = 1 ∧ (∀ i j : Fin (n + d), i.1 < d → d ≤ j.1 → W i j = 0) ∧
      toMatrix (n + d) (n + d) s.V = W := by
  unfold restStart at h0
  simp only at h0
  split at h0
  · simp at h0
  rename_i G hG
  simp only [Option.some.injEq] at h0
  cases fuel with
  | zero => simp [restLoop] at h
  | succ fuel =>
  unfold restLoop at h
  rw [if_pos (by rw [← h0])] at h
  split at h
  · simp at h
  rename_i s1 h1
  obtain ⟨a, -⟩ := loop_restarts fuel h
  unfold restStep at h1
  simp only at h1
  split at h1
  · simp at h1
  rename_i flag F' hF
  split at h1
  · simp only [Option.some.injEq] at h1
    have hs : s = s1 := by
      cases fuel with
      | zero => simp [restLoop] at h
      | succ fuel =>
        unfold restLoop at h
        rw [if_neg (by rw [← h1]; simp)] at h
        simpa using h.symm
    rw [hs, ← h1]
    simp only
    rw [← h0] at hF ⊢
    simp only at hF ⊢
    rw [set_new] at hF
    have hGub : G.ub = false := Dec.hsizeRange_safe (o := e.oX) (q := e.qX) (n + d) (a := 0)
      (s := newFgas e.fpG n (n + d) _ _ false 0)
      ⟨by simp only [newFgas]; omega, by simp only [newFgas]; omega, by simp only [newFgas]; omega,
        fun h => by simp [newFgas] at h⟩ (by simp [newFgas]) rfl hG
    have hFub : F'.ub = false := Dec.fDecomp_safe
      ⟨by simp only [newFgas]; omega, by simp only [newFgas]; omega, by simp only [newFgas]; omega,
        fun _ => by simp only [newFgas]; omega⟩ rfl (by simp only [newFgas]; omega)
      (by simp only [newFgas]; omega) hF
    refine ⟨hGub, hFub, ?_⟩
    have mG := (Dec.hsizeRange_mvs (o := e.oX) (q := e.qX) d e.fuel _ _ _ _ hG).1
    obtain ⟨T1, W1, a1⟩ := Dec.Alg.mvs (n := n + d) mG ⟨1, 1, Dec.Alg.init rfl rfl rfl⟩ hGub
    have hW1 : G.trW = true := mG.le.2.2.2.2.2.1
    obtain ⟨T2, W2, a2⟩ := Dec.fDecomp_alg (lo := d) (n := n + d) (Or.inr ⟨le_refl _, by simp only; omega⟩) hF hFub
    have hW2 : F'.trW = true := (Dec.fDecomp_mvs (lo := 0) (Or.inl rfl) hF).le.2.2.2.2.2.1
    refine ⟨T1 * T2, W1 * W2, ?_, ?_, ?_⟩
    · rw [Matrix.transpose_mul, Matrix.mul_assoc, ← Matrix.mul_assoc W1ᵀ, a1.inv, Matrix.one_mul, a2.inv]
    · intro i j hi hj
      rw [Matrix.mul_apply]
      refine Finset.sum_eq_zero fun k _ => ?_
      rcases lt_or_ge k.1 d with hk | hk
      · rw [a2.w0 k j hk hj, mul_zero]
      · rw [a1.w0 i k hi hk, zero_mul]
    · rw [toMatrix_matprodIn _ _ (by omega), toMatrix_matprodIn _ _ (by omega), Dec.toMatrix_idMat,
        Matrix.one_mul]
      show toMatrix (n + d) (n + d) G.W * toMatrix (n + d) (n + d) F'.W = _
      rw [a1.w hW1, a2.w hW2]
  · split at h1
    · simp at h1
    · simp only [Option.some.injEq] at h1
      rw [← h1] at a
      simp only at a
      omega

end Hjls
end HPLLL
