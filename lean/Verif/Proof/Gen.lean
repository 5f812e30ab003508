import Verif.Model.Gen
import Verif.Proof.MatH
import Verif.Proof.Idem
import Mathlib.LinearAlgebra.Matrix.Block
import Mathlib.LinearAlgebra.Matrix.ToLinearEquiv
/-! Proofs about the generators of `command_line_basis`. -/

namespace HPLLL
open Spec Matrix

/-- Full column rank of a square integer matrix. -/
theorem fcr_iff_det {d : ℕ} (M : Matrix (Fin d) (Fin d) ℤ) : FullColumnRank M ↔ M.det ≠ 0 := by
  constructor
  · intro h h0
    obtain ⟨v, hv, hz⟩ := Matrix.exists_mulVec_eq_zero_iff.2 h0
    apply hv
    have hinj := LinearIndependent.fintypeLinearCombination_injective h
    apply hinj
    rw [map_zero]
    funext i
    have := congrFun hz i
    simp only [Fintype.linearCombination_apply, Finset.sum_apply, Pi.smul_apply, smul_eq_mul, Pi.zero_apply]
    simp only [Matrix.mulVec, dotProduct, Pi.zero_apply] at this
    simpa [mul_comm] using this
  · exact Matrix.linearIndependent_cols_of_det_ne_zero

theorem upper_det {d : ℕ} (A : Mat Int) (h : ∀ c r, c < r → r < d → A c r = 0) :
    (toMatrix d d A).det = ∏ i : Fin d, A i i :=
  Matrix.det_of_upperTriangular (M := toMatrix d d A) fun i j hij => h j i hij i.2

/-- Fewer rows than columns. -/
theorem not_fcr_of_lt {n d : ℕ} (h : n < d) (M : Matrix (Fin n) (Fin d) ℤ) : ¬ FullColumnRank M := by
  intro hf
  have := LinearIndependent.fintype_card_le_finrank hf
  simp at this
  omega

theorem fillRect (v : Nat → Nat → Int) (m d : Nat) (M : Mat Int) (c r : Nat) :
    forRange 0 m (fun i A => forRange 0 d (fun j A => setEntry A i j (v i j)) A) M c r =
      if r < m ∧ c < d then v r c else M c r := by
  have := forRange_fill v 0 0 m 0 d M c r
  simpa using this

theorem fillRows (v : Nat → Nat → Int) (a m d : Nat) (M : Mat Int) (c r : Nat) :
    forRange a m (fun i A => forRange 0 d (fun j A => setEntry A i j (v i j)) A) M c r =
      if a ≤ r ∧ r < m ∧ c < d then v r c else M c r := by
  rcases Nat.lt_or_ge m a with h | h
  · rw [forRange_empty (by omega), if_neg (by omega)]
  · refine forRange_ind (fun m (T : Mat Int) => T c r =
      if a ≤ r ∧ r < m ∧ c < d then v r c else M c r) h _ _ (by rw [if_neg (by omega)]) ?_
    intro i T h1 h2 h3
    have := forRange_fillRow (v i) i 0 0 0 d (Nat.zero_le d) T c r
    simp only [zero_add, Nat.zero_le, true_and, Nat.sub_zero] at this
    rw [this]
    by_cases hc : r = i ∧ c < d
    · rw [if_pos hc, if_pos (by omega), hc.1]
    · rw [if_neg hc, h3]
      by_cases h4 : a ≤ r ∧ r < i ∧ c < d
      · rw [if_pos h4, if_pos (by omega)]
      · rw [if_neg h4, if_neg (by omega)]

theorem fillDiag (v : Nat → Int) (a b : Nat) (M : Mat Int) (c r : Nat) :
    forRange a b (fun i A => setEntry A i i (v i)) M c r =
      if c = r ∧ a ≤ r ∧ r < b then v r else M c r := by
  rcases Nat.lt_or_ge b a with h | h
  · rw [forRange_empty (by omega), if_neg (by omega)]
  · refine forRange_ind (fun b (T : Mat Int) => T c r =
      if c = r ∧ a ≤ r ∧ r < b then v r else M c r) h _ _ (by rw [if_neg (by omega)]) ?_
    intro i T h1 h2 h3
    rw [setEntry_apply, h3]
    by_cases hc : c = i ∧ r = i
    · rw [if_pos hc, if_pos (by omega), hc.2]
    · rw [if_neg hc]
      by_cases h4 : c = r ∧ a ≤ r ∧ r < i
      · rw [if_pos h4, if_pos (by omega)]
      · rw [if_neg h4, if_neg (by omega)]

theorem genBlock_apply (rnd : Nat → Nat → Nat → Int) (d m : Nat) (c r : Nat) :
    (genBlock rnd d m).A c r =
      if c = r ∧ m ≤ r ∧ r < d then 1 else if r < m ∧ c < d then rnd 0 r c else 0 := by
  unfold genBlock
  simp only []
  rw [fillDiag (fun _ => 1), fillRect (rnd 0)]

theorem genBlock_det (rnd : Nat → Nat → Nat → Int) {d m : Nat} (hm : m ≤ d) :
    (toMatrix d d (genBlock rnd d m).A).det = (Matrix.of fun i j : Fin m => rnd 0 i j).det := by
  rw [Matrix.twoBlockTriangular_det _ (fun i : Fin d => (i : ℕ) < m)]
  · have h2 : (toMatrix d d (genBlock rnd d m).A).toSquareBlockProp (fun i => ¬ (i : ℕ) < m) = 1 := by
      ext i j
      show (genBlock rnd d m).A j.1 i.1 = _
      rw [genBlock_apply, Matrix.one_apply]
      have hi := i.2; have hj := j.2
      by_cases h : i = j
      · subst h
        rw [if_pos ⟨rfl, by omega, i.1.2⟩, if_pos rfl]
      · have h' : ((j : Fin d) : ℕ) ≠ (i : Fin d) := by
          intro h2; apply h; exact Subtype.ext (Fin.ext h2.symm)
        rw [if_neg (by omega), if_neg (by omega), if_neg h]
    rw [h2, Matrix.det_one, mul_one]
    let e : Fin m ≃ {i : Fin d // (i : ℕ) < m} :=
      { toFun := fun i => ⟨⟨i, by omega⟩, i.2⟩
        invFun := fun i => ⟨i.1, i.2⟩
        left_inv := fun _ => rfl
        right_inv := fun _ => rfl }
    rw [← Matrix.det_submatrix_equiv_self e]
    congr 1
    ext i j
    show (genBlock rnd d m).A j i = rnd 0 i j
    rw [genBlock_apply, if_neg (by omega), if_pos (by omega)]
  · intro i hi j hj
    simp only [toMatrix, Matrix.of_apply, genBlock_apply]
    rw [if_neg (by omega), if_neg (by omega)]

theorem genDec_row0 (rnd : Nat → Nat → Nat → Int) (d : Nat) (c : Nat) :
    (genDec rnd d 0).A c 0 = 0 := by
  unfold genDec
  simp only []
  rw [fillRows (rnd 1), if_neg (by omega), fillRows (rnd 0), if_neg (by omega)]

theorem genDec_apply (rnd : Nat → Nat → Nat → Int) (d m : Nat) (c r : Nat) :
    (genDec rnd d m).A c r = if r < m ∧ c < d then rnd 1 r c else
      if 1 ≤ r ∧ r < d ∧ c < d then rnd 0 r c else 0 := by
  unfold genDec
  simp only []
  rw [fillRect (rnd 1), fillRows (rnd 0)]

theorem coppN_apply (N : Int) (h : Nat) (M : Mat Int) (c r : Nat) :
    (coppN N h M).1 c r = if c = r ∧ r < 3 * h then N ^ (h - 1 - r / 3) else M c r := by
  have key : ∀ q ≤ h, (forRange 0 q (fun q s =>
    (forRange 0 3 (fun k AT => setEntry AT ((h - 1 - q) * 3 + k) ((h - 1 - q) * 3 + k) s.2) s.1,
      s.2 * N)) (M, (1 : Int))).2 = N ^ q ∧
      (forRange 0 q (fun q s =>
    (forRange 0 3 (fun k AT => setEntry AT ((h - 1 - q) * 3 + k) ((h - 1 - q) * 3 + k) s.2) s.1,
      s.2 * N)) (M, (1 : Int))).1 c r =
        if c = r ∧ r < 3 * h ∧ 3 * (h - q) ≤ r then N ^ (h - 1 - r / 3) else M c r := by
    intro q hq
    induction q with
    | zero =>
      rw [forRange_empty (le_refl _)]
      exact ⟨by simp, by rw [if_neg (by omega)]⟩
    | succ q ih =>
      obtain ⟨i1, i2⟩ := ih (by omega)
      rw [forRange_succ (Nat.zero_le q)]
      refine ⟨by simp only [i1, pow_succ], ?_⟩
      simp only [i1]
      have h3 : ∀ (T : Mat Int), forRange 0 3 (fun k AT => setEntry AT ((h - 1 - q) * 3 + k)
          ((h - 1 - q) * 3 + k) (N ^ q)) T c r =
          if c = r ∧ 3 * (h - 1 - q) ≤ r ∧ r < 3 * (h - 1 - q) + 3 then N ^ q else T c r := by
        intro T
        have e : (List.range' 0 (3 - 0)) = [0, 1, 2] := rfl
        simp only [forRange, e, List.foldl_cons, List.foldl_nil, setEntry_apply]
        split_ifs <;> first | rfl | omega
      rw [h3, i2]
      by_cases hc : c = r ∧ 3 * (h - 1 - q) ≤ r ∧ r < 3 * (h - 1 - q) + 3
      · rw [if_pos hc, if_pos (by omega), show h - 1 - r / 3 = q by omega]
      · rw [if_neg hc]
        by_cases h4 : c = r ∧ r < 3 * h ∧ 3 * (h - q) ≤ r
        · rw [if_pos h4, if_pos (by omega)]
        · rw [if_neg h4, if_neg (by omega)]
  have := (key h (le_refl h)).2
  unfold coppN
  rw [this]
  by_cases h4 : c = r ∧ r < 3 * h
  · rw [if_pos h4, if_pos (by omega)]
  · rw [if_neg h4, if_neg (by omega)]

theorem coppX_apply (X : Int) (n : Nat) (M : Mat Int) (c r : Nat) :
    (coppX X n M).1 c r = if c = r ∧ r < n then M c r * X ^ r else M c r := by
  have key : ∀ q, (forRange 0 q (fun i s => (setEntry s.1 i i (s.1 i i * s.2), s.2 * X))
      (M, (1 : Int))).2 = X ^ q ∧
      ∀ c r, (forRange 0 q (fun i s => (setEntry s.1 i i (s.1 i i * s.2), s.2 * X)) (M, (1 : Int))).1 c r =
        if c = r ∧ r < q then M c r * X ^ r else M c r := by
    intro q
    induction q with
    | zero =>
      rw [forRange_empty (le_refl _)]
      exact ⟨by simp, fun c r => by rw [if_neg (by omega)]⟩
    | succ q ih =>
      obtain ⟨i1, i2⟩ := ih
      rw [forRange_succ (Nat.zero_le q)]
      refine ⟨by simp only [i1, pow_succ], fun c r => ?_⟩
      simp only [i1, setEntry_apply, i2]
      by_cases hc : c = q ∧ r = q
      · obtain ⟨rfl, rfl⟩ := hc
        rw [if_pos ⟨rfl, rfl⟩, if_neg (by omega), if_pos (by omega)]
      · rw [if_neg hc]
        by_cases h4 : c = r ∧ r < q
        · rw [if_pos h4, if_pos (by omega)]
        · rw [if_neg h4, if_neg (by omega)]
  exact (key n).2 c r

theorem coppRnd_apply (rnd : Nat → Nat → Nat → Int) (n : Nat) (M : Mat Int) (c r : Nat) :
    coppRnd rnd n M c r = if c < r ∧ r < n then rnd 1 c r else M c r := by
  have key : ∀ q, forRange 0 q (fun i AT => forRange (i + 1) n (fun j AT =>
      setEntry AT j i (rnd 1 i j)) AT) M c r = if c < q ∧ c < r ∧ r < n then rnd 1 c r else M c r := by
    intro q
    induction q with
    | zero => rw [forRange_empty (le_refl _), if_neg (by omega)]
    | succ q ih =>
      rw [forRange_succ (Nat.zero_le q)]
      have hin : ∀ (T : Mat Int), forRange (q + 1) n (fun j AT => setEntry AT j q (rnd 1 q j)) T c r =
          if c = q ∧ q < r ∧ r < n then rnd 1 q r else T c r := by
        intro T
        rcases Nat.lt_or_ge n (q + 1) with h | h
        · rw [forRange_empty (by omega), if_neg (by omega)]
        · refine forRange_ind (fun n (X : Mat Int) => X c r =
            if c = q ∧ q < r ∧ r < n then rnd 1 q r else T c r) h _ _ (by rw [if_neg (by omega)]) ?_
          intro i X h1 h2 h3
          rw [setEntry_apply, h3]
          by_cases hc : c = q ∧ r = i
          · rw [if_pos hc, if_pos (by omega), hc.2]
          · rw [if_neg hc]
            by_cases h4 : c = q ∧ q < r ∧ r < i
            · rw [if_pos h4, if_pos (by omega)]
            · rw [if_neg h4, if_neg (by omega)]
      rw [hin, ih]
      by_cases hc : c = q ∧ q < r ∧ r < n
      · rw [if_pos hc, if_pos (by omega), hc.1]
      · rw [if_neg hc]
        by_cases h4 : c < q ∧ c < r ∧ r < n
        · rw [if_pos h4, if_pos (by omega)]
        · rw [if_neg h4, if_neg (by omega)]
  unfold coppRnd
  rw [key]
  by_cases h4 : c < r ∧ r < n
  · rw [if_pos h4, if_pos (by omega)]
  · rw [if_neg h4, if_neg (by omega)]

theorem genCopp_apply (rnd : Nat → Nat → Nat → Int) (h : Nat) (ub : Bool) (c r : Nat) (hc : c < 3 * h)
    (hr : r < 3 * h) : (genCopp rnd h ub).A c r =
      if r < c then rnd 1 r c else if c = r then rnd 0 0 0 ^ (h - 1 - r / 3) * rnd 0 0 1 ^ r else 0 := by
  unfold genCopp
  simp only []
  rw [transposeTo_apply, if_pos ⟨hc, hr⟩, coppRnd_apply]
  by_cases h1 : r < c
  · rw [if_pos ⟨h1, hc⟩, if_pos h1]
  · rw [if_neg (by omega), if_neg h1, coppX_apply]
    by_cases h2 : c = r
    · subst h2
      rw [if_pos ⟨rfl, hc⟩, if_pos rfl, coppN_apply, if_pos ⟨rfl, hc⟩]
    · rw [if_neg (by omega), if_neg h2, coppN_apply, if_neg (by omega)]

theorem genAlpha_apply (dg : Nat → Int) (off : Nat → Nat → Int) (n : Nat) (M : Mat Int) (c r : Nat)
    (hc : c < n) (hr : r < n) : genAlpha dg off n M c r =
      if c < r then 0 else if c = r then dg r else off r c := by
  have h1 : ∀ (v : Nat → Nat → Int) (lo hi : Nat → Nat) (q : Nat) (T : Mat Int), (∀ i, lo i ≤ hi i) →
      forRange 0 q (fun i B => forRange (lo i) (hi i) (fun j B => setEntry B i j (v i j)) B) T c r =
      if r < q ∧ lo r ≤ c ∧ c < hi r then v r c else T c r := by
    intro v lo hi q T hlh
    refine forRange_ind (fun q (X : Mat Int) => X c r =
      if r < q ∧ lo r ≤ c ∧ c < hi r then v r c else T c r) (Nat.zero_le q) _ _
        (by rw [if_neg (by omega)]) ?_
    intro i X _ _ h3
    have := forRange_fillRow (v i) i 0 0 (lo i) (hi i) (hlh i) X c r
    simp only [zero_add, Nat.sub_zero] at this
    rw [this, h3]
    by_cases hq : r = i ∧ lo i ≤ c ∧ c < hi i
    · obtain ⟨rfl, hq⟩ := hq
      rw [if_pos ⟨rfl, hq⟩, if_pos ⟨by omega, hq⟩]
    · rw [if_neg hq]
      by_cases h4 : r < i ∧ lo r ≤ c ∧ c < hi r
      · rw [if_pos h4, if_pos ⟨by omega, h4.2⟩]
      · rw [if_neg h4, if_neg]
        rintro ⟨h5, h6⟩
        rcases Nat.lt_or_ge r i with h7 | h7
        · exact h4 ⟨h7, h6⟩
        · have : r = i := by omega
          subst this; exact hq ⟨rfl, h6⟩
  have h2 : ∀ q ≤ n, forRange 0 q (fun q B => setEntry B (n - 1 - q) (n - 1 - q) (dg (n - 1 - q))) M c r =
      if c = r ∧ n ≤ r + q then dg r else M c r := by
    intro q hq
    induction q with
    | zero => rw [forRange_empty (le_refl _), if_neg (by omega)]
    | succ q ih =>
      rw [forRange_succ (Nat.zero_le q), setEntry_apply, ih (by omega)]
      by_cases h : c = n - 1 - q ∧ r = n - 1 - q
      · rw [if_pos h, if_pos (by omega), h.2]
      · rw [if_neg h]
        by_cases h4 : c = r ∧ n ≤ r + q
        · rw [if_pos h4, if_pos (by omega)]
        · rw [if_neg h4, if_neg (by omega)]
  unfold genAlpha
  rw [h1 (fun _ _ => 0) (fun _ => 0) (fun i => i) n _ (fun i => Nat.zero_le i)]
  by_cases hlt : c < r
  · rw [if_pos (by omega), if_pos hlt]
  · rw [if_neg (by omega), if_neg hlt]
    have h3 := h1 off (fun i => i + 1) (fun i => max n (i + 1)) n
      (forRange 0 n (fun q B => setEntry B (n - 1 - q) (n - 1 - q) (dg (n - 1 - q))) M)
      (fun i => le_max_right _ _)
    have h4 : ∀ (T : Mat Int), forRange 0 n (fun i B => forRange (i + 1) n (fun j B => setEntry B i j (off i j)) B) T =
        forRange 0 n (fun i B => forRange (i + 1) (max n (i + 1)) (fun j B => setEntry B i j (off i j)) B) T := by
      intro T
      have e : ∀ i (B : Mat Int), forRange (i + 1) n (fun j B => setEntry B i j (off i j)) B =
          forRange (i + 1) (max n (i + 1)) (fun j B => setEntry B i j (off i j)) B := by
        intro i B
        rcases Nat.lt_or_ge n (i + 1) with h | h
        · rw [forRange_empty (by omega), forRange_empty (by omega)]
        · rw [max_eq_left h]
      simp only [e]
    rw [h4, h3, h2 n (le_refl n)]
    by_cases he : c = r
    · rw [if_neg (by omega), if_pos (by omega), if_pos he]
    · rw [if_pos (by omega), if_neg he]

/-- Gram–Schmidt vectors of an upper triangular basis. -/
theorem gs_upper {n : ℕ} (A : Mat Int) (h : ∀ c r, c < r → r < n → A c r = 0)
    (hd : ∀ i < n, A i i ≠ 0) (j : Fin n) :
    gs (toMatrix n n A) j = EuclideanSpace.single j ((A j j : ℤ) : ℝ) := by
  induction j using WellFoundedLT.induction with
  | ind j ih =>
    have h1 := InnerProductSpace.gramSchmidt_def'' ℝ (colVec (toMatrix n n A)) j
    have h2 : colVec (toMatrix n n A) j = EuclideanSpace.single j ((A j j : ℤ) : ℝ) +
        ∑ i ∈ Finset.Iio j, EuclideanSpace.single i ((A j i : ℤ) : ℝ) := by
      ext r
      simp only [colVec, toMatrix, Matrix.of_apply, PiLp.add_apply, WithLp.ofLp_sum, Finset.sum_apply,
        PiLp.single_apply]
      rw [Finset.sum_ite_eq]
      by_cases h3 : r = j
      · subst h3; simp
      · rcases lt_or_gt_of_ne h3 with h4 | h4
        · simp [h3, h4]
        · have h5 : ¬ r < j := not_lt.2 h4.le
          simp [h3, h5, h j r h4 r.2]
    unfold gs at ih ⊢
    have h3 : ∑ i ∈ Finset.Iio j, (inner ℝ (InnerProductSpace.gramSchmidt ℝ (colVec (toMatrix n n A)) i)
        (colVec (toMatrix n n A) j) / ((‖InnerProductSpace.gramSchmidt ℝ (colVec (toMatrix n n A)) i‖ : ℝ) ^ 2)) •
        InnerProductSpace.gramSchmidt ℝ (colVec (toMatrix n n A)) i =
        ∑ i ∈ Finset.Iio j, EuclideanSpace.single i ((A j i : ℤ) : ℝ) := by
      refine Finset.sum_congr rfl fun i hi => ?_
      rw [ih i (by simpa using hi)]
      have hne : ((A i i : ℤ) : ℝ) ≠ 0 := by exact_mod_cast hd i i.2
      have e1 : inner ℝ (EuclideanSpace.single i ((A i i : ℤ) : ℝ)) (colVec (toMatrix n n A) j) =
          ((A i i : ℤ) : ℝ) * (A j i : ℤ) := by
        rw [EuclideanSpace.inner_single_left]
        simp [colVec, toMatrix]
      rw [e1, EuclideanSpace.norm_single, Real.norm_eq_abs, sq_abs]
      ext r
      simp only [WithLp.ofLp_smul, Pi.smul_apply, PiLp.single_apply, smul_eq_mul]
      split
      · field_simp
      · simp
    have h5 := h2.symm.trans (h1.trans (congrArg _ h3))
    exact (add_right_cancel h5).symm

theorem mu_upper {n : ℕ} (A : Mat Int) (h : ∀ c r, c < r → r < n → A c r = 0)
    (hd : ∀ i < n, A i i ≠ 0) (i j : Fin n) :
    mu (toMatrix n n A) i j = (A i j : ℝ) / (A j j : ℝ) := by
  unfold mu
  rw [gs_upper A h hd, EuclideanSpace.inner_single_left, EuclideanSpace.norm_single, Real.norm_eq_abs, sq_abs]
  have hne : ((A j j : ℤ) : ℝ) ≠ 0 := by exact_mod_cast hd j j.2
  simp only [colVec, toMatrix, Matrix.of_apply, conj_trivial]
  field_simp

end HPLLL
