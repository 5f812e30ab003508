import Verif.Model.Cond
import Verif.Proof.MatH
import Verif.Spec.Exact
import Mathlib.LinearAlgebra.Matrix.Block
/-! Exact arithmetic analysis of the triangular inversion and of the condition numbers. -/

namespace HPLLL
open Spec Finset Matrix

variable {o : FPOps ℝ}

theorem forRange_sum (f : ℕ → ℝ) (c0 : ℝ) {a b : ℕ} (hab : a ≤ b) :
    forRange a b (fun i c => c + f i) c0 = c0 + ∑ i ∈ Ico a b, f i := by
  refine forRange_ind (fun b c => c = c0 + ∑ i ∈ Ico a b, f i) hab _ _ (by simp) ?_
  intro i t h1 _ h
  rw [h, sum_Ico_succ_top h1, add_assoc]

theorem absMat_apply (ho : Exact o) (d : ℕ) (R A : Mat ℝ) (c r : ℕ) :
    absMat o d R A c r = if r < d ∧ c < d then |R c r| else A c r := by
  unfold absMat
  have h := forRange_fill (fun i j => o.abs (R j i)) 0 0 d 0 d A c r
  simp only [Nat.zero_add, Nat.zero_le, true_and, Nat.sub_zero, ho.abs] at h
  simp only [ho.abs]
  exact h

theorem setDiagOne_apply (ho : Exact o) (d : ℕ) (X : Mat ℝ) (c r : ℕ) :
    setDiagOne o d X c r = if c = r ∧ c < d then 1 else X c r := by
  unfold setDiagOne
  refine forRange_ind (fun d (T : Mat ℝ) => T c r = if c = r ∧ c < d then 1 else X c r)
    (Nat.zero_le d) _ _ (by simp) ?_
  intro i T _ _ h
  rw [setEntry_apply, h, ho.one]
  split_ifs <;> first | rfl | omega

/-- What is known of row `j` of the computed inverse; columns `< k`. -/
structure RowSpec (d j k : ℕ) (aR R X T : Mat ℝ) : Prop where
  low : ∀ c, c < j ∨ d ≤ c → T c j = X c j
  diag : T j j = 1 / aR j j
  up : ∀ c, j < c → c < k → T c j = -(∑ i ∈ Ico j c, T i j * R c i) / R c c

theorem highamRow_spec (ho : Exact o) (d j : ℕ) (hj : j < d) (aR R X : Mat ℝ) :
    (∀ c r, r ≠ j → highamRow o d j aR R X c r = X c r) ∧
      RowSpec d j d aR R X (highamRow o d j aR R X) := by
  unfold highamRow
  simp only [ho.div, ho.one, ho.neg, ho.mul, ho.sub]
  set X1 := setEntry X j j (1 / aR j j) with hX1
  have hX1a : ∀ c r, X1 c r = if c = j ∧ r = j then 1 / aR j j else X c r := fun c r => setEntry_apply _ _ _ _ _ _
  set X2 := forRange (j + 1) d (fun k X => setEntry X j k (-(X j j * R k j))) X1 with hX2
  have h2 : ∀ c r, X2 c r = if r = j ∧ j + 1 ≤ c ∧ c < d then -(1 / aR j j * R c j) else X1 c r := by
    rw [hX2]
    refine forRange_ind (fun k (T : Mat ℝ) => ∀ c r, T c r =
      if r = j ∧ j + 1 ≤ c ∧ c < k then -(1 / aR j j * R c j) else X1 c r) (by omega) _ _ ?_ ?_
    · intro c r; rw [if_neg (by omega)]
    · intro k T h1 _ hT c r
      rw [setEntry_apply]
      have hjj : T j j = 1 / aR j j := by rw [hT, if_neg (by omega), hX1a, if_pos ⟨rfl, rfl⟩]
      by_cases hc : c = k ∧ r = j
      · rw [if_pos hc, if_pos (by omega), hjj, hc.1]
      · rw [if_neg hc, hT]
        split_ifs <;> first | rfl | omega
  have key : (∀ c r, r ≠ j → forRange (j + 1) d (fun k X =>
      setEntry (forRange (j + 1) k (fun i X => setEntry X j k (X k j - X i j * R k i)) X) j k
        (forRange (j + 1) k (fun i X => setEntry X j k (X k j - X i j * R k i)) X k j / R k k)) X2 c r =
        X c r) ∧ RowSpec d j d aR R X (forRange (j + 1) d (fun k X =>
      setEntry (forRange (j + 1) k (fun i X => setEntry X j k (X k j - X i j * R k i)) X) j k
        (forRange (j + 1) k (fun i X => setEntry X j k (X k j - X i j * R k i)) X k j / R k k)) X2) ∧
        (∀ c, d ≤ c → c < d → True) := by
    have main := forRange_ind (fun k (T : Mat ℝ) => (∀ c r, r ≠ j → T c r = X c r) ∧
      RowSpec d j k aR R X T ∧ (∀ c, k ≤ c → c < d → T c j = -(T j j * R c j)))
      (show j + 1 ≤ d by omega) (fun k X =>
      setEntry (forRange (j + 1) k (fun i X => setEntry X j k (X k j - X i j * R k i)) X) j k
        (forRange (j + 1) k (fun i X => setEntry X j k (X k j - X i j * R k i)) X k j / R k k)) X2 ?_ ?_
    · exact ⟨main.1, main.2.1, fun _ _ _ => trivial⟩
    · refine ⟨fun c r hr => ?_, ⟨fun c hc => ?_, ?_, fun c h1 h2 => by omega⟩, fun c h1 h3 => ?_⟩
      · rw [h2, if_neg (by omega), hX1a, if_neg (by omega)]
      · rw [h2, if_neg (by omega), hX1a, if_neg (by omega)]
      · rw [h2, if_neg (by omega), hX1a, if_pos ⟨rfl, rfl⟩]
      · rw [h2, if_pos ⟨rfl, h1, h3⟩, h2 j j, if_neg (by omega), hX1a, if_pos ⟨rfl, rfl⟩]
    · intro k T hk1 hk2 ⟨t1, t2, t3⟩
      set T' := forRange (j + 1) k (fun i X => setEntry X j k (X k j - X i j * R k i)) T with hT'
      have hQ : (∀ c r, ¬ (c = k ∧ r = j) → T' c r = T c r) ∧
          T' k j = -(∑ i ∈ Ico j k, T i j * R k i) := by
        rw [hT']
        refine forRange_ind (fun i (S : Mat ℝ) => (∀ c r, ¬ (c = k ∧ r = j) → S c r = T c r) ∧
          S k j = -(∑ i' ∈ Ico j i, T i' j * R k i')) hk1 _ _ ⟨fun _ _ _ => rfl, ?_⟩ ?_
        · rw [t3 k (le_refl _) hk2]; simp
        · intro i S h1 h2 ⟨s1, s2⟩
          refine ⟨fun c r hc => ?_, ?_⟩
          · rw [setEntry_apply, if_neg hc, s1 c r hc]
          · rw [setEntry_apply, if_pos ⟨rfl, rfl⟩, s2, s1 i j (by omega),
              sum_Ico_succ_top (show j ≤ i by omega)]
            ring
      refine ⟨fun c r hr => ?_, ⟨fun c hc => ?_, ?_, fun c h1 h2 => ?_⟩, fun c h1 h3 => ?_⟩
      · rw [setEntry_apply, if_neg (by omega), hQ.1 c r (by omega), t1 c r hr]
      · rw [setEntry_apply, if_neg (by omega), hQ.1 c j (by omega), t2.low c hc]
      · rw [setEntry_apply, if_neg (by omega), hQ.1 j j (by omega), t2.diag]
      · have hsum : ∀ c, c ≤ k → ∑ i ∈ Ico j c, setEntry T' j k (T' k j / R k k) i j * R c i =
            ∑ i ∈ Ico j c, T i j * R c i := by
          intro c hc
          refine sum_congr rfl fun i hi => ?_
          rw [mem_Ico] at hi
          rw [setEntry_apply, if_neg (by omega), hQ.1 i j (by omega)]
        rw [hsum c (by omega)]
        by_cases hc : c = k
        · subst hc
          rw [setEntry_apply, if_pos ⟨rfl, rfl⟩, hQ.2]
        · rw [setEntry_apply, if_neg (by omega), hQ.1 c j (by omega), t2.up c h1 (by omega)]
      · rw [setEntry_apply, if_neg (by omega), setEntry_apply, if_neg (by omega), hQ.1 c j (by omega),
          hQ.1 j j (by omega), t3 c (by omega) h3]
  exact ⟨key.1, key.2.1⟩

theorem higham_spec (ho : Exact o) (d : ℕ) (aR R X : Mat ℝ) (j : ℕ) (hj : j < d) :
    RowSpec d j d aR R X (higham o d aR R X) := by
  unfold higham
  have := forRange_ind (fun m (T : Mat ℝ) => (∀ j < m, RowSpec d j d aR R X T) ∧
    ∀ c r, m ≤ r → T c r = X c r) (Nat.zero_le d) (fun j X => highamRow o d j aR R X) X
    ⟨fun j hj => by omega, fun _ _ _ => rfl⟩ ?_
  · exact this.1 j hj
  · intro i T _ hi ⟨t1, t2⟩
    obtain ⟨h1, h2⟩ := highamRow_spec ho d i hi aR R T
    refine ⟨fun j hj => ?_, fun c r hr => ?_⟩
    · by_cases hji : j = i
      · subst hji
        exact ⟨fun c hc => by rw [h2.low c hc, t2 c j (le_refl _)], h2.diag, h2.up⟩
      · have := t1 j (by omega)
        refine ⟨fun c hc => ?_, ?_, fun c h3 h4 => ?_⟩
        · rw [h1 c j hji, this.low c hc]
        · rw [h1 j j hji, this.diag]
        · rw [h1 c j hji, this.up c h3 h4]
          congr 2
          exact sum_congr rfl fun i' _ => by rw [h1 i' j hji]
    · rw [h1 c r (by omega), t2 c r (by omega)]

/-- The matrix in the sense of Mathlib. -/
def toReal (d : ℕ) (R : Mat ℝ) : Matrix (Fin d) (Fin d) ℝ := Matrix.of fun i j => R j i

theorem toReal_det (d : ℕ) (R : Mat ℝ) (hup : ∀ i j, j < i → i < d → R j i = 0) :
    (toReal d R).det = ∏ i : Fin d, R i i := by
  rw [Matrix.det_of_upperTriangular]
  · rfl
  · intro i j hij
    exact hup i j hij i.2

/-- Upper part of the computed inverse: the true inverse up to the sign of each row. -/
theorem higham_inverse (ho : Exact o) (d : ℕ) (R X : Mat ℝ)
    (hup : ∀ i j, j < i → i < d → R j i = 0) (hd : ∀ i < d, R i i ≠ 0) (j k : Fin d) (hjk : j ≤ k) :
    |higham o d (absMat o d R fun _ _ => o.zero) R X k j| = |(toReal d R)⁻¹ j k| := by
  set Y := higham o d (absMat o d R fun _ _ => o.zero) R X with hY
  -- upper triangular part of Y
  let H : Matrix (Fin d) (Fin d) ℝ := Matrix.of fun i j => if i ≤ j then Y j i else 0
  let s : Fin d → ℝ := fun i => R i i / |R i i|
  have hdet : IsUnit (toReal d R).det := by
    rw [toReal_det d R hup, isUnit_iff_ne_zero]
    exact prod_ne_zero_iff.2 fun i _ => hd i i.2
  have hmul : H * toReal d R = Matrix.diagonal s := by
    ext a b
    rw [Matrix.mul_apply]
    have hs : ∑ x : Fin d, H a x * toReal d R x b =
        ∑ x ∈ range d, if (a : ℕ) ≤ x ∧ x ≤ b then Y x a * R b x else 0 := by
      rw [← Fin.sum_univ_eq_sum_range (fun x => if (a : ℕ) ≤ x ∧ x ≤ b then Y x a * R b x else 0)]
      refine sum_congr rfl fun x _ => ?_
      simp only [H, toReal, of_apply]
      by_cases h1 : a ≤ x
      · rw [if_pos h1]
        by_cases h2 : x ≤ b
        · rw [if_pos ⟨h1, h2⟩]
        · rw [if_neg (fun h => h2 h.2), hup x b (not_le.1 h2) x.2, mul_zero]
      · rw [if_neg h1, if_neg (fun h => h1 h.1), zero_mul]
    rw [hs, ← sum_filter]
    have hspec := higham_spec ho d (absMat o d R fun _ _ => o.zero) R X a a.2
    rw [← hY] at hspec
    have hda : Y a a = 1 / |R a a| := by
      rw [hspec.diag, absMat_apply ho, if_pos ⟨a.2, a.2⟩]
    rcases lt_trichotomy (b : ℕ) a with h | h | h
    · rw [Matrix.diagonal_apply_ne _ (fun e => by rw [e] at h; omega)]
      rw [sum_eq_zero]
      intro x hx
      rw [mem_filter] at hx; omega
    · have hab : a = b := Fin.ext h.symm
      subst hab
      rw [Matrix.diagonal_apply_eq]
      have : (range d).filter (fun x => (a : ℕ) ≤ x ∧ x ≤ a) = {(a : ℕ)} := by
        ext x; simp only [mem_filter, mem_range, mem_singleton]
        have := a.2; omega
      rw [this, sum_singleton, hda]
      simp only [s]; ring
    · rw [Matrix.diagonal_apply_ne _ (fun e => by rw [e] at h; omega)]
      have : (range d).filter (fun x => (a : ℕ) ≤ x ∧ x ≤ b) = Ico (a : ℕ) (b + 1) := by
        ext x; simp only [mem_filter, mem_range, mem_Ico]
        have := b.2; omega
      rw [this, sum_Ico_succ_top h.le, hspec.up b h b.2]
      have := hd b b.2
      field_simp
      ring
  have hH : H = Matrix.diagonal s * (toReal d R)⁻¹ := by
    rw [← hmul, Matrix.mul_assoc, Matrix.mul_nonsing_inv _ hdet, Matrix.mul_one]
  have h1 : H j k = Y k j := by simp only [H, of_apply]; rw [if_pos hjk]
  rw [← h1, hH, Matrix.diagonal_mul, abs_mul]
  have hsj : |s j| = 1 := by
    simp only [s, abs_div, abs_abs]
    exact div_self (abs_ne_zero.2 (hd j j.2))
  rw [hsj, one_mul]

theorem prodAbs_eq (ho : Exact o) (d : ℕ) (hd : 0 < d) (aR iR : Mat ℝ) (i j : ℕ) :
    prodAbs o d aR iR i j = ∑ k ∈ range d, aR k i * iR j k := by
  unfold prodAbs
  simp only [ho.addmul, ho.mul]
  rw [forRange_sum (fun k => aR k i * iR j k) _ hd, range_eq_Ico,
    sum_eq_sum_Ico_succ_bot hd (fun k => aR k i * iR j k)]

theorem frob_eq (ho : Exact o) (d : ℕ) (P : ℕ → ℕ → ℝ) :
    frob o d P = Real.sqrt (∑ i ∈ range d, ∑ j ∈ range d, P i j ^ 2) := by
  unfold frob
  simp only [ho.addmul, ho.sqrt, ho.zero]
  congr 1
  have h1 : ∀ i c, forRange 0 d (fun j c => c + P i j * P i j) c = c + ∑ j ∈ range d, P i j ^ 2 := by
    intro i c
    rw [forRange_sum (fun j => P i j * P i j) c (Nat.zero_le d), range_eq_Ico]
    congr 1
    exact sum_congr rfl fun j _ => by ring
  simp only [h1]
  rw [forRange_sum (fun i => ∑ j ∈ range d, P i j ^ 2) 0 (Nat.zero_le d), zero_add, range_eq_Ico]

/-- `condOf` for an upper triangular `R` with nonzero diagonal, from any content `X` of the storage of
the inverse. -/
theorem condOf_eq (ho : Exact o) (d : ℕ) (R X : Mat ℝ)
    (hup : ∀ i j, j < i → i < d → R j i = 0) (hd : ∀ i < d, R i i ≠ 0) :
    condOf o d R X = Real.sqrt (∑ i : Fin d, ∑ j : Fin d,
      (∑ k : Fin d, |toReal d R i k| * if k ≤ j then |(toReal d R)⁻¹ k j| else |X j k|) ^ 2) := by
  unfold condOf
  simp only []
  rw [frob_eq ho]
  congr 1
  rw [← Fin.sum_univ_eq_sum_range (fun i => ∑ j ∈ range d, prodAbs o d _ _ i j ^ 2)]
  refine sum_congr rfl fun i _ => ?_
  rw [← Fin.sum_univ_eq_sum_range (fun j => prodAbs o d _ _ i j ^ 2)]
  refine sum_congr rfl fun j _ => ?_
  rw [prodAbs_eq ho d (by have := i.2; omega)]
  congr 1
  rw [← Fin.sum_univ_eq_sum_range]
  refine sum_congr rfl fun k _ => ?_
  rw [absMat_apply ho, if_pos ⟨i.2, k.2⟩, absMat_apply ho, if_pos ⟨k.2, j.2⟩]
  congr 1
  split
  · rename_i h
    exact higham_inverse ho d R X hup hd k j h
  · rename_i h
    have hs := higham_spec ho d (absMat o d R fun _ _ => o.zero) R X k k.2
    rw [hs.low j (Or.inl (not_le.1 h))]

end HPLLL
