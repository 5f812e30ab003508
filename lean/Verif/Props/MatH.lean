import Verif.Proof.ParMat
import Verif.Proof.LInv
import Verif.Model.Toy
/-!
# Properties of the matrix functions of mat.h
-/

namespace HPLLL.Props
open HPLLL Spec Matrix

/-! ## C46: transposition, identity, products -/

theorem toMatrix_mul_apply {m n p : ℕ} (C U : Mat Int) (i : Fin m) (j : Fin p) :
    (toMatrix m n C * toMatrix n p U) i j = ∑ k ∈ Finset.range n, C k i * U j k := by
  rw [Matrix.mul_apply, ← Fin.sum_univ_eq_sum_range (fun k => C k i * U j k)]
  rfl

theorem C46_transpose (A : ZMat) :
    (transposeOf A).rows = A.cols ∧ (transposeOf A).cols = A.rows ∧
    toMatrix A.cols A.rows (transposeOf A).M = (toMatrix A.rows A.cols A.M)ᵀ ∧
    toMatrix A.rows A.cols (transposeOf (transposeOf A)).M = toMatrix A.rows A.cols A.M := by
  refine ⟨rfl, rfl, ?_, ?_⟩
  · ext i j
    simp only [toMatrix, of_apply, transpose_apply, transposeOf]
    rw [transposeTo_apply, if_pos ⟨j.2, i.2⟩]
  · ext i j
    simp only [toMatrix, of_apply, transposeOf]
    rw [transposeTo_apply, if_pos ⟨j.2, i.2⟩, transposeTo_apply, if_pos ⟨i.2, j.2⟩]

/-- `transpose(B, A)` on the transposed range. -/
theorem C46_transpose_in (m n : ℕ) (A B : Mat Int) :
    toMatrix n m (transposeTo m n A B) = (toMatrix m n A)ᵀ := by
  ext i j
  simp only [toMatrix, of_apply, transpose_apply]
  rw [transposeTo_apply, if_pos ⟨j.2, i.2⟩]

theorem C46_setId (n : ℕ) (A : Mat Int) : toMatrix n n (setId n n A) = 1 := by
  ext i j
  simp only [toMatrix, of_apply, setId_apply, Matrix.one_apply, Fin.ext_iff]
  rw [if_pos ⟨i.2, Or.inr j.2⟩]
  by_cases h : (j : ℕ) = i
  · rw [if_pos h, if_pos h.symm]
  · rw [if_neg h, if_neg (Ne.symm h)]

theorem C46_isId (n : ℕ) (A : Mat Int) : isId n n A = true ↔ toMatrix n n A = 1 := by
  rw [isId_iff]
  constructor
  · intro h
    ext i j
    simp only [toMatrix, of_apply, Matrix.one_apply, Fin.ext_iff]
    exact h i i.2 j j.2
  · intro h i hi j hj
    have := congrFun (congrFun h ⟨i, hi⟩) ⟨j, hj⟩
    simpa [toMatrix, Matrix.one_apply, Fin.ext_iff] using this

/-- `set(B, A)`. -/
theorem C46_set (m n : ℕ) (A B : Mat Int) : toMatrix m n (setMat m n A B) = toMatrix m n A := by
  ext i j
  simp only [toMatrix, of_apply]
  rw [setMat_apply, if_pos ⟨i.2, j.2⟩]

/-- All the products: `matprod(C,B,U)`, `matprod_in(C,U)` (and `_int`, `_si`), the version that
changes the dimensions, and `matprod(B,U)` in place. -/
theorem C46_products (m n p : ℕ) (hn : 0 < n) (A U X : Mat Int) :
    toMatrix m p (matprod m n p A U X) = toMatrix m n A * toMatrix n p U ∧
    toMatrix m n (matprodIn m n U A) = toMatrix m n A * toMatrix n n U ∧
    toMatrix m p (matprodInRect m n p U A) = toMatrix m n A * toMatrix n p U ∧
    toMatrix m n (matprodRows m n U (A, X)).1 = toMatrix m n A * toMatrix n n U := by
  refine ⟨?_, ?_, ?_, ?_⟩ <;> ext i j <;> rw [toMatrix_mul_apply] <;>
    simp only [toMatrix, of_apply]
  · rw [matprod_apply _ _ _ hn, if_pos ⟨i.2, j.2⟩]
  · rw [matprodIn_apply _ _ hn, if_pos ⟨i.2, j.2⟩]
  · rw [matprodInRect_apply _ _ _ hn, if_pos ⟨i.2, j.2⟩]
  · rw [matprodRows_apply _ _ hn, if_pos ⟨i.2, j.2⟩]

/-- `set(B, A, n, d1, d2)` does not copy column `d1`: only columns `d1 + 1 .. d2 - 1`. -/
theorem C46_set_columns (n d1 d2 : ℕ) (A B : Mat Int) (c r : ℕ) :
    setMatCols n d1 d2 A B c r = if r < n ∧ d1 < c ∧ c < d2 then A c r else B c r := by
  have := forRange_fill (fun i j => A j i) 0 0 n (d1 + 1) d2 B c r
  simp only [zero_add, Nat.sub_zero, Nat.zero_le, true_and] at this
  unfold setMatCols
  rw [this]
  congr 1

/-- `shift_in(B, a, nrows)`: the first `nrows` rows are multiplied by `2^a`, the other ones kept. -/
theorem C46_shift_in (cols nrows a : ℕ) (B : Mat Int) (c r : ℕ) (hc : c < cols) :
    shiftIn cols nrows a B c r = if r < nrows then B c r * 2 ^ a else B c r := by
  have hcol : ∀ (j : ℕ) (T : Mat Int) (c r : ℕ),
      forRange 0 nrows (fun i B => setEntry B i j (B j i * 2 ^ a)) T c r =
        if c = j ∧ r < nrows then T c r * 2 ^ a else T c r := by
    intro j T c r
    have := forRange_ind (fun m (X : Mat Int) => ∀ c r, X c r =
      if c = j ∧ r < m then T c r * 2 ^ a else T c r) (Nat.zero_le nrows)
      (fun i B => setEntry B i j (B j i * 2 ^ a)) T (fun c r => by rw [if_neg (by omega)]) (by
        intro i X _ _ h c r
        rw [setEntry_apply]
        by_cases hc : c = j ∧ r = i
        · rw [if_pos hc, h, if_neg (by omega), if_pos (by omega), hc.1, hc.2]
        · rw [if_neg hc, h]
          by_cases h4 : c = j ∧ r < i
          · rw [if_pos h4, if_pos (by omega)]
          · rw [if_neg h4, if_neg (by omega)])
    exact this c r
  have := forRange_ind (fun n (X : Mat Int) => ∀ c r, X c r =
      if c < n ∧ r < nrows then B c r * 2 ^ a else B c r) (Nat.zero_le cols)
      (fun j B => forRange 0 nrows (fun i B => setEntry B i j (B j i * 2 ^ a)) B) B
      (fun c r => by rw [if_neg (by omega)]) (by
        intro j X _ _ h c r
        rw [hcol]
        by_cases hc : c = j ∧ r < nrows
        · rw [if_pos hc, h, if_neg (by omega), if_pos (by omega)]
        · rw [if_neg hc, h]
          by_cases h4 : c < j ∧ r < nrows
          · rw [if_pos h4, if_pos (by omega)]
          · rw [if_neg h4, if_neg (by omega)])
  unfold shiftIn
  rw [this]
  simp [hc]

/-! ## C24: blocks -/

theorem slice_disjoint (m S : ℕ) {l k r : ℕ} (hlk : l ≠ k)
    (h : sliceBeg m S l ≤ r ∧ r < sliceBeg m S l + sliceLen m S l) :
    ¬ (sliceBeg m S k ≤ r ∧ r < sliceBeg m S k + sliceLen m S k) := by
  rintro ⟨h1, h2⟩
  rcases Nat.lt_or_ge l k with hc | hc
  · have := sliceBeg_mono m S (l := l + 1) (k := k) hc
    rw [sliceBeg_succ] at this; omega
  · have := sliceBeg_mono m S (l := k + 1) (k := l) (by omega)
    rw [sliceBeg_succ] at this; omega

theorem slice_cover (m S : ℕ) (hS : 0 < S) {r : ℕ} (hr : r < m) :
    ∃ l < S, sliceBeg m S l ≤ r ∧ r < sliceBeg m S l + sliceLen m S l := by
  have key : ∀ K, r < sliceBeg m S K →
      ∃ l < K, sliceBeg m S l ≤ r ∧ r < sliceBeg m S l + sliceLen m S l := by
    intro K
    induction K with
    | zero => rw [sliceBeg_zero]; omega
    | succ K ih =>
      intro h
      rw [sliceBeg_succ] at h
      by_cases hK : r < sliceBeg m S K
      · obtain ⟨l, h1, h2⟩ := ih hK; exact ⟨l, by omega, h2⟩
      · exact ⟨K, by omega, by omega, h⟩
  exact key S (by rw [sliceBeg_S _ _ hS]; exact hr)

/-- **C24.** `getblock` after `putblock` returns the block. -/
theorem C24_get_put (B : ZMat) (A : Mat Int) (ii jj nbr nbc : ℕ) :
    let B' := putblock B A ii jj nbr nbc
    (getblock B' ii jj nbr nbc).rows = (getblock B ii jj nbr nbc).rows ∧
    (getblock B' ii jj nbr nbc).cols = (getblock B ii jj nbr nbc).cols ∧
    ∀ r < (getblock B ii jj nbr nbc).rows, ∀ c < (getblock B ii jj nbr nbc).cols,
      (getblock B' ii jj nbr nbc).M c r = A c r := by
  refine ⟨rfl, rfl, ?_⟩
  intro r hr c hc
  rw [getblock_apply, if_pos ⟨hr, hc⟩, putblock_apply, if_pos]
  · simp only [putblock, Nat.add_sub_cancel_left]
  · have hr' : r < blockDim B.rows nbr ii := hr
    have hc' : c < blockDim B.cols nbc jj := hc
    simp only [putblock]; omega

/-- **C24.** `putblock` does not change any other block. -/
theorem C24_put_other (B : ZMat) (A : Mat Int) (ii jj nbr nbc ii' jj' : ℕ)
    (hne : ¬ (ii = ii' ∧ jj = jj')) :
    getblock (putblock B A ii jj nbr nbc) ii' jj' nbr nbc = getblock B ii' jj' nbr nbc := by
  have key : ∀ c r, (getblock (putblock B A ii jj nbr nbc) ii' jj' nbr nbc).M c r =
      (getblock B ii' jj' nbr nbc).M c r := by
    intro c r
    rw [getblock_apply, getblock_apply]
    simp only [show (putblock B A ii jj nbr nbc).rows = B.rows from rfl,
      show (putblock B A ii jj nbr nbc).cols = B.cols from rfl]
    split
    · rename_i h
      rw [putblock_apply, if_neg]
      rintro ⟨a1, a2, a3, a4⟩
      simp only [blockBeg_eq, blockDim_eq] at *
      rcases Nat.eq_or_lt_of_le (Nat.le_refl 0) with _ | h0
      · by_cases hi : ii = ii'
        · have hj : jj ≠ jj' := fun hj => hne ⟨hi, hj⟩
          exact slice_disjoint B.cols nbc hj ⟨a3, a4⟩ ⟨by omega, by omega⟩
        · exact slice_disjoint B.rows nbr hi ⟨a1, a2⟩ ⟨by omega, by omega⟩
      · exact absurd h0 (by simp)
    · rfl
  have h2 := funext fun c => funext fun r => key c r
  show (⟨_, _, _⟩ : ZMat) = _
  unfold getblock at h2 ⊢
  simp only [ZMat.mk.injEq]
  exact ⟨rfl, rfl, h2⟩

/-- **C24.** The blocks tile the matrix: putting all the blocks of `A` (in any order, possibly several
times) into any matrix of the same dimensions rebuilds `A`. -/
theorem C24_rebuild (A B : ZMat) (hr : B.rows = A.rows) (hc : B.cols = A.cols) (nbr nbc : ℕ)
    (h1 : 0 < nbr) (h2 : 0 < nbc) (L : List (ℕ × ℕ))
    (hL : ∀ ii < nbr, ∀ jj < nbc, (ii, jj) ∈ L) :
    toMatrix A.rows A.cols (L.foldl (fun B p =>
      putblock B (getblock A p.1 p.2 nbr nbc).M p.1 p.2 nbr nbc) B).M = toMatrix A.rows A.cols A.M := by
  have key : ∀ (L : List (ℕ × ℕ)) (B : ZMat), B.rows = A.rows → B.cols = A.cols → ∀ r c,
      (L.foldl (fun B p => putblock B (getblock A p.1 p.2 nbr nbc).M p.1 p.2 nbr nbc) B).M c r =
        if (∃ p ∈ L, blockBeg A.rows nbr p.1 ≤ r ∧ r < blockBeg A.rows nbr p.1 + blockDim A.rows nbr p.1 ∧
          blockBeg A.cols nbc p.2 ≤ c ∧ c < blockBeg A.cols nbc p.2 + blockDim A.cols nbc p.2) then A.M c r
        else B.M c r := by
    intro L
    induction L with
    | nil => intro B _ _ r c; simp
    | cons p L ih =>
      intro B hr hc r c
      rw [List.foldl_cons, ih (putblock B _ p.1 p.2 nbr nbc) (by exact hr) (by exact hc),
        putblock_apply, hr, hc]
      by_cases e1 : ∃ p ∈ L, blockBeg A.rows nbr p.1 ≤ r ∧
          r < blockBeg A.rows nbr p.1 + blockDim A.rows nbr p.1 ∧
          blockBeg A.cols nbc p.2 ≤ c ∧ c < blockBeg A.cols nbc p.2 + blockDim A.cols nbc p.2
      · rw [if_pos e1, if_pos]
        obtain ⟨q, hq, h⟩ := e1
        exact ⟨q, List.mem_cons_of_mem _ hq, h⟩
      · rw [if_neg e1]
        split
        · rename_i h
          rw [if_pos ⟨p, List.mem_cons_self, h⟩, getblock_apply, if_pos (by omega)]
          congr 1 <;> omega
        · rename_i h
          rw [if_neg]
          rintro ⟨q, hq, h'⟩
          rcases List.mem_cons.mp hq with rfl | hq
          · exact h h'
          · exact e1 ⟨q, hq, h'⟩
  ext i j
  simp only [toMatrix, of_apply]
  rw [key L B hr hc, if_pos]
  obtain ⟨ii, a1, a2, a3⟩ := slice_cover A.rows nbr h1 i.2
  obtain ⟨jj, b1, b2, b3⟩ := slice_cover A.cols nbc h2 j.2
  refine ⟨(ii, jj), hL ii a1 jj b1, ?_⟩
  simp only [blockBeg_eq, blockDim_eq]
  exact ⟨a2, a3, b2, b3⟩

/-- **C24.** Block dimensions: they sum up to the dimension, differ by at most one, and no block
exceeds the matrix. -/
theorem C24_block_sizes (A : ZMat) (nbr nbc : ℕ) (h1 : 0 < nbr) :
    (∑ ii ∈ Finset.range nbr, (getblock A ii 0 nbr nbc).rows) = A.rows ∧
    ∀ ii < nbr, ∀ kk < nbr, (getblock A ii 0 nbr nbc).rows ≤ (getblock A kk 0 nbr nbc).rows + 1 := by
  have hd : ∀ ii, (getblock A ii 0 nbr nbc).rows = sliceLen A.rows nbr ii :=
    fun ii => blockDim_eq _ _ _
  refine ⟨?_, fun ii _ kk _ => ?_⟩
  · have : ∀ K, ∑ ii ∈ Finset.range K, (getblock A ii 0 nbr nbc).rows = sliceBeg A.rows nbr K := by
      intro K
      induction K with
      | zero => rw [sliceBeg_zero]; rfl
      | succ K ih => rw [Finset.sum_range_succ, ih, hd, sliceBeg_succ]
    rw [this, sliceBeg_S _ _ h1]
  · rw [hd, hd]; unfold sliceLen; split <;> split <;> omega

/-- Square blocks: entry of `getblockSq`. -/
theorem getblockSq_apply (A : ZMat) (ii jj nbb dd c r : ℕ) :
    (getblockSq A ii jj nbb dd).M c r = if r < A.rows / nbb ∧ c < A.rows / nbb then
      A.M (jj * (A.rows / nbb) + c + dd) (ii * (A.rows / nbb) + r + dd) else 0 := by
  have := forRange_fillCol (fun i j => A.M (jj * (A.rows / nbb) + j + dd)
    (ii * (A.rows / nbb) + i + dd)) 0 0 (A.rows / nbb) (A.rows / nbb) (fun _ _ => 0) c r
  simp only [zero_add, Nat.sub_zero, Nat.zero_le, true_and] at this
  exact this

theorem putblockSq_apply (A : ZMat) (B : Mat Int) (ii jj nbb dd c r : ℕ) :
    (putblockSq A B ii jj nbb dd).M c r =
      if ii * (A.rows / nbb) + dd ≤ r ∧ r < ii * (A.rows / nbb) + dd + A.rows / nbb ∧
        jj * (A.rows / nbb) + dd ≤ c ∧ c < jj * (A.rows / nbb) + dd + A.rows / nbb then
        B (c - (jj * (A.rows / nbb) + dd)) (r - (ii * (A.rows / nbb) + dd)) else A.M c r := by
  have := forRange_fillCol (fun i j => B j i) (ii * (A.rows / nbb) + dd) (jj * (A.rows / nbb) + dd)
    (A.rows / nbb) (A.rows / nbb) A.M c r
  rw [← this]
  unfold putblockSq
  simp only []
  have e : ∀ a b : ℕ, a + b + dd = a + dd + b := fun a b => by omega
  simp only [e]

/-- **C24, square blocks.** `get` after `put`, other blocks unchanged, and, when the number of blocks
does not divide the dimension, the trailing rows and columns are in no block. -/
theorem C24_square_blocks (A : ZMat) (B : Mat Int) (ii jj nbb dd : ℕ) :
    (∀ r < A.rows / nbb, ∀ c < A.rows / nbb,
      (getblockSq (putblockSq A B ii jj nbb dd) ii jj nbb dd).M c r = B c r) ∧
    (∀ ii' jj', ¬ (ii = ii' ∧ jj = jj') → ∀ r c,
      (getblockSq (putblockSq A B ii jj nbb dd) ii' jj' nbb dd).M c r =
        (getblockSq A ii' jj' nbb dd).M c r) ∧
    (ii < nbb → jj < nbb → ∀ r c, nbb * (A.rows / nbb) ≤ r ∨ nbb * (A.rows / nbb) ≤ c →
      (putblockSq A B ii jj nbb 0).M c r = A.M c r) := by
  refine ⟨fun r hr c hc => ?_, fun ii' jj' hne r c => ?_, fun hi hj r c hrc => ?_⟩
  · rw [getblockSq_apply]
    simp only [show (putblockSq A B ii jj nbb dd).rows = A.rows from rfl]
    rw [if_pos ⟨hr, hc⟩, putblockSq_apply, if_pos (by omega)]
    congr 1 <;> omega
  · rw [getblockSq_apply, getblockSq_apply]
    simp only [show (putblockSq A B ii jj nbb dd).rows = A.rows from rfl]
    split
    · rename_i h
      rw [putblockSq_apply, if_neg]
      rintro ⟨a1, a2, a3, a4⟩
      generalize A.rows / nbb = b at *
      have e1 : ii = ii' := by
        rcases Nat.lt_trichotomy ii ii' with hl | hl | hl
        · have := Nat.mul_le_mul_right b (Nat.succ_le_of_lt hl)
          rw [Nat.succ_mul] at this; omega
        · exact hl
        · have := Nat.mul_le_mul_right b (Nat.succ_le_of_lt hl)
          rw [Nat.succ_mul] at this; omega
      have e2 : jj = jj' := by
        rcases Nat.lt_trichotomy jj jj' with hl | hl | hl
        · have := Nat.mul_le_mul_right b (Nat.succ_le_of_lt hl)
          rw [Nat.succ_mul] at this; omega
        · exact hl
        · have := Nat.mul_le_mul_right b (Nat.succ_le_of_lt hl)
          rw [Nat.succ_mul] at this; omega
      exact hne ⟨e1, e2⟩
    · rfl
  · rw [putblockSq_apply, if_neg]
    rintro ⟨a1, a2, a3, a4⟩
    generalize A.rows / nbb = b at *
    have e1 := Nat.mul_le_mul_right b (Nat.succ_le_of_lt hi)
    have e2 := Nat.mul_le_mul_right b (Nat.succ_le_of_lt hj)
    rw [Nat.succ_mul] at e1 e2
    omega

/-- **C24, `setblock`.** With `b = n / nbb`, `n` the rows of `A`: the `b x b` block of `B` whose corner is row
`kk*b`, column `ll*b` receives the block of `A` whose corner is row `ii*b + diagdec`, column `jj*b + diagdec`;
no other entry changes, and reading the block back gives the block of `A`. -/
theorem C24_setblock (A B : ZMat) (kk ll ii jj nbb dd b : ℕ) (hb : b = A.rows / nbb) :
    (∀ r < b, ∀ c < b, (setblock B kk ll A ii jj nbb dd).M (ll * b + c) (kk * b + r) =
      A.M (jj * b + dd + c) (ii * b + dd + r)) ∧
    (∀ r c, r < kk * b ∨ kk * b + b ≤ r ∨ c < ll * b ∨ ll * b + b ≤ c →
      (setblock B kk ll A ii jj nbb dd).M c r = B.M c r) ∧
    (setblock B kk ll A ii jj nbb dd).rows = B.rows ∧ (setblock B kk ll A ii jj nbb dd).cols = B.cols ∧
    (B.rows = A.rows → ∀ r c, (getblockSq (setblock B kk ll A ii jj nbb dd) kk ll nbb 0).M c r =
      (getblockSq A ii jj nbb dd).M c r) := by
  have key : ∀ c r, (setblock B kk ll A ii jj nbb dd).M c r =
      if kk * b ≤ r ∧ r < kk * b + b ∧ ll * b ≤ c ∧ c < ll * b + b then
        A.M (jj * b + (c - ll * b) + dd) (ii * b + (r - kk * b) + dd) else B.M c r := by
    intro c r
    rw [← forRange_fillCol (fun i j => A.M (jj * b + j + dd) (ii * b + i + dd)) (kk * b) (ll * b) b b B.M c r]
    subst hb
    rfl
  have h1 : ∀ r < b, ∀ c < b, (setblock B kk ll A ii jj nbb dd).M (ll * b + c) (kk * b + r) =
      A.M (jj * b + dd + c) (ii * b + dd + r) := by
    intro r hr c hc
    rw [key, if_pos (by omega)]
    congr 1 <;> omega
  refine ⟨h1, fun r c h => by rw [key, if_neg (by omega)], rfl, rfl, fun hB r c => ?_⟩
  rw [getblockSq_apply, getblockSq_apply]
  simp only [show (setblock B kk ll A ii jj nbb dd).rows = B.rows from rfl, hB, ← hb, Nat.add_zero]
  split
  · rename_i h
    rw [h1 r h.1 c h.2]
    congr 1 <;> omega
  · rfl

/-- Block `(0,1)` of a 4 x 4 matrix of ones and zeros set from block `(1,0)` of the matrix `i + 10 j`. -/
example : (setblock ⟨4, 4, fun _ _ => 0⟩ 0 1 ⟨4, 4, fun c r => (r : ℤ) + 10 * c⟩ 1 0 2 0).M 3 1 = 13 := by
  decide

/-- 7 rows in 3 blocks: 3 + 2 + 2. -/
example : (List.range 3).map (fun i => (blockBeg 7 3 i, blockDim 7 3 i)) = [(0, 3), (3, 2), (5, 2)] := by
  decide

/-! ## C25, C26: parallel products -/

/-- **C25.** `pmatprod_in_int(C, U, S)` computes `C*U` for every number `S ≥ 1` of threads, every
number of rows, and every interleaving of the threads; entries out of range are untouched. -/
theorem C25_pmatprod_in_int (m n S : ℕ) (hn : 0 < n) (hS : 0 < S) (C U : Mat Int) (s : PState)
    (hs : s.sh 0 = C) (T : List (ℕ × PAct)) (hT : Interleave (threads S (pmatprodInIntProg m n S)) T) :
    toMatrix m n ((execAll (pact U) T s).sh 0) = toMatrix m n C * toMatrix n n U ∧
    ∀ c r, m ≤ r ∨ n ≤ c → (execAll (pact U) T s).sh 0 c r = C c r := by
  subst hs
  have key := tasks_all_schedules U S (pmatprodInIntProg m n S)
    (fun l c r => sliceBeg m S l ≤ r ∧ r < sliceBeg m S l + sliceLen m S l)
    (fun l q c r => q = 0 ∧ (sliceBeg m S l ≤ r ∧ r < sliceBeg m S l + sliceLen m S l) ∧ c < n)
    (fun l sh _ c r => ∑ k ∈ Finset.range n,
      sh 0 k (r - sliceBeg m S l + sliceBeg m S l) * U c k)
    (fun l hl => by
      refine prodProg_task U l (sliceLen m S l) n n 0 hn
        (fun i j k => (i + sliceBeg m S l, k)) (fun i j k => (k, j))
        (fun i j => (i + sliceBeg m S l, j)) (fun r c => (r - sliceBeg m S l, c)) ?_ _ _ ?_ ?_
      · intro i _ j _; simp
      · intro i hi j _ k _; simp only []; omega
      · intro p c r
        constructor
        · rintro ⟨rfl, ⟨h1, h2⟩, h3⟩
          exact ⟨rfl, r - sliceBeg m S l, by omega, c, h3, by simp; omega⟩
        · rintro ⟨rfl, i, hi, j, hj, he⟩
          simp only [Prod.mk.injEq] at he
          exact ⟨rfl, by omega, by omega⟩)
    (fun l _ k _ hlk q c r ⟨h1, h2, h3⟩ =>
      ⟨fun h => slice_disjoint m S hlk h2 h.2.1, fun _ h => slice_disjoint m S hlk h2 h⟩)
    T hT s
  constructor
  · ext i j
    rw [toMatrix_mul_apply]
    obtain ⟨l, hl, h1⟩ := slice_cover m S hS i.2
    have := key.1 l hl 0 j i ⟨rfl, h1, j.2⟩
    simp only [toMatrix, of_apply]
    rw [this]
    refine Finset.sum_congr rfl fun k _ => ?_
    rw [Nat.sub_add_cancel h1.1]
  · intro c r hcr
    refine key.2 0 c r fun l hl h => ?_
    have h1 := sliceBeg_mono m S (l := l + 1) (k := S) hl
    rw [sliceBeg_succ, sliceBeg_S _ _ hS] at h1
    omega

/-- **C25.** `tpmatprod_in_int(C_in, U_in, S)`, sliced by columns through transposes: same result. -/
theorem C25_tpmatprod_in_int (m n S : ℕ) (hn : 0 < n) (hS : 0 < S) (C U X Y : Mat Int) (s : PState)
    (h1 : s.sh 1 = C) (h0 : s.sh 0 = transposeTo m n C X) (T : List (ℕ × PAct))
    (hT : Interleave (threads S (tpmatprodInIntProg m n S)) T) :
    toMatrix m n ((execAll (pact (transposeTo n n U Y)) T s).sh 1) =
      toMatrix m n C * toMatrix n n U := by
  subst h1
  have key := tasks_all_schedules (transposeTo n n U Y) S (tpmatprodInIntProg m n S)
    (fun l c r => True)
    (fun l q c r => q = 1 ∧ (sliceBeg n S l ≤ c ∧ c < sliceBeg n S l + sliceLen n S l) ∧ r < m)
    (fun l sh _ c r => ∑ k ∈ Finset.range n,
      sh 0 r k * (transposeTo n n U Y) k (c - sliceBeg n S l + sliceBeg n S l))
    (fun l hl => by
      refine prodProg_task (transposeTo n n U Y) l (sliceLen n S l) m n 1 hn
        (fun i j k => (k, j)) (fun i j k => (i + sliceBeg n S l, k))
        (fun i j => (j, i + sliceBeg n S l)) (fun r c => (c - sliceBeg n S l, r)) ?_ _ _ ?_ ?_
      · intro i _ j _; simp
      · intro i hi j _ k _; trivial
      · intro p c r
        constructor
        · rintro ⟨rfl, ⟨h1, h2⟩, h3⟩
          exact ⟨rfl, c - sliceBeg n S l, by omega, r, h3, by simp; omega⟩
        · rintro ⟨rfl, i, hi, j, hj, he⟩
          simp only [Prod.mk.injEq] at he
          exact ⟨rfl, by omega, by omega⟩)
    (fun l _ k _ hlk q c r ⟨h1, h2, h3⟩ =>
      ⟨fun h => slice_disjoint n S hlk h2 h.2.1, fun h => by omega⟩)
    T hT s
  ext i j
  rw [toMatrix_mul_apply]
  obtain ⟨l, hl, h1⟩ := slice_cover n S hS j.2
  have := key.1 l hl 1 j i ⟨rfl, h1, i.2⟩
  simp only [toMatrix, of_apply]
  rw [this, h0]
  refine Finset.sum_congr rfl fun k hk => ?_
  have hk' : k < n := Finset.mem_range.mp hk
  rw [Nat.sub_add_cancel h1.1, transposeTo_apply, if_pos ⟨i.2, hk'⟩, transposeTo_apply,
    if_pos ⟨hk', j.2⟩]

/-- **C26.** What `pmatprod_in(C, U, S)` computes, for every interleaving: the first `S * (m/S)` rows
are multiplied by `U`, the remaining `m mod S` rows are *not*. -/
theorem C26_pmatprod_in (m n S : ℕ) (hn : 0 < n) (C U : Mat Int) (s : PState)
    (hs : s.sh 0 = C) (T : List (ℕ × PAct))
    (hT : Interleave (threads S (pmatprodInProg m n S U)) T) (r c : ℕ) (hc : c < n) :
    (execAll (pact U) T s).sh 0 c r =
      if r < S * (m / S) then ∑ k ∈ Finset.range n, C k r * U c k else C c r := by
  subst hs
  have hdis : ∀ l k r, l ≠ k → l * (m / S) ≤ r ∧ r < l * (m / S) + m / S →
      ¬ (k * (m / S) ≤ r ∧ r < k * (m / S) + m / S) := by
    intro l k r hlk ⟨h1, h2⟩ ⟨h3, h4⟩
    rcases Nat.lt_or_ge l k with hl | hl
    · have := Nat.mul_le_mul_right (m / S) (Nat.succ_le_of_lt hl)
      rw [Nat.succ_mul] at this; omega
    · have := Nat.mul_le_mul_right (m / S) (Nat.succ_le_of_lt (show k < l by omega))
      rw [Nat.succ_mul] at this; omega
  have key := tasks_all_schedules U S (pmatprodInProg m n S U) _ _ _
    (fun l hl => blockProg_task U l (l * (m / S)) 0 (m / S) n (matprodIn (m / S) n U) 0
      (l * (m / S)) 0 (m / S) n)
    (fun l _ k _ hlk q c r ⟨h1, h2, h3, h4, h5⟩ =>
      ⟨fun h => hdis l k r hlk ⟨h2, h3⟩ ⟨h.2.1, h.2.2.1⟩,
       fun _ h => hdis l k r hlk ⟨h2, h3⟩ ⟨h.1, h.2.1⟩⟩)
    T hT s
  by_cases hr : r < S * (m / S)
  · rw [if_pos hr]
    have hb : 0 < m / S := Nat.pos_of_ne_zero fun h => by rw [h] at hr; omega
    have hl : r / (m / S) < S := (Nat.div_lt_iff_lt_mul hb).2 hr
    have hm := Nat.div_add_mod r (m / S)
    have hm2 := Nat.mod_lt r hb
    rw [Nat.mul_comm] at hm
    rw [key.1 (r / (m / S)) hl 0 c r ⟨rfl, by omega, by omega, by omega, by omega⟩]
    rw [matprodIn_apply _ _ hn, if_pos (by omega)]
    refine Finset.sum_congr rfl fun k hk => ?_
    rw [if_pos ⟨by omega, Finset.mem_range.mp hk⟩]
    congr 2 <;> omega
  · rw [if_neg hr]
    refine key.2 0 c r fun l hl h => ?_
    have := Nat.mul_le_mul_right (m / S) (Nat.succ_le_of_lt hl)
    rw [Nat.succ_mul] at this
    omega

/-- **C26.** So it is the product when the number of threads divides the number of rows ... -/
theorem C26_pmatprod_in_divides (m n S : ℕ) (hn : 0 < n) (hd : S ∣ m) (C U : Mat Int)
    (s : PState) (hs : s.sh 0 = C) (T : List (ℕ × PAct))
    (hT : Interleave (threads S (pmatprodInProg m n S U)) T) :
    toMatrix m n ((execAll (pact U) T s).sh 0) = toMatrix m n C * toMatrix n n U := by
  ext i j
  rw [toMatrix_mul_apply]
  simp only [toMatrix, of_apply]
  rw [C26_pmatprod_in m n S hn C U s hs T hT i j j.2, if_pos]
  rw [Nat.mul_div_cancel' hd]; exact i.2

/-- ... and otherwise it is wrong as soon as the transformation changes the last row, whatever the
schedule. -/
theorem C26_pmatprod_in_drops_rows (m n S : ℕ) (hn : 0 < n) (hd : ¬ S ∣ m) (C U : Mat Int)
    (j : ℕ) (hj : j < n) (hrow : ∑ k ∈ Finset.range n, C k (m - 1) * U j k ≠ C j (m - 1))
    (s : PState) (hs : s.sh 0 = C) (T : List (ℕ × PAct))
    (hT : Interleave (threads S (pmatprodInProg m n S U)) T) :
    toMatrix m n ((execAll (pact U) T s).sh 0) ≠ toMatrix m n C * toMatrix n n U := by
  intro h
  have hlt : S * (m / S) < m := by
    have h1 := Nat.div_add_mod m S
    have h2 : m % S ≠ 0 := fun h => hd (Nat.dvd_of_mod_eq_zero h)
    omega
  have h2 := congrFun (congrFun h ⟨m - 1, by omega⟩) ⟨j, hj⟩
  rw [toMatrix_mul_apply] at h2
  simp only [toMatrix, of_apply] at h2
  rw [C26_pmatprod_in m n S hn C U s hs T hT (m - 1) j hj, if_neg (by omega)] at h2
  exact hrow h2.symm

/-- 3 rows on 2 threads, multiplication by 2: the last row is not multiplied. -/
example : ¬ (2 : ℕ) ∣ 3 ∧
    ∑ k ∈ Finset.range 1, (ofCols [[1, 2, 3]]) k (3 - 1) * (ofCols [[2]]) 0 k ≠ ofCols [[1, 2, 3]] 0 (3 - 1) := by
  decide

theorem sum_slices (n S : ℕ) (f : ℕ → ℤ) (K : ℕ) :
    ∑ J ∈ Finset.range K, ∑ k ∈ Finset.range (sliceLen n S J), f (sliceBeg n S J + k) =
      ∑ k ∈ Finset.range (sliceBeg n S K), f k := by
  induction K with
  | zero => rw [sliceBeg_zero]; rfl
  | succ K ih => rw [Finset.sum_range_succ, ih, sliceBeg_succ, Finset.sum_range_add]

theorem grid_index (S q k : ℕ) (hS : 0 < S) (hk : k < S * q) :
    k / S < q ∧ k % S < S ∧ k = k / S * S + k % S :=
  ⟨(Nat.div_lt_iff_lt_mul hS).2 (by rwa [Nat.mul_comm]), Nat.mod_lt _ hS, by
    have := Nat.div_add_mod k S; rw [Nat.mul_comm] at this; exact this.symm⟩

/-- **C25.** `pmaprod_diag_even(C, U, S, t)` with `t = S*q`, `q ≥ 1`: for `U` block diagonal (blocks
of the column partition in `S`), it computes `C*U` for every interleaving. -/
theorem C25_pmaprod_diag (m n S q : ℕ) (hS : 0 < S) (hq : 0 < q) (C U : Mat Int)
    (hU : ∀ J < S, ∀ k < n, ∀ c < n, (sliceBeg n S J ≤ c ∧ c < sliceBeg n S J + sliceLen n S J) →
      ¬ (sliceBeg n S J ≤ k ∧ k < sliceBeg n S J + sliceLen n S J) → U c k = 0)
    (s : PState) (hs : s.sh 0 = C) (T : List (ℕ × PAct))
    (hT : Interleave (threads (S * q) (pmaprodDiagProg m n S (S * q) U)) T) :
    toMatrix m n ((execAll (pact U) T s).sh 0) = toMatrix m n C * toMatrix n n U := by
  subst hs
  have hdiv : S * q / S = q := Nat.mul_div_cancel_left q hS
  have key := tasks_all_schedules U (S * q) (pmaprodDiagProg m n S (S * q) U) _ _ _
    (fun k hk => blockProg_task U k _ _ _ _ _ 0 _ _ _ _)
    (by
      intro l hl k hk hlk p c r ⟨h1, h2, h3, h4, h5⟩
      have : ¬ ((sliceBeg m q (k / S) ≤ r ∧ r < sliceBeg m q (k / S) + sliceLen m q (k / S)) ∧
          (sliceBeg n S (k % S) ≤ c ∧ c < sliceBeg n S (k % S) + sliceLen n S (k % S))) := by
        rintro ⟨g1, g2⟩
        simp only [blockBeg_eq, blockDim_eq, hdiv] at h2 h3 h4 h5
        have a := grid_index S q l hS hl
        have b := grid_index S q k hS hk
        by_cases e1 : l / S = k / S
        · by_cases e2 : l % S = k % S
          · rw [a.2.2, b.2.2, e1, e2] at hlk; exact hlk rfl
          · exact slice_disjoint n S e2 ⟨h4, h5⟩ g2
        · exact slice_disjoint m q e1 ⟨h2, h3⟩ g1
      simp only [blockBeg_eq, blockDim_eq, hdiv]
      exact ⟨fun h => this ⟨⟨h.2.1, h.2.2.1⟩, ⟨h.2.2.2.1, h.2.2.2.2⟩⟩,
        fun _ h => this ⟨⟨h.1, h.2.1⟩, ⟨h.2.2.1, h.2.2.2⟩⟩⟩)
    T hT s
  ext i j
  rw [toMatrix_mul_apply]
  simp only [toMatrix, of_apply]
  obtain ⟨I, hI, hI2⟩ := slice_cover m q hq i.2
  obtain ⟨J, hJ, hJ2⟩ := slice_cover n S hS j.2
  have hk : I * S + J < S * q := by
    calc I * S + J < I * S + S := by omega
      _ = (I + 1) * S := by ring
      _ ≤ q * S := Nat.mul_le_mul_right _ hI
      _ = S * q := Nat.mul_comm _ _
  have e1 : (I * S + J) / S = I := by
    rw [Nat.add_comm, Nat.add_mul_div_right _ _ hS, Nat.div_eq_of_lt hJ, Nat.zero_add]
  have e2 : (I * S + J) % S = J := by
    rw [Nat.add_comm, Nat.add_mul_mod_self_right, Nat.mod_eq_of_lt hJ]
  have hv := key.1 (I * S + J) hk 0 j i (by
    simp only [blockBeg_eq, blockDim_eq, hdiv, e1, e2]
    exact ⟨trivial, hI2.1, hI2.2, hJ2.1, hJ2.2⟩)
  rw [hv]
  simp only [blockBeg_eq, blockDim_eq, hdiv, e1, e2, getblock]
  have hlen : 0 < sliceLen n S J := by omega
  rw [matprodInRect_apply _ _ _ hlen, if_pos (by omega)]
  -- the sum over the block is the full sum
  have hsub : ∑ k ∈ Finset.range n, s.sh 0 k i * U j k =
      ∑ J' ∈ Finset.range S, ∑ k ∈ Finset.range (sliceLen n S J'),
        s.sh 0 (sliceBeg n S J' + k) i * U j (sliceBeg n S J' + k) := by
    rw [sum_slices n S (fun k => s.sh 0 k i * U j k), sliceBeg_S _ _ hS]
  rw [hsub]
  refine Eq.trans ?_ (Finset.sum_eq_single J ?_ ?_).symm
  · refine Finset.sum_congr rfl fun k hk => ?_
    have hk' := Finset.mem_range.mp hk
    have hin : sliceBeg n S J + k < n := by
      have h1 := sliceBeg_mono n S (l := J + 1) (k := S) hJ
      rw [sliceBeg_succ, sliceBeg_S _ _ hS] at h1; omega
    rw [if_pos ⟨by omega, hk'⟩, show sliceBeg m q I + (i - sliceBeg m q I) = i by omega]
    congr 1
    have := getblock_apply ⟨n, n, U⟩ J J S S (j - sliceBeg n S J) k
    simp only [getblock, blockBeg_eq, blockDim_eq] at this
    rw [this, if_pos ⟨hk', by omega⟩, show sliceBeg n S J + (j - sliceBeg n S J) = j by omega]
  · intro J' hJ' hne
    refine Finset.sum_eq_zero fun k hk => ?_
    have hk' := Finset.mem_range.mp hk
    have hin : sliceBeg n S J' + k < n := by
      have h1 := sliceBeg_mono n S (l := J' + 1) (k := S) (Finset.mem_range.mp hJ')
      rw [sliceBeg_succ, sliceBeg_S _ _ hS] at h1; omega
    rw [hU J hJ _ hin j j.2 hJ2 (fun h => slice_disjoint n S hne
      (r := sliceBeg n S J' + k) ⟨by omega, by omega⟩ h), mul_zero]
  · intro h; exact absurd (Finset.mem_range.mpr hJ) h

theorem fillAdd (m n : ℕ) (v : ℕ → ℕ → ℤ) (C : Mat Int) (c r : ℕ) :
    forRange 0 m (fun i C => forRange 0 n (fun j C => setEntry C i j (C j i + v i j)) C) C c r =
      if r < m ∧ c < n then C c r + v r c else C c r := by
  have hrow : ∀ (i : ℕ) (T : Mat Int) (c r : ℕ),
      forRange 0 n (fun j C => setEntry C i j (C j i + v i j)) T c r =
        if r = i ∧ c < n then T c r + v r c else T c r := by
    intro i T
    have := forRange_ind (fun n (X : Mat Int) => ∀ c r, X c r =
      if r = i ∧ c < n then T c r + v r c else T c r) (Nat.zero_le n)
      (fun j C => setEntry C i j (C j i + v i j)) T (fun c r => by rw [if_neg (by omega)]) (by
        intro j X _ _ h c r
        rw [setEntry_apply]
        by_cases hc : c = j ∧ r = i
        · rw [if_pos hc, h, if_neg (by omega), if_pos (by omega), hc.1, hc.2]
        · rw [if_neg hc, h]
          by_cases h4 : r = i ∧ c < j
          · rw [if_pos h4, if_pos (by omega)]
          · rw [if_neg h4, if_neg (by omega)])
    exact this
  have := forRange_ind (fun m (X : Mat Int) => ∀ c r, X c r =
      if r < m ∧ c < n then C c r + v r c else C c r) (Nat.zero_le m)
      (fun i C => forRange 0 n (fun j C => setEntry C i j (C j i + v i j)) C) C
      (fun c r => by rw [if_neg (by omega)]) (by
        intro i X _ _ h c r
        rw [hrow]
        by_cases hc : r = i ∧ c < n
        · rw [if_pos hc, h, if_neg (by omega), if_pos (by omega)]
        · rw [if_neg hc, h]
          by_cases h4 : r < i ∧ c < n
          · rw [if_pos h4, if_pos (by omega)]
          · rw [if_neg h4, if_neg (by omega)])
  exact this c r

theorem pmatprodSum_apply (m n S : ℕ) (hS : 0 < S) (L C : Mat Int) (r : ℕ) (hr : r < m) (c : ℕ)
    (hc : c < n) : pmatprodSum m n S L C c r = ∑ k ∈ Finset.range S, L (c + k * n) r := by
  unfold pmatprodSum
  refine forRange_ind (fun S (X : Mat Int) => X c r = ∑ k ∈ Finset.range S, L (c + k * n) r) hS _ _ ?_ ?_
  · rw [setMat_apply, if_pos ⟨hr, hc⟩]; simp
  · intro k X _ _ h
    rw [fillAdd m n (fun i j => L (j + k * n) i), if_pos ⟨hr, hc⟩, h, Finset.sum_range_succ]

/-- **C25.** `pmatprod(C, U, S, t)` with `t = S*q`, `q ≥ 1`: after the parallel products into the
matrix `L` (any interleaving) and the final sum, `C` is `C*U`. -/
theorem C25_pmatprod (m n S q : ℕ) (hS : 0 < S) (hSn : S ≤ n) (hq : 0 < q) (C U : Mat Int)
    (s : PState) (hs : s.sh 0 = C) (T : List (ℕ × PAct))
    (hT : Interleave (threads (S * q) (pmatprodProg m n S (S * q) U)) T) :
    toMatrix m n (pmatprodSum m n S ((execAll (pact U) T s).sh 1) ((execAll (pact U) T s).sh 0)) =
      toMatrix m n C * toMatrix n n U := by
  subst hs
  have hdiv : S * q / S = q := Nat.mul_div_cancel_left q hS
  have hb : ∀ J, sliceBeg (n * S) S J = J * n := by
    intro J
    unfold sliceBeg
    rw [Nat.mul_div_cancel _ hS, Nat.mul_mod_left]
    split
    · omega
    · rw [Nat.mul_comm]; rfl
  have hd : ∀ J, sliceLen (n * S) S J = n := by
    intro J
    unfold sliceLen
    rw [Nat.mul_div_cancel _ hS, Nat.mul_mod_left]
    split
    · omega
    · rfl
  have key := tasks_all_schedules U (S * q) (pmatprodProg m n S (S * q) U) _ _ _
    (fun k hk => blockProg_task U k _ _ _ _ _ 1 _ _ _ _)
    (by
      intro l hl k hk hlk p c r ⟨h1, h2, h3, h4, h5⟩
      refine ⟨?_, fun h => by omega⟩
      rintro ⟨-, g1, g2, g3, g4⟩
      simp only [blockBeg_eq, blockDim_eq, hdiv] at h2 h3 h4 h5 g1 g2 g3 g4
      have a := grid_index S q l hS hl
      have b := grid_index S q k hS hk
      by_cases e1 : l / S = k / S
      · by_cases e2 : l % S = k % S
        · rw [a.2.2, b.2.2, e1, e2] at hlk; exact hlk rfl
        · exact slice_disjoint (n * S) S e2 ⟨h4, h5⟩ ⟨g3, g4⟩
      · exact slice_disjoint m q e1 ⟨h2, h3⟩ ⟨g1, g2⟩)
    T hT s
  -- content of L
  have hLv : ∀ J < S, ∀ i < m, ∀ j < n, (execAll (pact U) T s).sh 1 (j + J * n) i =
      ∑ k ∈ Finset.range (sliceLen n S J), s.sh 0 (sliceBeg n S J + k) i * U j (sliceBeg n S J + k) := by
    intro J hJ i hi j hj
    obtain ⟨I, hI, hI2⟩ := slice_cover m q hq hi
    have hk : I * S + J < S * q := by
      calc I * S + J < I * S + S := by omega
        _ = (I + 1) * S := by ring
        _ ≤ q * S := Nat.mul_le_mul_right _ hI
        _ = S * q := Nat.mul_comm _ _
    have e1 : (I * S + J) / S = I := by
      rw [Nat.add_comm, Nat.add_mul_div_right _ _ hS, Nat.div_eq_of_lt hJ, Nat.zero_add]
    have e2 : (I * S + J) % S = J := by
      rw [Nat.add_comm, Nat.add_mul_mod_self_right, Nat.mod_eq_of_lt hJ]
    have hv := key.1 (I * S + J) hk 1 (j + J * n) i (by
      simp only [blockBeg_eq, blockDim_eq, hdiv, e1, e2, hb, hd]
      exact ⟨trivial, hI2.1, hI2.2, by omega, by omega⟩)
    rw [hv]
    simp only [blockBeg_eq, blockDim_eq, hdiv, e1, e2, getblock, hb]
    have h10 : sliceBeg n 1 0 = 0 := sliceBeg_zero _ _
    have h11 : sliceLen n 1 0 = n := by unfold sliceLen; simp [Nat.mod_one]
    have hlen : 0 < sliceLen n S J := by
      unfold sliceLen
      have : 0 < n / S := Nat.div_pos hSn hS
      omega
    rw [matprodInRect_apply _ _ _ hlen, if_pos (by omega)]
    refine Finset.sum_congr rfl fun k hk => ?_
    have hk' := Finset.mem_range.mp hk
    rw [if_pos ⟨by omega, hk'⟩, show sliceBeg m q I + (i - sliceBeg m q I) = i by omega]
    congr 1
    have := getblock_apply ⟨n, n, U⟩ J 0 S 1 (j + J * n - J * n) k
    simp only [getblock, blockBeg_eq, blockDim_eq, h10, h11] at this
    rw [h10, h11, this, if_pos ⟨hk', by omega⟩]
    congr 1; omega
  ext i j
  rw [toMatrix_mul_apply]
  simp only [toMatrix, of_apply]
  rw [pmatprodSum_apply m n S hS _ _ i i.2 j j.2]
  rw [Finset.sum_congr rfl fun J hJ => hLv J (Finset.mem_range.mp hJ) i i.2 j j.2,
    sum_slices n S (fun k => s.sh 0 k i * U j k), sliceBeg_S _ _ hS]

/-- Three rows and two columns on two threads, identity: concrete programs (they interleave). -/
example : (threads 2 (pmatprodInIntProg 3 2 2)).map List.length = [1 + 8 + 4, 1 + 4 + 2] := by decide

/-- Running the threads one after the other is a schedule. -/
theorem Interleave_flatten {α : Type} (Ps : List (List α)) : Interleave Ps Ps.flatten := by
  have key : ∀ (L : List (List α)) (hL : ∀ P ∈ L, P = []) (Ps : List (List α)),
      Interleave (L ++ Ps) Ps.flatten := by
    intro L hL Ps
    induction Ps generalizing L with
    | nil => exact .done _ (by simpa using hL)
    | cons P Ps ih =>
      induction P with
      | nil =>
        have := ih (L ++ [[]]) (by
          intro P hP; rcases List.mem_append.mp hP with h | h
          · exact hL P h
          · simpa using h)
        simpa using this
      | cons a P ihP => exact .step L Ps a P _ ihP
  simpa using key [] (by simp) Ps

/-! ## C45: `matcmp` -/

/-- **C45.** `matcmp(B1, B2, c, r)` returns 0 or 1, and 1 exactly when each of the `r` rows of `B2` is
the row of `B1`, or its opposite, the latter only for a nonzero first entry (DEFECT: the sign is
taken from the first entry, so that opposite rows starting with 0 are declared different). -/
theorem C45_matcmp (B1 B2 : Mat Int) (c r : ℕ) (hc : 0 < c) :
    (matcmp B1 B2 c r = 0 ∨ matcmp B1 B2 c r = 1) ∧
    (matcmp B1 B2 c r = 1 ↔ ∀ i < r, (∀ j < c, B2 j i = B1 j i) ∨
      ((∀ j < c, B2 j i = - B1 j i) ∧ B1 0 i ≠ 0)) := by
  refine forRange_ind (fun r (t : Int) => (t = 0 ∨ t = 1) ∧ (t = 1 ↔ ∀ i < r,
    (∀ j < c, B2 j i = B1 j i) ∨ ((∀ j < c, B2 j i = - B1 j i) ∧ B1 0 i ≠ 0)))
    (Nat.zero_le r) _ _ ⟨Or.inr rfl, by simp⟩ ?_
  rintro i t _ _ ⟨h1, h2⟩
  have hsplit : (∀ k < i + 1, (∀ j < c, B2 j k = B1 j k) ∨ ((∀ j < c, B2 j k = - B1 j k) ∧ B1 0 k ≠ 0)) ↔
      (∀ k < i, (∀ j < c, B2 j k = B1 j k) ∨ ((∀ j < c, B2 j k = - B1 j k) ∧ B1 0 k ≠ 0)) ∧
      ((∀ j < c, B2 j i = B1 j i) ∨ ((∀ j < c, B2 j i = - B1 j i) ∧ B1 0 i ≠ 0)) :=
    ⟨fun h => ⟨fun k hk => h k (by omega), h i (by omega)⟩, fun h k hk => by
      rcases Nat.lt_succ_iff_lt_or_eq.mp hk with h' | rfl
      · exact h.1 k h'
      · exact h.2⟩
  rw [hsplit, ← h2]
  have ht : ∀ p : Prop, [Decidable p] → ((if p then 0 else t) = 0 ∨ (if p then 0 else t) = 1) := by
    intro p _; split
    · exact Or.inl rfl
    · exact h1
  have hv : ∀ p : Prop, [Decidable p] → ((if p then 0 else t) = 1 ↔ t = 1 ∧ ¬ p) := by
    intro p _; split <;> simp_all
  have hall : ∀ Q : ℕ → Prop, (∀ j < c, Q j) ↔ Q 0 ∧ ∀ j, 1 ≤ j → j < c → Q j :=
    fun Q => ⟨fun h => ⟨h 0 hc, fun j _ hj => h j hj⟩, fun h j hj => by
      rcases Nat.eq_zero_or_pos j with rfl | hp
      · exact h.1
      · exact h.2 j hp hj⟩
  have eqCase : ((B1 0 i < 0 ∧ B2 0 i < 0) ∨ (¬ B1 0 i < 0 ∧ ¬ B2 0 i < 0)) → _ :=
    fun hs => forRange_test (fun j => B1 j i ≠ B2 j i) 1 c hc
      (if ((B1 0 i).natAbs : Int) ≠ ((B2 0 i).natAbs : Int) then 0 else t) (ht _)
  have negCase : ((B1 0 i < 0 ∧ ¬ B2 0 i < 0) ∨ (¬ B1 0 i < 0 ∧ B2 0 i < 0)) → _ :=
    fun hs => forRange_test (fun j => B1 j i * (-1) ≠ B2 j i) 1 c hc
      (if ((B1 0 i).natAbs : Int) ≠ ((B2 0 i).natAbs : Int) then 0 else t) (ht _)
  have eqEq : ((B1 0 i < 0 ∧ B2 0 i < 0) ∨ (¬ B1 0 i < 0 ∧ ¬ B2 0 i < 0)) →
      (((if ((B1 0 i).natAbs : Int) ≠ ((B2 0 i).natAbs : Int) then 0 else t) = 1 ∧
        ∀ j, 1 ≤ j → j < c → ¬ B1 j i ≠ B2 j i) ↔
      t = 1 ∧ ((∀ j < c, B2 j i = B1 j i) ∨ ((∀ j < c, B2 j i = - B1 j i) ∧ B1 0 i ≠ 0))) := by
    intro hs
    rw [hv, hall (fun j => B2 j i = B1 j i), hall (fun j => B2 j i = - B1 j i)]
    simp only [not_not, ne_eq]
    constructor
    · rintro ⟨⟨a1, a2⟩, a3⟩
      exact ⟨a1, Or.inl ⟨by omega, fun j b1 b2 => (a3 j b1 b2).symm⟩⟩
    · rintro ⟨a1, a2 | ⟨a2, a3⟩⟩
      · exact ⟨⟨a1, by omega⟩, fun j b1 b2 => (a2.2 j b1 b2).symm⟩
      · omega
  have eqNeg : ((B1 0 i < 0 ∧ ¬ B2 0 i < 0) ∨ (¬ B1 0 i < 0 ∧ B2 0 i < 0)) →
      (((if ((B1 0 i).natAbs : Int) ≠ ((B2 0 i).natAbs : Int) then 0 else t) = 1 ∧
        ∀ j, 1 ≤ j → j < c → ¬ B1 j i * (-1) ≠ B2 j i) ↔
      t = 1 ∧ ((∀ j < c, B2 j i = B1 j i) ∨ ((∀ j < c, B2 j i = - B1 j i) ∧ B1 0 i ≠ 0))) := by
    intro hs
    rw [hv, hall (fun j => B2 j i = B1 j i), hall (fun j => B2 j i = - B1 j i)]
    simp only [not_not, ne_eq]
    constructor
    · rintro ⟨⟨a1, a2⟩, a3⟩
      exact ⟨a1, Or.inr ⟨⟨by omega, fun j b1 b2 => by have := a3 j b1 b2; omega⟩, by omega⟩⟩
    · rintro ⟨a1, a2 | ⟨a2, a3⟩⟩
      · omega
      · exact ⟨⟨a1, by omega⟩, fun j b1 b2 => by have := a2.2 j b1 b2; omega⟩
  have n1 : (((B1 0 i).natAbs : Int) ≠ B1 0 i) = (B1 0 i < 0) := by
    apply propext; omega
  have n2 : (((B1 0 i).natAbs : Int) ≠ B2 0 i) = (B2 0 i < 0 ∨
      ((B1 0 i).natAbs : Int) ≠ ((B2 0 i).natAbs : Int)) := by
    apply propext; omega
  by_cases habs : ((B1 0 i).natAbs : Int) ≠ ((B2 0 i).natAbs : Int)
  · -- test is 0 already, whatever the sign
    have hno : ¬ ((∀ j < c, B2 j i = B1 j i) ∨ ((∀ j < c, B2 j i = - B1 j i) ∧ B1 0 i ≠ 0)) := by
      rintro (h | ⟨h, -⟩) <;> have := h 0 hc <;> omega
    obtain ⟨e1, e2⟩ := forRange_test (fun j => B1 j i ≠ B2 j i) 1 c hc 0 (Or.inl rfl)
    obtain ⟨f1, f2⟩ := forRange_test (fun j => B1 j i * (-1) ≠ B2 j i) 1 c hc 0 (Or.inl rfl)
    simp only [if_pos habs]
    have E := And.intro e1 (e2.trans (c := t = 1 ∧ ((∀ j < c, B2 j i = B1 j i) ∨
      ((∀ j < c, B2 j i = - B1 j i) ∧ B1 0 i ≠ 0)))
      ⟨fun h => absurd h.1 (by decide), fun h => absurd h.2 hno⟩)
    have G := And.intro f1 (f2.trans (c := t = 1 ∧ ((∀ j < c, B2 j i = B1 j i) ∨
      ((∀ j < c, B2 j i = - B1 j i) ∧ B1 0 i ≠ 0)))
      ⟨fun h => absurd h.1 (by decide), fun h => absurd h.2 hno⟩)
    repeat' split
    all_goals first | exact E | exact G
  · have n2' : (((B1 0 i).natAbs : Int) ≠ B2 0 i) = (B2 0 i < 0) := by
      apply propext; omega
    simp only [n1, n2']
    by_cases s1 : B1 0 i < 0 <;> by_cases s2 : B2 0 i < 0
    · have hs : (B1 0 i < 0 ∧ B2 0 i < 0) ∨ (¬ B1 0 i < 0 ∧ ¬ B2 0 i < 0) := Or.inl ⟨s1, s2⟩
      simp only [if_pos s1, if_pos s2]
      rw [if_pos (by decide)]
      exact ⟨(eqCase hs).1, (eqCase hs).2.trans (eqEq hs)⟩
    · have hs : (B1 0 i < 0 ∧ ¬ B2 0 i < 0) ∨ (¬ B1 0 i < 0 ∧ B2 0 i < 0) := Or.inl ⟨s1, s2⟩
      simp only [if_pos s1, if_neg s2]
      rw [if_neg (by decide)]
      exact ⟨(negCase hs).1, (negCase hs).2.trans (eqNeg hs)⟩
    · have hs : (B1 0 i < 0 ∧ ¬ B2 0 i < 0) ∨ (¬ B1 0 i < 0 ∧ B2 0 i < 0) := Or.inr ⟨s1, s2⟩
      simp only [if_neg s1, if_pos s2]
      rw [if_neg (by decide)]
      exact ⟨(negCase hs).1, (negCase hs).2.trans (eqNeg hs)⟩
    · have hs : (B1 0 i < 0 ∧ B2 0 i < 0) ∨ (¬ B1 0 i < 0 ∧ ¬ B2 0 i < 0) := Or.inr ⟨s1, s2⟩
      simp only [if_neg s1, if_neg s2]
      rw [if_pos trivial]
      exact ⟨(eqCase hs).1, (eqCase hs).2.trans (eqEq hs)⟩

/-- Opposite columns: accepted; opposite rows starting by 0: rejected. -/
example : matcmp (ofCols [[1, -2], [3, 4]]) (ofCols [[-1, -2], [-3, 4]]) 2 2 = 1 ∧
    matcmp (ofCols [[0], [3]]) (ofCols [[0], [-3]]) 2 1 = 0 := by decide

end HPLLL.Props
