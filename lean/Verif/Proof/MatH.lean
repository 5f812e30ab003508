import Verif.Model.MatH
import Verif.Proof.ZStep
import Mathlib.Algebra.BigOperators.Intervals
/-! Loops of mat.h. -/

namespace HPLLL

theorem forRange_empty {σ : Type} {a b : Nat} (h : b ≤ a) (f : Nat → σ → σ) (s : σ) :
    forRange a b f s = s := by
  simp [forRange, Nat.sub_eq_zero_of_le h]

theorem forRange_succ {σ : Type} {a b : Nat} (h : a ≤ b) (f : Nat → σ → σ) (s : σ) :
    forRange a (b + 1) f s = f b (forRange a b f s) := by
  unfold forRange
  rw [show b + 1 - a = (b - a) + 1 by omega, List.range'_concat, List.foldl_append]
  simp only [List.foldl_cons, List.foldl_nil, one_mul]
  rw [show a + (b - a) = b by omega]

/-- Loop invariants. -/
theorem forRange_ind {σ : Type} (P : Nat → σ → Prop) {a b : Nat} (hab : a ≤ b) (f : Nat → σ → σ)
    (s : σ) (h0 : P a s) (hs : ∀ i t, a ≤ i → i < b → P i t → P (i + 1) (f i t)) :
    P b (forRange a b f s) := by
  induction b with
  | zero =>
    have : a = 0 := by omega
    subst this
    rw [forRange_empty (le_refl _)]; exact h0
  | succ b ih =>
    rcases Nat.lt_or_ge b a with h | h
    · have : a = b + 1 := by omega
      subst this
      rw [forRange_empty (le_refl _)]; exact h0
    · rw [forRange_succ h]
      exact hs b _ h (by omega) (ih h fun i t h1 h2 => hs i t h1 (by omega))

theorem setEntry_apply {α : Type} (M : Mat α) (i j : Nat) (a : α) (c r : Nat) :
    setEntry M i j a c r = if c = j ∧ r = i then a else M c r := by
  unfold setEntry setCol setAt
  by_cases hc : c = j
  · subst hc; simp
  · simp [hc]

/-- Filling row `i`, columns `a .. b-1`, shifted. -/
theorem forRange_fillRow {α : Type} (v : Nat → α) (i i0 j0 a b : Nat) (hab : a ≤ b) (M : Mat α) (c r : Nat) :
    forRange a b (fun j M => setEntry M (i0 + i) (j0 + j) (v j)) M c r =
      if r = i0 + i ∧ j0 + a ≤ c ∧ c < j0 + b then v (c - j0) else M c r := by
  refine forRange_ind (fun b (T : Mat α) => T c r =
      if r = i0 + i ∧ j0 + a ≤ c ∧ c < j0 + b then v (c - j0) else M c r) hab _ _ ?_ ?_
  · rw [if_neg (by omega)]
  · intro j T h1 h2 h3
    rw [setEntry_apply]
    by_cases hc : c = j0 + j ∧ r = i0 + i
    · rw [if_pos hc, if_pos (by omega)]; congr 1; omega
    · rw [if_neg hc, h3]
      by_cases h4 : r = i0 + i ∧ j0 + a ≤ c ∧ c < j0 + j
      · rw [if_pos h4, if_pos (by omega)]
      · rw [if_neg h4, if_neg (by omega)]

/-- Filling a rectangle row by row. -/
theorem forRange_fill {α : Type} (v : Nat → Nat → α) (i0 j0 m a n : Nat) (M : Mat α) (c r : Nat) :
    forRange 0 m (fun i M => forRange a n (fun j M => setEntry M (i0 + i) (j0 + j) (v i j)) M) M c r =
      if i0 ≤ r ∧ r < i0 + m ∧ j0 + a ≤ c ∧ c < j0 + n then v (r - i0) (c - j0) else M c r := by
  rcases Nat.lt_or_ge n a with hna | hna
  · have : ∀ i (M : Mat α), forRange a n (fun j M => setEntry M (i0 + i) (j0 + j) (v i j)) M = M :=
      fun i M => forRange_empty (by omega) _ _
    simp only [this]
    rw [if_neg (by omega)]
    exact forRange_ind (fun _ (T : Mat α) => T c r = M c r) (Nat.zero_le m) _ _ rfl (fun _ _ _ _ h => h)
  · refine forRange_ind (fun m (T : Mat α) => T c r =
      if i0 ≤ r ∧ r < i0 + m ∧ j0 + a ≤ c ∧ c < j0 + n then v (r - i0) (c - j0) else M c r)
      (Nat.zero_le m) _ _ ?_ ?_
    · rw [if_neg (by omega)]
    · intro i T _ _ h3
      rw [forRange_fillRow _ _ _ _ _ _ hna]
      by_cases hc : r = i0 + i ∧ j0 + a ≤ c ∧ c < j0 + n
      · rw [if_pos hc, if_pos (by omega)]; congr 1; omega
      · rw [if_neg hc, h3]
        by_cases h4 : i0 ≤ r ∧ r < i0 + i ∧ j0 + a ≤ c ∧ c < j0 + n
        · rw [if_pos h4, if_pos (by omega)]
        · rw [if_neg h4, if_neg (by omega)]

/-- Filling a rectangle column by column. -/
theorem forRange_fillCol {α : Type} (v : Nat → Nat → α) (i0 j0 m n : Nat) (M : Mat α) (c r : Nat) :
    forRange 0 n (fun j M => forRange 0 m (fun i M => setEntry M (i0 + i) (j0 + j) (v i j)) M) M c r =
      if i0 ≤ r ∧ r < i0 + m ∧ j0 ≤ c ∧ c < j0 + n then v (r - i0) (c - j0) else M c r := by
  have hcol : ∀ (j : Nat) (M : Mat α) (c r : Nat),
      forRange 0 m (fun i M => setEntry M (i0 + i) (j0 + j) (v i j)) M c r =
        if c = j0 + j ∧ i0 ≤ r ∧ r < i0 + m then v (r - i0) j else M c r := by
    intro j M c r
    refine forRange_ind (fun m (T : Mat α) => T c r =
      if c = j0 + j ∧ i0 ≤ r ∧ r < i0 + m then v (r - i0) j else M c r) (Nat.zero_le m) _ _ ?_ ?_
    · rw [if_neg (by omega)]
    · intro i T _ _ h3
      rw [setEntry_apply]
      by_cases hc : c = j0 + j ∧ r = i0 + i
      · rw [if_pos hc, if_pos (by omega)]; congr 1; omega
      · rw [if_neg hc, h3]
        by_cases h4 : c = j0 + j ∧ i0 ≤ r ∧ r < i0 + i
        · rw [if_pos h4, if_pos (by omega)]
        · rw [if_neg h4, if_neg (by omega)]
  refine forRange_ind (fun n (T : Mat α) => T c r =
      if i0 ≤ r ∧ r < i0 + m ∧ j0 ≤ c ∧ c < j0 + n then v (r - i0) (c - j0) else M c r)
      (Nat.zero_le n) _ _ ?_ ?_
  · rw [if_neg (by omega)]
  · intro j T _ _ h3
    rw [hcol]
    by_cases hc : c = j0 + j ∧ i0 ≤ r ∧ r < i0 + m
    · rw [if_pos hc, if_pos (by omega)]; congr 1; omega
    · rw [if_neg hc, h3]
      by_cases h4 : i0 ≤ r ∧ r < i0 + m ∧ j0 ≤ c ∧ c < j0 + j
      · rw [if_pos h4, if_pos (by omega)]
      · rw [if_neg h4, if_neg (by omega)]

theorem setMat_apply (m n : Nat) (A B : Mat Int) (c r : Nat) :
    setMat m n A B c r = if r < m ∧ c < n then A c r else B c r := by
  have := forRange_fill (fun i j => A j i) 0 0 m 0 n B c r
  simp only [zero_add, Nat.sub_zero] at this
  unfold setMat
  rw [this]
  simp

theorem transposeTo_apply (m n : Nat) (A B : Mat Int) (c r : Nat) :
    transposeTo m n A B c r = if c < m ∧ r < n then A r c else B c r := by
  have := forRange_fillCol (fun i j => A i j) 0 0 n m B c r
  simp only [zero_add, Nat.sub_zero] at this
  unfold transposeTo
  rw [this]
  congr 1
  simp [and_comm]

theorem prodEntry_apply (d : Nat) (hd : 0 < d) (B U : Mat Int) (q i j : Nat) (T : Mat Int) (c r : Nat) :
    prodEntry d B U q i j T c r =
      if c = j ∧ r = i then ∑ k ∈ Finset.range d, B k q * U j k else T c r := by
  unfold prodEntry
  refine forRange_ind (fun d (X : Mat Int) => X c r =
      if c = j ∧ r = i then ∑ k ∈ Finset.range d, B k q * U j k else T c r) hd _ _ ?_ ?_
  · rw [setEntry_apply]; simp
  · intro k X _ _ h
    rw [setEntry_apply, Finset.sum_range_succ]
    by_cases hc : c = j ∧ r = i
    · obtain ⟨rfl, rfl⟩ := hc
      simp only [and_self, if_true] at h ⊢
      rw [h]
    · rw [if_neg hc, if_neg hc, h, if_neg hc]

theorem matprod_apply (n d dres : Nat) (hd : 0 < d) (B U C : Mat Int) (c r : Nat) :
    matprod n d dres B U C c r =
      if r < n ∧ c < dres then ∑ k ∈ Finset.range d, B k r * U c k else C c r := by
  have hrow : ∀ (i : Nat) (T : Mat Int) (c r : Nat),
      forRange 0 dres (fun j C => prodEntry d B U i i j C) T c r =
        if r = i ∧ c < dres then ∑ k ∈ Finset.range d, B k r * U c k else T c r := by
    intro i T c r
    refine forRange_ind (fun n (X : Mat Int) => X c r =
      if r = i ∧ c < n then ∑ k ∈ Finset.range d, B k r * U c k else T c r) (Nat.zero_le dres) _ _ ?_ ?_
    · rw [if_neg (by omega)]
    · intro j X _ _ h
      rw [prodEntry_apply d hd]
      by_cases hc : c = j ∧ r = i
      · obtain ⟨rfl, rfl⟩ := hc
        rw [if_pos ⟨rfl, rfl⟩, if_pos (by omega)]
      · rw [if_neg hc, h]
        by_cases h4 : r = i ∧ c < j
        · rw [if_pos h4, if_pos (by omega)]
        · rw [if_neg h4, if_neg (by omega)]
  unfold matprod
  refine forRange_ind (fun n (X : Mat Int) => X c r =
      if r < n ∧ c < dres then ∑ k ∈ Finset.range d, B k r * U c k else C c r) (Nat.zero_le n) _ _ ?_ ?_
  · rw [if_neg (by omega)]
  · intro i X _ _ h
    rw [hrow]
    by_cases hc : r = i ∧ c < dres
    · rw [if_pos hc, if_pos (by omega)]
    · rw [if_neg hc, h]
      by_cases h4 : r < i ∧ c < dres
      · rw [if_pos h4, if_pos (by omega)]
      · rw [if_neg h4, if_neg (by omega)]

theorem matprodIn_apply (m n : Nat) (hn : 0 < n) (U C : Mat Int) (c r : Nat) :
    matprodIn m n U C c r =
      if r < m ∧ c < n then ∑ k ∈ Finset.range n, C k r * U c k else C c r := by
  unfold matprodIn
  rw [setMat_apply, matprod_apply _ _ _ hn]
  split <;> rfl

theorem matprodInRect_apply (m n nU : Nat) (hn : 0 < n) (U C : Mat Int) (c r : Nat) :
    matprodInRect m n nU U C c r =
      if r < m ∧ c < nU then ∑ k ∈ Finset.range n, C k r * U c k else 0 := by
  unfold matprodInRect
  rw [setMat_apply, matprod_apply _ _ _ hn]
  split <;> rfl

theorem matprodRows_apply (n d : Nat) (hd : 0 < d) (U B C : Mat Int) (c r : Nat) :
    (matprodRows n d U (B, C)).1 c r =
      if r < n ∧ c < d then ∑ k ∈ Finset.range d, B k r * U c k else B c r := by
  have key : ∀ m, ∀ c r, (forRange 0 m (fun i s =>
    let C := forRange 0 d (fun j C => prodEntry d s.1 U i i j C) s.2
    (forRange 0 d (fun j B => setEntry B i j (C j i)) s.1, C)) (B, C)).1 c r =
      if r < m ∧ c < d then ∑ k ∈ Finset.range d, B k r * U c k else B c r := by
    intro m
    induction m with
    | zero => intro c r; rw [forRange_empty (le_refl _), if_neg (by omega)]
    | succ m ih =>
      intro c r
      rw [forRange_succ (Nat.zero_le _)]
      generalize forRange 0 m _ (B, C) = s at ih ⊢
      have h1 := matprod_apply 1 d d hd (fun j i => s.1 j (m + i)) U
      show forRange 0 d (fun j B => setEntry B m j
        (forRange 0 d (fun j C => prodEntry d s.1 U m m j C) s.2 j m)) s.1 c r = _
      have h2 := forRange_fillRow (fun j =>
        forRange 0 d (fun j C => prodEntry d s.1 U m m j C) s.2 j m) m 0 0 0 d (Nat.zero_le d) s.1 c r
      simp only [zero_add, Nat.sub_zero, Nat.zero_le, true_and] at h2
      rw [h2]
      have h3 : ∀ c < d, forRange 0 d (fun j C => prodEntry d s.1 U m m j C) s.2 c m =
          ∑ k ∈ Finset.range d, s.1 k m * U c k := by
        intro c hc
        have := forRange_ind (fun n (X : Mat Int) => c < n → X c m = ∑ k ∈ Finset.range d, s.1 k m * U c k)
          (Nat.zero_le d) (fun j C => prodEntry d s.1 U m m j C) s.2 (by omega) (by
            intro j X _ _ h hj
            rw [prodEntry_apply d hd]
            by_cases hcj : c = j
            · subst hcj; simp
            · rw [if_neg (by omega)]; exact h (by omega))
        exact this hc
      by_cases hr : r = m ∧ c < d
      · rw [if_pos hr, h3 c hr.2, if_pos (by omega)]
        obtain ⟨rfl, -⟩ := hr
        refine Finset.sum_congr rfl fun k _ => ?_
        rw [ih, if_neg (by omega)]
      · rw [if_neg hr, ih]
        by_cases h4 : r < m ∧ c < d
        · rw [if_pos h4, if_pos (by omega)]
        · rw [if_neg h4, if_neg (by omega)]
  exact key n c r

theorem isId_iff (m n : Nat) (A : Mat Int) :
    isId m n A = true ↔ ∀ i < m, ∀ j < n, A j i = if i = j then 1 else 0 := by
  have hrow : ∀ (i : Nat) (b : Bool),
      forRange 0 n (fun j b =>
        if i = j then (if A j i ≠ 1 then false else b) else (if A j i ≠ 0 then false else b)) b = true ↔
      b = true ∧ ∀ j < n, A j i = if i = j then 1 else 0 := by
    intro i b
    refine forRange_ind (fun n X => X = true ↔ b = true ∧ ∀ j < n, A j i = if i = j then 1 else 0)
      (Nat.zero_le n) _ _ (by simp) ?_
    intro j X _ _ h
    have hs : (∀ k < j + 1, A k i = if i = k then 1 else 0) ↔
        (∀ k < j, A k i = if i = k then 1 else 0) ∧ A j i = if i = j then 1 else 0 :=
      ⟨fun h => ⟨fun k hk => h k (by omega), h j (by omega)⟩, fun h k hk => by
        rcases Nat.lt_succ_iff_lt_or_eq.mp hk with h' | rfl
        · exact h.1 k h'
        · exact h.2⟩
    rw [hs]
    by_cases hij : i = j
    · simp only [if_pos hij]
      by_cases ha : A j i = 1
      · simp only [ha, ne_eq, not_true, if_false, and_true]; exact h
      · simp [ha]
    · simp only [if_neg hij]
      by_cases ha : A j i = 0
      · simp only [ha, ne_eq, not_true, if_false, and_true]; exact h
      · simp [ha]
  refine forRange_ind (fun m X => X = true ↔ ∀ i < m, ∀ j < n, A j i = if i = j then 1 else 0)
    (Nat.zero_le m) _ _ (by simp) ?_
  intro i X _ _ h
  rw [hrow, h]
  exact ⟨fun h k hk => by
      rcases Nat.lt_succ_iff_lt_or_eq.mp hk with h' | rfl
      · exact h.1 k h'
      · exact h.2, fun h => ⟨fun k hk => h k (by omega), h i (by omega)⟩⟩

theorem setId_apply (m n : Nat) (A : Mat Int) (c r : Nat) :
    setId m n A c r = if r < m ∧ (c = r ∨ c < n) then (if c = r then 1 else 0) else A c r := by
  have h0 := forRange_fill (fun _ _ => 0) 0 0 m 0 n A c r
  simp only [zero_add, Nat.zero_le, true_and] at h0
  unfold setId
  have h1 : ∀ T : Mat Int, forRange 0 m (fun i A => setEntry A i i 1) T c r =
      if c = r ∧ r < m then 1 else T c r := by
    intro T
    refine forRange_ind (fun m (X : Mat Int) => X c r = if c = r ∧ r < m then 1 else T c r) (Nat.zero_le m) _ _
      (by rw [if_neg (by omega)]) ?_
    intro i X _ _ h
    rw [setEntry_apply]
    by_cases hc : c = i ∧ r = i
    · rw [if_pos hc, if_pos (by omega)]
    · rw [if_neg hc, h]
      by_cases h4 : c = r ∧ r < i
      · rw [if_pos h4, if_pos (by omega)]
      · rw [if_neg h4, if_neg (by omega)]
  rw [h1, h0]
  by_cases hcr : c = r <;> by_cases hr : r < m <;> simp [hcr, hr]

/-! ### Blocks -/

theorem blockDim_eq (m nb i : Nat) : blockDim m nb i = sliceLen m nb i := by
  unfold blockDim sliceLen
  have h1 := Nat.div_add_mod m nb
  have h2 : m - m / nb * nb = m % nb := by rw [Nat.mul_comm]; omega
  rw [h2]
  split
  · rename_i h; rw [if_neg (by omega)]; rfl
  · split
    · rw [if_pos (by omega)]
    · rw [if_neg (by omega)]; rfl

theorem blockBeg_eq (m nb i : Nat) : blockBeg m nb i = sliceBeg m nb i := by
  unfold blockBeg sliceBeg
  have h1 := Nat.div_add_mod m nb
  have h2 : m - m / nb * nb = m % nb := by rw [Nat.mul_comm]; omega
  simp only [h2]
  split
  · rename_i h; rw [if_neg (by omega), h, Nat.mul_comm]; rfl
  · split
    · rw [if_pos (by omega)]; ring
    · rename_i h2
      rw [if_neg (by omega)]
      obtain ⟨k, rfl⟩ : ∃ k, i = m % nb + k := ⟨i - m % nb, by omega⟩
      rw [Nat.add_sub_cancel_left]; ring

theorem getblock_apply (A : ZMat) (ii jj nbr nbc c r : Nat) :
    (getblock A ii jj nbr nbc).M c r =
      if r < blockDim A.rows nbr ii ∧ c < blockDim A.cols nbc jj then
        A.M (blockBeg A.cols nbc jj + c) (blockBeg A.rows nbr ii + r) else 0 := by
  have := forRange_fill (fun i j => A.M (blockBeg A.cols nbc jj + j) (blockBeg A.rows nbr ii + i)) 0 0
    (blockDim A.rows nbr ii) 0 (blockDim A.cols nbc jj) (fun _ _ => 0) c r
  simp only [zero_add, Nat.sub_zero, Nat.zero_le, true_and] at this
  exact this

theorem putblock_apply (B : ZMat) (A : Mat Int) (ii jj nbr nbc c r : Nat) :
    (putblock B A ii jj nbr nbc).M c r =
      if blockBeg B.rows nbr ii ≤ r ∧ r < blockBeg B.rows nbr ii + blockDim B.rows nbr ii ∧
        blockBeg B.cols nbc jj ≤ c ∧ c < blockBeg B.cols nbc jj + blockDim B.cols nbc jj then
        A (c - blockBeg B.cols nbc jj) (r - blockBeg B.rows nbr ii) else B.M c r := by
  have := forRange_fill (fun i j => A j i) (blockBeg B.rows nbr ii) (blockBeg B.cols nbc jj)
    (blockDim B.rows nbr ii) 0 (blockDim B.cols nbc jj) B.M c r
  simp only [Nat.add_zero] at this
  exact this

theorem forRange_test (P : Nat → Prop) [DecidablePred P] (a b : Nat) (hab : a ≤ b) (t : Int)
    (ht : t = 0 ∨ t = 1) :
    let t' := forRange a b (fun j t => if P j then 0 else t) t
    (t' = 0 ∨ t' = 1) ∧ (t' = 1 ↔ t = 1 ∧ ∀ j, a ≤ j → j < b → ¬ P j) := by
  refine forRange_ind (fun b t' => (t' = 0 ∨ t' = 1) ∧
    (t' = 1 ↔ t = 1 ∧ ∀ j, a ≤ j → j < b → ¬ P j)) hab _ _ ⟨ht, ?_⟩ ?_
  · constructor
    · intro h; exact ⟨h, fun j h1 h2 => by omega⟩
    · exact fun h => h.1
  · intro i X h1 h2 ⟨h3, h4⟩
    by_cases hp : P i
    · rw [if_pos hp]
      exact ⟨Or.inl rfl, by simp; intro _; exact ⟨i, h1, by omega, hp⟩⟩
    · rw [if_neg hp]
      refine ⟨h3, h4.trans ⟨fun h => ⟨h.1, fun j a1 a2 => ?_⟩,
        fun h => ⟨h.1, fun j a1 a2 => h.2 j a1 (by omega)⟩⟩⟩
      rcases Nat.lt_succ_iff_lt_or_eq.mp a2 with h' | rfl
      · exact h.2 j a1 h'
      · exact hp

end HPLLL
