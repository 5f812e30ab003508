import Verif.Model.Mixed
import Verif.Model.Toy
import Verif.Props.Trunc
import Verif.Props.GenAlg
import Verif.Proof.MatH
import Verif.Proof.IntOps
import Verif.Spec.Exact
/-!
# Mixed matrices: C83
-/

namespace HPLLL.Props
open HPLLL Spec Finset Matrix

variable {F : Type}

/-- The matrix represented: `d` real rows above `m` integer rows, `n` columns. -/
noncomputable def mrzVal (d m n : ℕ) (M : MRZ ℝ) : Matrix (Fin (d + m)) (Fin n) ℝ :=
  Matrix.of fun r c => if (r : ℕ) < d then M.F c r else (M.A c (r - d) : ℝ)

/-- The integer rows. -/
def mrzInt (m n : ℕ) (M : MRZ F) : Matrix (Fin m) (Fin n) ℤ := Matrix.of fun r c => M.A c r

/-- What an operation does: `col j += c * col k` on the rows `< l`. -/
def opAxpy : MOp → Option (ℕ × ℕ × ℤ × ℕ)
  | .add j k l => some (j, k, 1, l)
  | .sub j k l => some (j, k, -1, l)
  | .submul j k x l => some (j, k, -x, l)
  | .addmulSi j k a l => some (j, k, a, l)
  | .addmulSi2 j k a e l => some (j, k, a * 2 ^ e, l)
  | .swap _ _ => none

/-- An operation on whole columns (height `h`), with two different indices in range. -/
def opOk (h n : ℕ) (op : MOp) : Prop :=
  (∃ j k c, opAxpy op = some (j, k, c, h) ∧ j < n ∧ k < n ∧ j ≠ k) ∨ ∃ j k, op = .swap j k ∧ j < n ∧ k < n ∧ j ≠ k

theorem op_dims (o : FPOps F) (m2) (M : MRZ F) (op : MOp) :
    (M.op o m2 op).d = M.d ∧ (M.op o m2 op).m = M.m ∧ (M.op o m2 op).n = M.n := by
  cases op <;> simp only [MRZ.op, MRZ.col] <;> (try split_ifs) <;> simp

theorem col_apply (f : ℕ → Mat ℝ → Mat ℝ) (g : ℕ → Mat Int → Mat Int) (j k : ℕ) (c : ℤ)
    (hf : ∀ l X col r, f l X col r = if col = j ∧ r < l then X j r + c * X k r else X col r)
    (hg : ∀ l X col r, g l X col r = if col = j ∧ r < l then X j r + c * X k r else X col r)
    (l : ℕ) (M : MRZ ℝ) (col r : ℕ) :
    (if r < M.d then (M.col f g l).F col r else ((M.col f g l).A col (r - M.d) : ℝ)) =
      if col = j ∧ r < l then
        (if r < M.d then M.F j r else (M.A j (r - M.d) : ℝ)) + c * (if r < M.d then M.F k r else (M.A k (r - M.d) : ℝ))
      else if r < M.d then M.F col r else (M.A col (r - M.d) : ℝ) := by
  unfold MRZ.col
  by_cases hr : r < M.d
  · have hd : M.d > 0 := by omega
    simp only [hr, hd, if_true]
    by_cases hl : l ≤ M.d
    · simp only [hl, if_true, hf]
    · simp only [hl, if_false, hf]
      by_cases hc : col = j
      · simp only [hc, hr, show r < l by omega, and_self, if_true]
      · simp only [hc, false_and, if_false]
  · simp only [hr, if_false]
    split_ifs with h1 h2 h3 h4 h5 <;> simp only [hg] <;> (try omega)
    · rw [if_pos (by omega)]; push_cast; rfl
    · rw [if_neg (by omega)]
    · rw [if_pos (by omega)]; push_cast; rfl
    · rw [if_neg (by omega)]

theorem icol_apply (f : ℕ → Mat F → Mat F) (g : ℕ → Mat Int → Mat Int) (j k : ℕ) (c : ℤ)
    (hg : ∀ l X col r, g l X col r = if col = j ∧ r < l then X j r + c * X k r else X col r)
    (l : ℕ) (M : MRZ F) (col r : ℕ) :
    (M.col f g l).A col r = if col = j ∧ r + M.d < l then M.A j r + c * M.A k r else M.A col r := by
  unfold MRZ.col
  split_ifs with h1 h2 h3 h4 h5 <;> simp only [hg] <;> (try omega)
  all_goals first | rw [if_pos (by omega)] | rw [if_neg (by omega)]

theorem setCol_ite {R : Type} (X : Mat R) (j col l r : ℕ) (v : ℕ → R) :
    setCol X j (fun i => if i < l then v i else X j i) col r = if col = j ∧ r < l then v r else X col r := by
  unfold setCol
  by_cases hc : col = j
  · subst hc; simp
  · simp [hc]

/-- **C83, column operations.** In exact arithmetic (`mul_2si` included), `addcol`, `subcol`, `submulcol`, `addmulcol_si`,
`addmulcol_si_2exp` add to the `l` first entries of column `j` the multiple of column `k`; nothing else changes. -/
theorem C83_column {o : FPOps ℝ} (ho : Exact o) (m2 : ℝ → ℤ → ℝ) (hm : ∀ x e, m2 x e = x * 2 ^ e) (M : MRZ ℝ) (op : MOp)
    (j k : ℕ) (c : ℤ) (l : ℕ) (hop : opAxpy op = some (j, k, c, l)) (col r : ℕ) :
    (if r < M.d then (M.op o m2 op).F col r else ((M.op o m2 op).A col (r - M.d) : ℝ)) =
      if col = j ∧ r < l then
        (if r < M.d then M.F j r else (M.A j (r - M.d) : ℝ)) + c * (if r < M.d then M.F k r else (M.A k (r - M.d) : ℝ))
      else if r < M.d then M.F col r else (M.A col (r - M.d) : ℝ) := by
  cases op <;> simp only [opAxpy, Option.some.injEq, Prod.mk.injEq, reduceCtorEq] at hop <;>
    obtain ⟨rfl, rfl, rfl, rfl⟩ := hop <;> simp only [MRZ.op]
  · refine col_apply _ _ _ _ 1 (fun l X col r => ?_) (fun l X col r => ?_) _ _ _ _
    · unfold faddcol; rw [setCol_ite]; simp [ho.add]
    · unfold addcol; rw [setCol_ite]; simp
  · refine col_apply _ _ _ _ (-1) (fun l X col r => ?_) (fun l X col r => ?_) _ _ _ _
    · unfold fsubcol; rw [setCol_ite]; simp [ho.sub, sub_eq_add_neg]
    · unfold subcol; rw [setCol_ite]; simp [sub_eq_add_neg]
  · refine col_apply _ _ _ _ _ (fun l X col r => ?_) (fun l X col r => ?_) _ _ _ _
    · unfold fsubmulcol; rw [setCol_ite]; simp [ho.submul, ho.ofZ, sub_eq_add_neg]
    · unfold submulcol; rw [setCol_ite]; simp [sub_eq_add_neg]
  · refine col_apply _ _ _ _ _ (fun l X col r => ?_) (fun l X col r => ?_) _ _ _ _
    · unfold faddmulcol; rw [setCol_ite]; simp [ho.addmul, ho.ofZ]
    · unfold addmulcolSi; rw [setCol_ite]; simp [mul_comm]
  · refine col_apply _ _ _ _ _ (fun l X col r => ?_) (fun l X col r => ?_) _ _ _ _
    · unfold faddmul2exp; rw [setCol_ite]; simp [ho.add, ho.mul, ho.ofZ, hm, mul_comm, mul_assoc]
    · unfold addmulcolSi2exp; rw [setCol_ite]; simp [mul_comm, mul_assoc, mul_left_comm]

/-- The integer rows in any arithmetic. -/
theorem iop_apply (o : FPOps F) (m2) (M : MRZ F) (op : MOp)
    (j k : ℕ) (c : ℤ) (l : ℕ) (hop : opAxpy op = some (j, k, c, l)) (col r : ℕ) :
    (M.op o m2 op).A col r = if col = j ∧ r + M.d < l then M.A j r + c * M.A k r else M.A col r := by
  cases op <;> simp only [opAxpy, Option.some.injEq, Prod.mk.injEq, reduceCtorEq] at hop <;>
    obtain ⟨rfl, rfl, rfl, rfl⟩ := hop <;> simp only [MRZ.op] <;> refine icol_apply _ _ _ _ _ (fun l X col r => ?_) _ _ _ _
  · unfold addcol; rw [setCol_ite]; simp
  · unfold subcol; rw [setCol_ite]; simp [sub_eq_add_neg]
  · unfold submulcol; rw [setCol_ite]; simp [sub_eq_add_neg]
  · unfold addmulcolSi; rw [setCol_ite]; simp [mul_comm]
  · unfold addmulcolSi2exp; rw [setCol_ite]; simp [mul_comm, mul_assoc, mul_left_comm]

/-- The column operations `ops` one after the other. -/
def MRZ.run (o : FPOps F) (m2 : F → ℤ → F) (ops : List MOp) (M : MRZ F) : MRZ F := ops.foldl (fun M op => M.op o m2 op) M

theorem mul_transv {R : Type} [CommRing R] {h n : ℕ} (X Y : Matrix (Fin h) (Fin n) R) (j k : Fin n) (hjk : j ≠ k) (c : R)
    (hY : ∀ r col, Y r col = if col = j then X r j + c * X r k else X r col) : Y = X * transvection k j c := by
  ext r col
  rw [hY]
  by_cases hc : col = j
  · subst hc
    rw [if_pos rfl, mul_transvection_apply_same]
  · rw [if_neg hc, mul_transvection_apply_of_ne _ _ _ _ hc]

theorem mul_swp {R : Type} [CommRing R] {h n : ℕ} (X Y : Matrix (Fin h) (Fin n) R) (j k : Fin n)
    (hY : ∀ r col, Y r col = X r (Equiv.swap j k col)) : Y = X * (Equiv.swap j k).permMatrix R := by
  rw [Equiv.Perm.permMatrix, PEquiv.mul_toMatrix_toPEquiv]
  ext r col
  simp [hY]

/-- The effect on a matrix of height `h`. -/
def OpEff (d m n : ℕ) (ops : List MOp) (U : Matrix (Fin n) (Fin n) ℤ) : Prop :=
  (∀ (F : Type) (o : FPOps F) (m2 : F → ℤ → F) (M : MRZ F), M.d = d → M.m = m → M.n = n →
    mrzInt m n (MRZ.run o m2 ops M) = mrzInt m n M * U) ∧
  ∀ (o : FPOps ℝ) (m2 : ℝ → ℤ → ℝ) (M : MRZ ℝ), Exact o → (∀ x e, m2 x e = x * 2 ^ e) → M.d = d → M.m = m → M.n = n →
    mrzVal d m n (MRZ.run o m2 ops M) = mrzVal d m n M * U.map (fun z : ℤ => (z : ℝ))

theorem colswap_fin {R : Type} {n : ℕ} (X : Mat R) (j k col : Fin n) (r : ℕ) :
    colswap X j k col r = X (Equiv.swap j k col) r := by
  unfold colswap
  by_cases h1 : col = j
  · subst h1; simp
  · by_cases h2 : col = k
    · subst h2
      have : ¬ ((col : ℕ) = j) := fun h => h1 (Fin.ext h)
      simp [this]
    · have h1' : ¬ ((col : ℕ) = j) := fun h => h1 (Fin.ext h)
      have h2' : ¬ ((col : ℕ) = k) := fun h => h2 (Fin.ext h)
      rw [Equiv.swap_apply_of_ne_of_ne h1 h2]
      simp [h1', h2']

theorem op_eff (d m n : ℕ) (op : MOp) (h : opOk (d + m) n op) :
    ∃ U : Matrix (Fin n) (Fin n) ℤ, Unimodular U ∧ OpEff d m n [op] U := by
  rcases h with ⟨j, k, c, hop, hj, hk, hjk⟩ | ⟨j, k, rfl, hj, hk, hjk⟩
  · have hne : (⟨j, hj⟩ : Fin n) ≠ ⟨k, hk⟩ := fun e => hjk (congrArg Fin.val e)
    refine ⟨transvection ⟨k, hk⟩ ⟨j, hj⟩ c, Or.inl (det_transvection_of_ne _ _ hne.symm c), ?_, ?_⟩
    · rintro F o m2 M rfl rfl rfl
      refine mul_transv _ _ _ _ hne c fun r col => ?_
      show (M.op o m2 op).A col r = _
      rw [iop_apply o m2 M op j k c _ hop]
      by_cases hc : col = ⟨j, hj⟩
      · subst hc
        rw [if_pos ⟨rfl, by omega⟩, if_pos rfl]; rfl
      · rw [if_neg (fun h => hc (Fin.ext h.1)), if_neg hc]; rfl
    · rintro o m2 M ho hm rfl rfl rfl
      have e : (transvection (⟨k, hk⟩ : Fin M.n) ⟨j, hj⟩ c).map (fun z : ℤ => (z : ℝ)) =
          transvection ⟨k, hk⟩ ⟨j, hj⟩ (c : ℝ) := by
        ext a b
        simp only [transvection, Matrix.map_apply, Matrix.add_apply, Matrix.one_apply, Matrix.single_apply]
        split_ifs <;> simp
      rw [e]
      refine mul_transv _ _ _ _ hne _ fun r col => ?_
      have := C83_column ho m2 hm M op j k c _ hop col r
      show (if (r : ℕ) < M.d then (M.op o m2 op).F col r else ((M.op o m2 op).A col (r - M.d) : ℝ)) = _
      rw [this]
      by_cases hc : col = ⟨j, hj⟩
      · subst hc
        rw [if_pos ⟨rfl, r.2⟩, if_pos rfl]; rfl
      · rw [if_neg (fun h => hc (Fin.ext h.1)), if_neg hc]; rfl
  · have hne : (⟨j, hj⟩ : Fin n) ≠ ⟨k, hk⟩ := fun e => hjk (congrArg Fin.val e)
    refine ⟨(Equiv.swap ⟨j, hj⟩ ⟨k, hk⟩).permMatrix ℤ, Or.inr (det_swapMat _ _ hne), ?_, ?_⟩
    · rintro F o m2 M rfl rfl rfl
      refine mul_swp _ _ _ _ fun r col => ?_
      exact colswap_fin M.A ⟨j, hj⟩ ⟨k, hk⟩ col r
    · rintro o m2 M ho hm rfl rfl rfl
      have e : ((Equiv.swap (⟨j, hj⟩ : Fin M.n) ⟨k, hk⟩).permMatrix ℤ).map (fun z : ℤ => (z : ℝ)) =
          (Equiv.swap ⟨j, hj⟩ ⟨k, hk⟩).permMatrix ℝ := by
        ext a b
        simp only [Equiv.Perm.permMatrix, Matrix.map_apply, PEquiv.toMatrix_apply]
        split_ifs <;> simp
      rw [e]
      refine mul_swp _ _ _ _ fun r col => ?_
      show (if (r : ℕ) < M.d then (if M.d > 0 then colswap M.F j k else M.F) col r
        else ((colswap M.A j k col (r - M.d) : ℤ) : ℝ)) =
          if (r : ℕ) < M.d then M.F (Equiv.swap (⟨j, hj⟩ : Fin M.n) ⟨k, hk⟩ col) r
          else (M.A (Equiv.swap (⟨j, hj⟩ : Fin M.n) ⟨k, hk⟩ col) (r - M.d) : ℝ)
      split_ifs with h1 h2
      · exact colswap_fin M.F ⟨j, hj⟩ ⟨k, hk⟩ col r
      · omega
      · exact congrArg _ (colswap_fin M.A ⟨j, hj⟩ ⟨k, hk⟩ col _)

/-- **C83, reductions.** A sequence of operations on whole columns multiplies the matrix on the right by a unimodular matrix,
given by the operations: the integer rows in any arithmetic, all the rows in exact arithmetic. -/
theorem C83_history (d m n : ℕ) (ops : List MOp) (hops : ∀ op ∈ ops, opOk (d + m) n op) :
    ∃ U : Matrix (Fin n) (Fin n) ℤ, Unimodular U ∧
      (∀ (F : Type) (o : FPOps F) (m2 : F → ℤ → F) (M : MRZ F), M.d = d → M.m = m → M.n = n →
        mrzInt m n (MRZ.run o m2 ops M) = mrzInt m n M * U) ∧
      ∀ (o : FPOps ℝ) (m2 : ℝ → ℤ → ℝ) (M : MRZ ℝ), Exact o → (∀ x e, m2 x e = x * 2 ^ e) → M.d = d → M.m = m → M.n = n →
        mrzVal d m n (MRZ.run o m2 ops M) = mrzVal d m n M * U.map (fun z : ℤ => (z : ℝ)) := by
  change ∃ U : Matrix (Fin n) (Fin n) ℤ, Unimodular U ∧ OpEff d m n ops U
  induction ops with
  | nil =>
    refine ⟨1, Or.inl (by simp), ?_, ?_⟩
    · intro F o m2 M _ _ _; simp [MRZ.run]
    · intro o m2 M _ _ _ _ _; simp [MRZ.run]
  | cons op ops ih =>
    obtain ⟨V, hV, hV1, hV2⟩ := op_eff d m n op (hops op (by simp))
    obtain ⟨U, hU, hU1, hU2⟩ := ih fun q hq => hops q (by simp [hq])
    refine ⟨V * U, ?_, ?_, ?_⟩
    · unfold Unimodular at *
      rw [det_mul]
      rcases hV with h | h <;> rcases hU with h' | h' <;> simp [h, h']
    · intro F o m2 M h1 h2 h3
      obtain ⟨e1, e2, e3⟩ := op_dims o m2 M op
      have a := hU1 F o m2 (M.op o m2 op) (e1.trans h1) (e2.trans h2) (e3.trans h3)
      have b := hV1 F o m2 M h1 h2 h3
      show mrzInt m n (MRZ.run o m2 ops (M.op o m2 op)) = _
      rw [a, show mrzInt m n (M.op o m2 op) = _ from b, Matrix.mul_assoc]
    · intro o m2 M ho hm h1 h2 h3
      obtain ⟨e1, e2, e3⟩ := op_dims o m2 M op
      have a := hU2 o m2 (M.op o m2 op) ho hm (e1.trans h1) (e2.trans h2) (e3.trans h3)
      have b := hV2 o m2 M ho hm h1 h2 h3
      show mrzVal d m n (MRZ.run o m2 ops (M.op o m2 op)) = _
      rw [a, show mrzVal d m n (M.op o m2 op) = _ from b, Matrix.mul_assoc]
      congr 1
      ext a b
      simp [Matrix.mul_apply]

/-! ## Products, copies, truncation -/

theorem fillG {α : Type} (n d : ℕ) (f : ℕ → ℕ → α) (C : Mat α) (c r : ℕ) :
    forRange 0 n (fun i C => forRange 0 d (fun j C => setEntry C i j (f i j)) C) C c r =
      if r < n ∧ c < d then f r c else C c r := by
  have := forRange_fill f 0 0 n 0 d C c r
  simpa using this

theorem updG {α : Type} (n d : ℕ) (f : α → α) (C : Mat α) (c r : ℕ) :
    forRange 0 n (fun i C => forRange 0 d (fun j C => setEntry C i j (f (C j i))) C) C c r =
      if r < n ∧ c < d then f (C c r) else C c r := by
  have hrow : ∀ (i : ℕ) (T : Mat α) (c r : ℕ),
      forRange 0 d (fun j C => setEntry C i j (f (C j i))) T c r =
        if r = i ∧ c < d then f (T c r) else T c r := by
    intro i T c r
    refine forRange_ind (fun d (X : Mat α) => ∀ c r, X c r =
      if r = i ∧ c < d then f (T c r) else T c r) (Nat.zero_le d)
      (fun j C => setEntry C i j (f (C j i))) T (fun c r => by rw [if_neg (by omega)]) ?_ c r
    intro j X _ _ h c r
    rw [setEntry_apply]
    by_cases hc : c = j ∧ r = i
    · rw [if_pos hc, h, if_neg (by omega), if_pos (by omega), hc.1, hc.2]
    · rw [if_neg hc, h]
      by_cases h4 : r = i ∧ c < j
      · rw [if_pos h4, if_pos (by omega)]
      · rw [if_neg h4, if_neg (by omega)]
  refine forRange_ind (fun n (X : Mat α) => ∀ c r, X c r =
      if r < n ∧ c < d then f (C c r) else C c r) (Nat.zero_le n)
      (fun i C => forRange 0 d (fun j C => setEntry C i j (f (C j i))) C) C
      (fun c r => by rw [if_neg (by omega)]) ?_ c r
  intro i X _ _ h c r
  rw [hrow, h]
  by_cases hc : r = i ∧ c < d
  · rw [if_pos hc, if_neg (by omega), if_pos (by omega)]
  · rw [if_neg hc]
    by_cases h4 : r < i ∧ c < d
    · rw [if_pos h4, if_pos (by omega)]
    · rw [if_neg h4, if_neg (by omega)]

theorem fprodEntry_apply {o : FPOps ℝ} (ho : Exact o) (d : ℕ) (hd : 0 < d) (B U : Mat ℝ) (i j : ℕ) (T : Mat ℝ) (c r : ℕ) :
    fprodEntry o d B U i j T c r = if c = j ∧ r = i then ∑ k ∈ range d, B k i * U j k else T c r := by
  unfold fprodEntry
  refine forRange_ind (fun d (X : Mat ℝ) => ∀ c r, X c r =
      if c = j ∧ r = i then ∑ k ∈ range d, B k i * U j k else T c r) hd
    (fun k T => setEntry T i j (o.addmul (T j i) (B k i) (U j k))) _ ?_ ?_ c r
  · intro c r; rw [setEntry_apply]; simp [ho.mul]
  · intro k X _ _ h c r
    have e := h j i
    rw [if_pos ⟨rfl, rfl⟩] at e
    rw [setEntry_apply, h c r, e, ho.addmul, sum_range_succ]
    by_cases hc : c = j ∧ r = i
    · rw [if_pos hc, if_pos hc]
    · rw [if_neg hc, if_neg hc, if_neg hc]

theorem fmatprod_apply {o : FPOps ℝ} (ho : Exact o) (n d dres : ℕ) (hd : 0 < d) (B U C : Mat ℝ) (c r : ℕ) :
    fmatprod o n d dres B U C c r = if r < n ∧ c < dres then ∑ k ∈ range d, B k r * U c k else C c r := by
  have hrow : ∀ (i : ℕ) (T : Mat ℝ) (c r : ℕ),
      forRange 0 dres (fun j C => fprodEntry o d B U i j C) T c r =
        if r = i ∧ c < dres then ∑ k ∈ range d, B k r * U c k else T c r := by
    intro i T c r
    refine forRange_ind (fun n (X : Mat ℝ) => X c r =
      if r = i ∧ c < n then ∑ k ∈ range d, B k r * U c k else T c r) (Nat.zero_le dres) _ _ ?_ ?_
    · rw [if_neg (by omega)]
    · intro j X _ _ h
      rw [fprodEntry_apply ho d hd]
      by_cases hc : c = j ∧ r = i
      · obtain ⟨rfl, rfl⟩ := hc
        rw [if_pos ⟨rfl, rfl⟩, if_pos (by omega)]
      · rw [if_neg hc, h]
        by_cases h4 : r = i ∧ c < j
        · rw [if_pos h4, if_pos (by omega)]
        · rw [if_neg h4, if_neg (by omega)]
  unfold fmatprod
  refine forRange_ind (fun n (X : Mat ℝ) => X c r =
      if r < n ∧ c < dres then ∑ k ∈ range d, B k r * U c k else C c r) (Nat.zero_le n) _ _ ?_ ?_
  · rw [if_neg (by omega)]
  · intro i X _ _ h
    rw [hrow]
    by_cases hc : r = i ∧ c < dres
    · rw [if_pos hc, if_pos (by omega)]
    · rw [if_neg hc, h]
      by_cases h4 : r < i ∧ c < dres
      · rw [if_pos h4, if_pos (by omega)]
      · rw [if_neg h4, if_neg (by omega)]

/-- **C83, products.** `matprod_in(B, U)` multiplies by `U`: the integer rows in any arithmetic, all the rows in exact
arithmetic. -/
theorem C83_product (d m n : ℕ) (U : Mat Int) :
    (∀ (F : Type) (o : FPOps F) (junk : F) (M : MRZ F), M.d = d → M.m = m → M.n = n →
      mrzInt m n (M.matprodIn o junk U) = mrzInt m n M * toMatrix n n U) ∧
    ∀ (o : FPOps ℝ) (junk : ℝ) (M : MRZ ℝ), Exact o → M.d = d → M.m = m → M.n = n →
      mrzVal d m n (M.matprodIn o junk U) = mrzVal d m n M * (toMatrix n n U).map (fun z : ℤ => (z : ℝ)) := by
  have hint : ∀ (F : Type) (o : FPOps F) (junk : F) (M : MRZ F), ∀ r < M.m, ∀ c < M.n,
      (M.matprodIn o junk U).A c r = ∑ k ∈ range M.n, M.A k r * U c k := by
    intro F o junk M r hr c hc
    simp only [MRZ.matprodIn]
    rw [fillG M.m M.n (fun i j => matprod M.m M.n M.n M.A U (fun _ _ => 0) j i), if_pos ⟨hr, hc⟩,
      matprod_apply _ _ _ (by omega), if_pos ⟨hr, hc⟩]
  constructor
  · rintro F o junk M rfl rfl rfl
    ext r c
    show (M.matprodIn o junk U).A c r = _
    rw [hint F o junk M r r.2 c c.2, Matrix.mul_apply, sum_range]
    rfl
  · rintro o junk M ho rfl rfl rfl
    ext r c
    show (if (r : ℕ) < M.d then (M.matprodIn o junk U).F c r else ((M.matprodIn o junk U).A c (r - M.d) : ℝ)) = _
    rw [Matrix.mul_apply]
    have hc := c.2
    by_cases hr : (r : ℕ) < M.d
    · rw [if_pos hr]
      simp only [MRZ.matprodIn]
      rw [fillG M.d M.n (fun i j => fmatprod o M.d M.n M.n M.F (fun j i => o.ofZ (U j i)) (fun _ _ => junk) j i),
        if_pos ⟨hr, hc⟩, fmatprod_apply ho _ _ _ (by omega), if_pos ⟨hr, hc⟩, sum_range]
      refine sum_congr rfl fun k _ => ?_
      simp [mrzVal, hr, ho.ofZ, toMatrix]
    · rw [if_neg hr, hint ℝ o junk M _ (by omega) c hc, sum_range]
      push_cast
      refine sum_congr rfl fun k _ => ?_
      simp [mrzVal, hr, toMatrix]

/-- **C83, copy and shift.** `set(N)` copies all the entries; `shift(lalpha)` multiplies the real rows by `2^lalpha`, in exact
arithmetic, and leaves the integer rows alone. -/
theorem C83_copy_shift (d m n : ℕ) :
    (∀ (F : Type) (M N : MRZ F), M.d = d → M.m = m → M.n = n → ∀ c < n, (∀ r < d, (M.setM N).F c r = N.F c r) ∧
      ∀ r < m, (M.setM N).A c r = N.A c r) ∧
    ∀ (m2 : ℝ → ℤ → ℝ) (M : MRZ ℝ) (a : ℤ), (∀ x e, m2 x e = x * 2 ^ e) → M.d = d → M.m = m → M.n = n → ∀ c < n,
      (∀ r < d, (M.shift m2 a).F c r = M.F c r * 2 ^ a) ∧ ∀ r < m, (M.shift m2 a).A c r = M.A c r := by
  constructor
  · rintro F M N rfl rfl rfl c hc
    refine ⟨fun r hr => ?_, fun r hr => ?_⟩
    · simp only [MRZ.setM]
      rw [fillG M.d M.n (fun i j => N.F j i), if_pos ⟨hr, hc⟩]
    · simp only [MRZ.setM]
      rw [fillG M.m M.n (fun i j => N.A j i), if_pos ⟨hr, hc⟩]
  · rintro m2 M a hm rfl rfl rfl c hc
    refine ⟨fun r hr => ?_, fun r hr => rfl⟩
    simp only [MRZ.shift]
    rw [updG M.d M.n (fun x => m2 x a), if_pos ⟨hr, hc⟩, hm]

/-- **C83, access to the integer rows.** `set(i, j, z)` counts the rows of the whole matrix, `get(i, j)` those of the integer
part: what was written by `set(i, j, z)` is read by `get(i - d, j)`, and `set(i, j, z)` is out of range for `i < d`. -/
theorem C83_get_set (M : MRZ F) (i j : ℕ) (z : ℤ) :
    ((M.setZ i j z).isSome ↔ M.d ≤ i ∧ i < M.d + M.m ∧ j < M.n) ∧
    ∀ M', M.setZ i j z = some M' → M'.get (i - M.d) j = some z ∧
      (∀ i' j', (i', j') ≠ (i - M.d, j) → M'.get i' j' = M.get i' j') := by
  unfold MRZ.setZ
  constructor
  · split_ifs with h
    · simp only [Option.isSome_some, true_iff]; omega
    · simp only [Option.isSome_none, Bool.false_eq_true, false_iff]; omega
  · intro M' h
    split_ifs at h with h1
    simp only [Option.some.injEq] at h
    subst h
    refine ⟨?_, fun i' j' hne => ?_⟩
    · simp only [MRZ.get, h1.2.1, h1.2.2, and_self, if_true, setEntry_apply]
    · simp only [MRZ.get, setEntry_apply]
      have : ¬ (j' = j ∧ i' = i - M.d) := fun h => hne (by rw [h.1, h.2])
      simp only [this, if_false]

/-- **C83, access by part.** `setRT(i, j, a)` (also `set(i, j, a)` with a real) and `setZT(i, j, z)` use the row numbers of
their own part: they are in range exactly on it, `getRT(i, j)`, `getZT(i, j)` return what was written, every other entry of
both parts is unchanged. -/
theorem C83_access (M : MRZ F) (i j : ℕ) (a : F) (z : ℤ) :
    ((M.setRT i j a).isSome ↔ i < M.d ∧ j < M.n) ∧ ((M.setZT i j z).isSome ↔ i < M.m ∧ j < M.n) ∧
    (∀ M', M.setRT i j a = some M' → M'.getRT i j = some a ∧
      (∀ i' j', (i', j') ≠ (i, j) → M'.getRT i' j' = M.getRT i' j') ∧ ∀ i' j', M'.get i' j' = M.get i' j') ∧
    ∀ M', M.setZT i j z = some M' → M'.get i j = some z ∧
      (∀ i' j', (i', j') ≠ (i, j) → M'.get i' j' = M.get i' j') ∧ ∀ i' j', M'.getRT i' j' = M.getRT i' j' := by
  unfold MRZ.setRT MRZ.setZT
  refine ⟨?_, ?_, ?_, ?_⟩
  · split_ifs with h <;> simp [h]
  · split_ifs with h <;> simp [h]
  · intro M' h
    split_ifs at h with h1
    simp only [Option.some.injEq] at h
    subst h
    refine ⟨?_, fun i' j' hne => ?_, fun _ _ => rfl⟩
    · simp only [MRZ.getRT, h1.1, h1.2, and_self, if_true, setEntry_apply]
    · simp only [MRZ.getRT, setEntry_apply]
      have : ¬ (j' = j ∧ i' = i) := fun h => hne (by rw [h.1, h.2])
      simp only [this, if_false]
  · intro M' h
    split_ifs at h with h1
    simp only [Option.some.injEq] at h
    subst h
    refine ⟨?_, fun i' j' hne => ?_, fun _ _ => rfl⟩
    · simp only [MRZ.get, h1.1, h1.2, and_self, if_true, setEntry_apply]
    · simp only [MRZ.get, setEntry_apply]
      have : ¬ (j' = j ∧ i' = i) := fun h => hne (by rw [h.1, h.2])
      simp only [this, if_false]

/-- Non-vacuity of `C83_access`: a write in each part of a `2 + 1` row matrix. -/
example : (∃ M' : MRZ ℤ, (MRZ.setRT ⟨1, 2, 2, fun _ _ => 0, fun _ _ => 0⟩ 0 1 7) = some M' ∧ M'.getRT 0 1 = some 7) ∧
    ∃ M' : MRZ ℤ, (MRZ.setZT ⟨1, 2, 1, fun _ _ => 0, fun _ _ => 0⟩ 0 0 7) = some M' ∧ M'.get 0 0 = some 7 := by
  exact ⟨⟨_, rfl, by decide⟩, ⟨_, rfl, by decide⟩⟩

/-- `set` then `get` with the same indices is not the value written, as soon as there are real rows. -/
theorem C83_get_set_mismatch : ∃ M' : MRZ ℤ, (MRZ.setZ ⟨1, 2, 1, fun _ _ => 0, fun _ _ => 0⟩ 1 0 7) = some M' ∧
    M'.get 1 0 = some 0 ∧ M'.get 0 0 = some 7 := ⟨_, rfl, by decide, by decide⟩

/-! ## Truncation -/

/-- What is used of `(long) (x * 0.301029995)` for upper bounds: `0.30102999499 x ≤ ex x + 1`. -/
def Exp10Ge (ex : ℤ → ℕ) : Prop := ∀ x : ℤ, 0 ≤ x → 30102999499 * x ≤ ((ex x : ℤ) + 1) * 10 ^ 11

theorem pow_bound2 : (2:ℕ) ^ 42039 ≤ 10 ^ 12655 := by decide +kernel

theorem exp10_ge {ex : ℤ → ℕ} (h : Exp10Ge ex) (y : ℕ) (hy : y ≤ 10 ^ 9) : (2:ℕ) ^ y ≤ 100 * 10 ^ ex y := by
  have h1 := h y (by omega)
  obtain ⟨k, hk⟩ : ∃ k, k = ex y := ⟨_, rfl⟩
  rw [← hk] at h1 ⊢
  have h2 : y * 12655 ≤ 42039 * (k + 2) := by
    norm_num at h1
    norm_num at hy
    omega
  have h3 : ((2:ℕ) ^ y) ^ 42039 ≤ (10 ^ (k + 2)) ^ 42039 := by
    calc ((2:ℕ) ^ y) ^ 42039 = (2 ^ 42039) ^ y := by rw [← pow_mul, ← pow_mul, mul_comm]
      _ ≤ (10 ^ 12655) ^ y := Nat.pow_le_pow_left pow_bound2 _
      _ = 10 ^ (y * 12655) := by rw [← pow_mul, mul_comm]
      _ ≤ 10 ^ (42039 * (k + 2)) := Nat.pow_le_pow_right (by norm_num) h2
      _ = (10 ^ (k + 2)) ^ 42039 := by rw [← pow_mul, mul_comm]
  have h4 : (2:ℕ) ^ y ≤ 10 ^ (k + 2) := le_of_pow_le_pow_left₀ (by norm_num) (by positivity) h3
  calc (2:ℕ) ^ y ≤ 10 ^ (k + 2) := h4
    _ = 100 * 10 ^ k := by rw [pow_add]; ring

theorem exp10Ge_exact : Exp10Ge fun x => (x * 301029995 / 10 ^ 9).toNat := by
  intro x hx
  norm_num
  have : 0 ≤ x * 301029995 / 1000000000 := by positivity
  rw [max_eq_left this]
  omega

theorem mtruncUpper_apply {o : FPOps ℝ} (ho : Exact o) (ex : ℤ → ℕ) (hex : Exp10 ex) (A : MRZ ℝ) (tau : ℤ) (X : Mat ℝ) :
    ∃ k1 : ℕ, (10:ℤ) ^ k1 ≤ 2 ^ tau.toNat ∧ ∀ i < A.d, ∀ j < A.n, mtruncUpper o ex A tau X j i = A.F j i / 10 ^ k1 := by
  unfold mtruncUpper
  by_cases ht : tau > 0
  · refine ⟨ex tau, exp10_le hex tau ht.le, fun i hi j hj => ?_⟩
    rw [if_pos ht, fillG A.d A.n (fun i j => o.div (A.F j i) (o.ofZ (10 ^ ex tau))), if_pos ⟨hi, hj⟩, ho.div, ho.ofZ]
    push_cast; rfl
  · refine ⟨0, ?_, fun i hi j hj => ?_⟩
    · simp only [pow_zero]; exact one_le_pow₀ (by norm_num)
    · rw [if_neg ht, fillG A.d A.n (fun i j => A.F j i), if_pos ⟨hi, hj⟩]; simp

/-- **C83, truncation.** `mixed_trunc(B, A, t, tau)` in exact arithmetic, for `t ≥ 0`: real rows are divided by `10^(k1+k2)`,
integer rows by `10^k2` (quotients towards zero), with `10^k1 ≤ 2^tau`; nothing more is thrown away for `t = 0`; for `t > 0`
either nothing more is thrown away or some entry keeps `t` bits.  For `t < 0` the integer rows are those of the identity; when
there are more integer rows than columns the call is out of range (DEFECT). -/
theorem C83_trunc {o : FPOps ℝ} (ho : Exact o) (hz : ∀ x : ℝ, |(o.toZ x : ℝ) - x| ≤ 1 / 2) (ex : ℤ → ℕ) (hex : Exp10 ex)
    (A B : MRZ ℝ) (hd : B.d = A.d) (hm : B.m = A.m) (hn : B.n = A.n) (t tau : ℤ) :
    (mixedTrunc o ex A t tau B = none ↔ t < 0 ∧ A.n < A.m) ∧
    ∀ B', mixedTrunc o ex A t tau B = some B' → ∃ k1 k2 : ℕ, (10:ℤ) ^ k1 ≤ 2 ^ tau.toNat ∧
      (∀ i < A.d, ∀ j < A.n, B'.F j i = A.F j i / 10 ^ (k1 + k2)) ∧
      (0 ≤ t → ∀ i < A.m, ∀ j < A.n, B'.A j i = (A.A j i).tdiv (10 ^ k2)) ∧
      (t < 0 → ∀ i < A.m, ∀ j < A.n, B'.A j i = if i = j then 1 else 0) ∧
      (t ≤ 0 → k2 = 0) ∧
      (0 < t → k2 = 0 ∨ (∃ i < A.d, ∃ j < A.n, 2 ^ (t - 1).toNat - 1 / 2 ≤ |B'.F j i|) ∨
        ∃ i < A.m, ∃ j < A.n, 2 ^ (t - 1).toNat ≤ |B'.A j i|) := by
  obtain ⟨k1, hk1, hX⟩ := mtruncUpper_apply ho ex hex A tau B.F
  obtain ⟨X, hXd⟩ : ∃ X, X = mtruncUpper o ex A tau B.F := ⟨_, rfl⟩
  rw [← hXd] at hX
  rcases lt_trichotomy t 0 with ht | ht | ht
  · by_cases hmn : A.m ≤ A.n
    · have hE : mixedTrunc o ex A t tau B = some { B with
          F := X
          A := forRange 0 A.m (fun i X => setEntry X i i 1)
                      (forRange 0 A.m (fun i X => forRange 0 A.n (fun j X => setEntry X i j 0) X) B.A) } := by
        simp only [mixedTrunc, ← hXd, if_pos ht, if_pos hmn]
      rw [hE]
      refine ⟨⟨fun h => (Option.some_ne_none _ h).elim, fun h => absurd h.2 (by omega)⟩, ?_⟩
      rintro B' h
      obtain rfl := Option.some.inj h
      refine ⟨k1, 0, hk1, fun i hi j hj => by simp [hX i hi j hj], fun h => absurd h (by omega), fun _ i hi j hj => ?_,
        fun _ => rfl, fun h => absurd h (by omega)⟩
      have := diagLoop 0 A.m (Nat.zero_le _) (forRange 0 A.m (fun i X => forRange 0 A.n (fun j X => setEntry X i j 0) X) B.A) j i
      simp only [Nat.sub_zero, Nat.zero_le, true_and] at this
      simp only [this, fillG A.m A.n (fun _ _ => (0:ℤ)), hi, hj, and_self, if_true, true_and]
      by_cases h : i = j
      · simp [h]
      · simp [h, Ne.symm h]
    · have hE : mixedTrunc o ex A t tau B = none := by
        simp only [mixedTrunc, if_pos ht, if_neg hmn]
      rw [hE]
      exact ⟨⟨fun _ => ⟨ht, by omega⟩, fun _ => rfl⟩, fun B' h => (Option.some_ne_none _ h.symm).elim⟩
  · have hE : mixedTrunc o ex A t tau B = some { B with
          F := X
          A := forRange 0 A.m (fun i X => forRange 0 A.n (fun j X => setEntry X i j (A.A j i)) X) B.A } := by
      simp only [mixedTrunc, ← hXd, if_neg (show ¬ t < 0 by omega), if_pos ht]
    rw [hE]
    refine ⟨⟨fun h => (Option.some_ne_none _ h).elim, fun h => absurd h.1 (by omega)⟩, ?_⟩
    rintro B' h
    obtain rfl := Option.some.inj h
    refine ⟨k1, 0, hk1, fun i hi j hj => by simp [hX i hi j hj], fun _ i hi j hj => ?_, fun h => absurd h (by omega),
      fun _ => rfl, fun h => absurd h (by omega)⟩
    simp [fillG A.m A.n (fun i j => A.A j i), hi, hj]
  · obtain ⟨M1, hM1⟩ : ∃ M1, M1 = MRZ.maxbitsizeRT o { B with F := X } := ⟨_, rfl⟩
    obtain ⟨M2, hM2⟩ : ∃ M2, M2 = max M1 A.maxbitsizeZT := ⟨_, rfl⟩
    obtain ⟨e, he⟩ : ∃ e, e = if (M2 : ℤ) - t ≤ 0 then 0 else ex (M2 - t) := ⟨_, rfl⟩
    have hE : mixedTrunc o ex A t tau B = some { B with
          F := forRange 0 A.d (fun i X => forRange 0 A.n (fun j X =>
            setEntry X i j (o.div (X j i) (o.ofZ (10 ^ e)))) X) X
          A := forRange 0 A.m (fun i X => forRange 0 A.n (fun j X =>
            setEntry X i j ((A.A j i).tdiv (10 ^ e))) X) B.A } := by
      simp only [mixedTrunc, ← hXd, if_neg (show ¬ t < 0 by omega), if_neg (show ¬ t = 0 by omega),
        if_pos (show t > 0 from ht), ← hM1, ← hM2, ← he]
    rw [hE]
    refine ⟨⟨fun h => (Option.some_ne_none _ h).elim, fun h => absurd h.1 (by omega)⟩, ?_⟩
    rintro B' h
    obtain rfl := Option.some.inj h
    have hF : ∀ i < A.d, ∀ j < A.n, (forRange 0 A.d (fun i X => forRange 0 A.n (fun j X =>
        setEntry X i j (o.div (X j i) (o.ofZ (10 ^ e)))) X) X) j i = X j i / 10 ^ e := by
      intro i hi j hj
      rw [updG A.d A.n (fun x => o.div x (o.ofZ (10 ^ e))), if_pos ⟨hi, hj⟩, ho.div, ho.ofZ]
      push_cast; rfl
    have hA : ∀ i < A.m, ∀ j < A.n, (forRange 0 A.m (fun i X => forRange 0 A.n (fun j X =>
        setEntry X i j ((A.A j i).tdiv (10 ^ e))) X) B.A) j i = (A.A j i).tdiv (10 ^ e) := by
      intro i hi j hj
      rw [fillG A.m A.n (fun i j => (A.A j i).tdiv (10 ^ e)), if_pos ⟨hi, hj⟩]
    refine ⟨k1, e, hk1, fun i hi j hj => ?_, fun _ => hA, fun h => absurd h (by omega), fun h => absurd h (by omega),
      fun _ => ?_⟩
    · show forRange 0 A.d _ X j i = _
      rw [hF i hi j hj, hX i hi j hj, pow_add, div_div]
    · by_cases h0 : (M2 : ℤ) - t ≤ 0
      · left; rw [he, if_pos h0]
      · right
        rw [if_neg h0] at he
        have h10 := exp10_le hex (M2 - t) (by omega)
        rw [← he] at h10
        have hle : ∀ x, M2 ≤ x ↔ (∀ i < A.d, ∀ j < A.n, sizeInBits (o.toZ (X j i)) ≤ x) ∧
            ∀ i < A.m, ∀ j < A.n, sizeInBits (A.A j i) ≤ x := by
          intro x
          rw [hM2, max_le_iff, hM1]
          unfold MRZ.maxbitsizeRT MRZ.maxbitsizeZT
          simp only [hd, hn]
          rw [forRange_max2 (fun i j => sizeInBits (o.toZ (X j i))), forRange_max2 (fun i j => sizeInBits (A.A j i))]
          simp
        have hnot : ¬ M2 ≤ M2 - 1 := by omega
        rw [hle] at hnot
        obtain ⟨T, hT⟩ := Int.eq_ofNat_of_zero_le ht.le
        subst hT
        obtain ⟨T, rfl⟩ : ∃ q, T = q + 1 := ⟨T - 1, by omega⟩
        obtain ⟨D, rfl⟩ : ∃ D, M2 = D + (T + 1) := ⟨M2 - (T + 1), by omega⟩
        have e1 : (((T + 1 : ℕ) : ℤ) - 1).toNat = T := by omega
        have e2 : (((D + (T + 1) : ℕ) : ℤ) - ((T + 1 : ℕ) : ℤ)).toNat = D := by omega
        rw [e2] at h10
        rw [e1]
        by_cases hR : ∀ i < A.d, ∀ j < A.n, sizeInBits (o.toZ (X j i)) ≤ D + (T + 1) - 1
        · right
          have : ¬ ∀ i < A.m, ∀ j < A.n, sizeInBits (A.A j i) ≤ D + (T + 1) - 1 := fun h => hnot ⟨hR, h⟩
          push Not at this
          obtain ⟨i, hi, j, hj, h⟩ := this
          refine ⟨i, hi, j, hj, ?_⟩
          show _ ≤ |forRange 0 A.m _ B.A j i|
          rw [hA i hi j hj]
          exact tdiv_ge (x := D) (le_of_sizeInBits (by omega) (by omega)) h10
        · left
          push Not at hR
          obtain ⟨i, hi, j, hj, h⟩ := hR
          refine ⟨i, hi, j, hj, ?_⟩
          show _ ≤ |forRange 0 A.d _ X j i|
          rw [hF i hi j hj]
          have h1 : (2:ℤ) ^ (D + T) ≤ |o.toZ (X j i)| := le_of_sizeInBits (by omega) (by omega)
          have h2 : (2:ℝ) ^ (D + T) ≤ |(o.toZ (X j i) : ℝ)| := by exact_mod_cast h1
          have h3 : (2:ℝ) ^ (D + T) - 1 / 2 ≤ |X j i| := by
            have := hz (X j i)
            have := abs_sub_abs_le_abs_sub (o.toZ (X j i) : ℝ) (X j i)
            linarith
          have h4 : (10:ℝ) ^ e ≤ 2 ^ D := by exact_mod_cast h10
          have h5 : (1:ℝ) ≤ 10 ^ e := one_le_pow₀ (by norm_num)
          rw [abs_div, abs_of_pos (show (0:ℝ) < 10 ^ e by positivity), le_div_iff₀ (by positivity)]
          refine le_trans ?_ h3
          rw [pow_add] at *
          have h6 : (0:ℝ) ≤ 2 ^ T := by positivity
          nlinarith [mul_le_mul_of_nonneg_right h4 h6]

/-- **C83, size after truncation.** For `t > 0`, all the entries of the result are at most `100 * 2^t`, as long as the exponents
are at most `10^9`. -/
theorem C83_trunc_small {o : FPOps ℝ} (ho : Exact o) (hz : ∀ x : ℝ, |(o.toZ x : ℝ) - x| ≤ 1 / 2) (ex : ℤ → ℕ) (hex : Exp10 ex)
    (hex' : Exp10Ge ex) (A B : MRZ ℝ) (hd : B.d = A.d) (hm : B.m = A.m) (hn : B.n = A.n) (t tau : ℤ) (ht : 0 < t)
    (N : ℕ) (hN1 : 1 ≤ N) (hN : N ≤ 10 ^ 9)
    (hbF : ∀ i < A.d, ∀ j < A.n, |A.F j i| + 1 ≤ 2 ^ N) (hbA : ∀ i < A.m, ∀ j < A.n, |A.A j i| < 2 ^ N) :
    ∀ B', mixedTrunc o ex A t tau B = some B' →
      (∀ i < A.d, ∀ j < A.n, |B'.F j i| ≤ 100 * 2 ^ t.toNat) ∧ ∀ i < A.m, ∀ j < A.n, |B'.A j i| ≤ 100 * 2 ^ t.toNat := by
  obtain ⟨k1, hk1, hX⟩ := mtruncUpper_apply ho ex hex A tau B.F
  obtain ⟨X, hXd⟩ : ∃ X, X = mtruncUpper o ex A tau B.F := ⟨_, rfl⟩
  rw [← hXd] at hX
  obtain ⟨M1, hM1⟩ : ∃ M1, M1 = MRZ.maxbitsizeRT o { B with F := X } := ⟨_, rfl⟩
  obtain ⟨M2, hM2⟩ : ∃ M2, M2 = max M1 A.maxbitsizeZT := ⟨_, rfl⟩
  obtain ⟨e, he⟩ : ∃ e, e = if (M2 : ℤ) - t ≤ 0 then 0 else ex (M2 - t) := ⟨_, rfl⟩
  have hE : mixedTrunc o ex A t tau B = some { B with
        F := forRange 0 A.d (fun i X => forRange 0 A.n (fun j X =>
          setEntry X i j (o.div (X j i) (o.ofZ (10 ^ e)))) X) X
        A := forRange 0 A.m (fun i X => forRange 0 A.n (fun j X =>
          setEntry X i j ((A.A j i).tdiv (10 ^ e))) X) B.A } := by
    simp only [mixedTrunc, ← hXd, if_neg (show ¬ t < 0 by omega), if_neg (show ¬ t = 0 by omega),
      if_pos (show t > 0 from ht), ← hM1, ← hM2, ← he]
  rw [hE]
  rintro B' h
  obtain rfl := Option.some.inj h
  have hle : ∀ x, M2 ≤ x ↔ (∀ i < A.d, ∀ j < A.n, sizeInBits (o.toZ (X j i)) ≤ x) ∧
      ∀ i < A.m, ∀ j < A.n, sizeInBits (A.A j i) ≤ x := by
    intro x
    rw [hM2, max_le_iff, hM1]
    unfold MRZ.maxbitsizeRT MRZ.maxbitsizeZT
    simp only [hd, hn]
    rw [forRange_max2 (fun i j => sizeInBits (o.toZ (X j i))), forRange_max2 (fun i j => sizeInBits (A.A j i))]
    simp
  have hMN : M2 ≤ N := by
    rw [hle]
    refine ⟨fun i hi j hj => (sizeInBits_le hN1).2 ?_, fun i hi j hj => (sizeInBits_le hN1).2 (hbA i hi j hj)⟩
    have h1 := hbF i hi j hj
    have h2 : |X j i| ≤ |A.F j i| := by
      rw [hX i hi j hj, abs_div, abs_of_pos (show (0:ℝ) < 10 ^ k1 by positivity)]
      exact div_le_self (abs_nonneg _) (one_le_pow₀ (by norm_num))
    have h3 := abs_sub_abs_le_abs_sub (o.toZ (X j i) : ℝ) (X j i)
    have h4 := hz (X j i)
    have h5 : |(o.toZ (X j i) : ℝ)| < 2 ^ N := by linarith
    exact_mod_cast h5
  have hkey : (2:ℝ) ^ M2 ≤ 100 * 2 ^ t.toNat * 10 ^ e := by
    by_cases h0 : (M2 : ℤ) - t ≤ 0
    · have h1 : (2:ℝ) ^ M2 ≤ 2 ^ t.toNat := pow_le_pow_right₀ (by norm_num) (by omega)
      have h2 : (1:ℝ) ≤ 10 ^ e := one_le_pow₀ (by norm_num)
      have h3 : (0:ℝ) ≤ 2 ^ t.toNat := by positivity
      nlinarith
    · rw [if_neg h0] at he
      obtain ⟨y, hy⟩ : ∃ y : ℕ, (M2 : ℤ) - t = y := ⟨((M2 : ℤ) - t).toNat, by omega⟩
      rw [hy] at he
      have h1 := exp10_ge hex' y (by omega)
      rw [← he] at h1
      have h2 : (2:ℝ) ^ y ≤ 100 * 10 ^ e := by exact_mod_cast h1
      rw [show M2 = t.toNat + y by omega, pow_add]
      have h3 : (0:ℝ) ≤ 2 ^ t.toNat := by positivity
      nlinarith
  obtain ⟨hs1, hs2⟩ := (hle M2).1 le_rfl
  refine ⟨fun i hi j hj => ?_, fun i hi j hj => ?_⟩
  · show |forRange 0 A.d _ X j i| ≤ _
    rw [updG A.d A.n (fun x => o.div x (o.ofZ (10 ^ e))), if_pos ⟨hi, hj⟩, ho.div, ho.ofZ]
    push_cast
    rw [abs_div, abs_of_pos (show (0:ℝ) < 10 ^ e by positivity), div_le_iff₀ (by positivity)]
    refine le_trans ?_ hkey
    have hp : 1 ≤ M2 := (sizeInBits_pos _).trans (hs1 i hi j hj)
    have h1 := (sizeInBits_le hp).1 (hs1 i hi j hj)
    have h2 : |(o.toZ (X j i) : ℝ)| + 1 ≤ 2 ^ M2 := by exact_mod_cast h1
    have h3 := abs_sub_abs_le_abs_sub (X j i) (o.toZ (X j i) : ℝ)
    have h4 := hz (X j i)
    rw [abs_sub_comm] at h4
    linarith
  · show |forRange 0 A.m _ B.A j i| ≤ _
    rw [fillG A.m A.n (fun i j => (A.A j i).tdiv (10 ^ e)), if_pos ⟨hi, hj⟩]
    have hp : 1 ≤ M2 := (sizeInBits_pos _).trans (hs2 i hi j hj)
    have h1 := (sizeInBits_le hp).1 (hs2 i hi j hj)
    have hkey' : (2:ℤ) ^ M2 ≤ 100 * 2 ^ t.toNat * 10 ^ e := by exact_mod_cast hkey
    rw [← Int.natCast_natAbs, Int.natAbs_tdiv]
    push_cast
    rw [show (((10:ℤ) ^ e).natAbs) = 10 ^ e by simp [Int.natAbs_pow]]
    have : (A.A j i).natAbs / 10 ^ e ≤ 100 * 2 ^ t.toNat := by
      apply Nat.div_le_of_le_mul
      have h5 : ((A.A j i).natAbs : ℤ) ≤ (10 ^ e * (100 * 2 ^ t.toNat) : ℕ) := by
        push_cast
        linarith
      exact_mod_cast h5
    exact_mod_cast this

/-! ## Profile of a mixed matrix -/

theorem flastNonzero_spec {o : FPOps ℝ} (ho : Exact o) (c : ℕ → ℝ) (m : ℕ) :
    -1 ≤ flastNonzero o c m ∧ flastNonzero o c m < m ∧ (∀ r < m, flastNonzero o c m < r → c r = 0) ∧
      ∀ k : ℕ, flastNonzero o c m = k → c k ≠ 0 := by
  induction m with
  | zero => refine ⟨by simp [flastNonzero], by simp [flastNonzero], fun r hr => by omega, fun k h => ?_⟩
            simp [flastNonzero] at h
  | succ m ih =>
    obtain ⟨h1, h2, h3, h4⟩ := ih
    unfold flastNonzero
    by_cases h : o.isZero (c m) = true
    · rw [if_pos h]
      refine ⟨h1, by push_cast; omega, fun r hr hlt => ?_, h4⟩
      by_cases hrm : r = m
      · rw [hrm]; exact (ho.isZero _).1 h
      · exact h3 r (by omega) hlt
    · rw [if_neg h]
      refine ⟨by omega, by push_cast; omega, fun r hr hlt => by omega, fun k hk => ?_⟩
      have : m = k := by exact_mod_cast hk
      subst this
      exact fun h0 => h ((ho.isZero _).2 h0)

/-- Entry of the matrix represented: real rows first. -/
noncomputable def mrzEnt (M : MRZ ℝ) (c r : ℕ) : ℝ := if r < M.d then M.F c r else (M.A c (r - M.d) : ℝ)

theorem mrzLast_spec {o : FPOps ℝ} (ho : Exact o) (M : MRZ ℝ) (c : ℕ) :
    -1 ≤ mrzLast o M c ∧ mrzLast o M c < (M.d + M.m : ℕ) ∧
      (∀ r < M.d + M.m, mrzEnt M c r ≠ 0 → (r : ℤ) ≤ mrzLast o M c) ∧
      ∀ k : ℕ, mrzLast o M c = k → mrzEnt M c k ≠ 0 := by
  have g1 := lastNonzero_ge (M.A c) M.m
  have g2 := lastNonzero_lt (M.A c) M.m
  obtain ⟨h1, h2, h3, h4⟩ := flastNonzero_spec ho (M.F c) M.d
  unfold mrzLast
  simp only
  by_cases h : lastNonzero (M.A c) M.m = -1
  · simp only [if_pos h]
    refine ⟨h1, by push_cast; omega, fun r hr hne => ?_, fun k hk => ?_⟩
    · by_contra hc
      push Not at hc
      apply hne
      unfold mrzEnt
      split_ifs with hd
      · exact h3 r hd hc
      · rw [lastNonzero_supp (M.A c) M.m (r - M.d) (by omega) (by omega)]; simp
    · unfold mrzEnt
      rw [if_pos (by omega)]
      exact h4 k hk
  · simp only [if_neg h]
    refine ⟨by omega, by push_cast; omega, fun r hr hne => ?_, fun k hk => ?_⟩
    · by_contra hc
      push Not at hc
      apply hne
      unfold mrzEnt
      rw [if_neg (by omega), lastNonzero_supp (M.A c) M.m (r - M.d) (by omega) (by omega)]; simp
    · unfold mrzEnt
      rw [if_neg (by omega)]
      have := lastNonzero_ne (M.A c) M.m (k - M.d) (by omega)
      exact_mod_cast this

/-- **C83, profile.** `matrix_structure` of a mixed matrix is the least nondecreasing profile (values at least -1) bounding the
supports of the columns, rows being counted from the first real row. -/
theorem C83_structure {o : FPOps ℝ} (ho : Exact o) (M : MRZ ℝ) :
    (∀ j r, r < M.d + M.m → mrzEnt M j r ≠ 0 → (r : ℤ) ≤ mrzStructure o M j) ∧
    (∀ i j, i ≤ j → mrzStructure o M i ≤ mrzStructure o M j) ∧
    (∀ j, -1 ≤ mrzStructure o M j ∧ mrzStructure o M j < (M.d + M.m : ℕ)) ∧
    ∀ p : ℕ → ℤ, (∀ j r, r < M.d + M.m → mrzEnt M j r ≠ 0 → (r : ℤ) ≤ p j) → (∀ i j, i ≤ j → p i ≤ p j) →
      (∀ j, -1 ≤ p j) → ∀ j, mrzStructure o M j ≤ p j := by
  have hge : ∀ j, mrzLast o M j ≤ mrzStructure o M j := by
    intro j
    cases j with
    | zero => exact le_refl _
    | succ j => exact le_max_right _ _
  have hmono : ∀ i j, i ≤ j → mrzStructure o M i ≤ mrzStructure o M j := by
    intro i j h
    induction j, h using Nat.le_induction with
    | base => exact le_refl _
    | succ j _ ih => exact ih.trans (le_max_left _ _)
  refine ⟨fun j r hr hne => ((mrzLast_spec ho M j).2.2.1 r hr hne).trans (hge j), hmono,
    fun j => ⟨(mrzLast_spec ho M j).1.trans (hge j), ?_⟩, fun p h1 h2 h3 j => ?_⟩
  · induction j with
    | zero => exact (mrzLast_spec ho M 0).2.1
    | succ j ih => exact max_lt ih (mrzLast_spec ho M (j + 1)).2.1
  · have hlast : ∀ j, mrzLast o M j ≤ p j := by
      intro j
      obtain ⟨a1, a2, -, a4⟩ := mrzLast_spec ho M j
      rcases lt_or_ge (mrzLast o M j) 0 with h0 | h0
      · have := h3 j; omega
      · obtain ⟨k, hk⟩ := Int.eq_ofNat_of_zero_le h0
        rw [hk]
        exact h1 j k (by rw [hk] at a2; exact_mod_cast a2) (a4 k hk)
    induction j with
    | zero => exact hlast 0
    | succ j ih => exact max_le (ih.trans (h2 _ _ (Nat.le_succ j))) (hlast _)

/-! ## Epsilon, conversion of a column -/

/-- **C83, epsilon.** In exact arithmetic `shift_epsilon(bits)` is `2^(bits - prec)`, `prec` being the precision of the entry
`(0,0)`; the default precision left is `prec`, whatever it was before the call. -/
theorem C83_epsilon (bits prec : ℤ) :
    shiftEpsilon exactElem (fun a b => a.bind fun x => b.map fun y => x * y) bits prec =
      (some ((2:ℝ) ^ (bits - prec)), prec) := by
  have h2 : (0:ℝ) < ((2:ℤ):ℝ) := by norm_num
  simp only [shiftEpsilon, exactElem, Option.bind_some, if_pos h2, Option.map_some]
  congr 2
  rw [← Real.rpow_intCast, Real.rpow_def_of_pos (by norm_num)]
  push_cast
  ring_nf

/-- **C83, conversion of a column** (`setcol(j, c, beg, l)` of a floating point matrix from a column of a mixed matrix): with `beg`
at most `d`, the rows `beg .. beg+l-1` receive the converted entries and everything else is kept; in general the rows
`d .. beg+l-1` are written too, including those before `beg` (DEFECT when `beg > d`), as long as `l` is not 0. -/
theorem C83_setcol {G : Type} (og : FPOps G) (conv : F → G) (X : Mat G) (j : ℕ) (M : MRZ F) (c beg l : ℕ) (col r : ℕ) :
    fsetcolMixed og conv X j M c beg l col r =
      if col = j ∧ r < beg + l ∧ (beg ≤ r ∨ M.d ≤ r ∧ 0 < l) then
        (if r < M.d then conv (M.F c r) else og.ofZ (M.A c (r - M.d)))
      else X col r := by
  unfold fsetcolMixed setCol
  by_cases hl : l = 0
  · subst hl
    rw [if_neg (by simp), if_neg (by omega)]
  · rw [if_pos hl]
    by_cases hc : col = j
    · subst hc
      by_cases h1 : r < M.d
      · by_cases h2 : beg ≤ r ∧ r < beg + l
        · simp [h1, h2.1, h2.2]
        · simp only [if_true, if_pos h1, if_neg h2]
          rw [if_neg (by omega)]
      · by_cases h2 : r < beg + l
        · simp [h1, h2, show M.d ≤ r by omega, show 0 < l by omega]
        · simp [h1, h2]
    · simp [hc]

/-! ## Concrete cases -/

/-- One real row above two integer rows. -/
def mixEx : MRZ ℤ :=
  ⟨1, 2, 2, fun j _ => if j = 0 then 5 * toyScale else 7 * toyScale, fun j i => if j = i then 3000 else 0⟩

example : opOk 3 2 (.submul 1 0 4 3) := Or.inl ⟨1, 0, -4, rfl, by decide, by decide, by decide⟩
example : opOk 3 2 (.swap 0 1) := Or.inr ⟨0, 1, rfl, by decide, by decide, by decide⟩

/-- `col 1 -= 4 col 0` on the three rows, then a swap. -/
example : let M := (mixEx.op toyOps (fun x _ => x) (.submul 1 0 4 3)).op toyOps (fun x _ => x) (.swap 0 1)
    (M.F 0 0 = -13 * toyScale ∧ M.A 0 0 = -12000 ∧ M.A 0 1 = 3000) ∧ M.F 1 0 = 5 * toyScale ∧ M.A 1 0 = 3000 ∧ M.A 1 1 = 0 := by
  decide +kernel

/-- 12-bit integers, `t = 5`: everything is divided by `10^2`. -/
example : ((mixedTrunc toyOps (fun x => (x * 301029995 / 10 ^ 9).toNat) mixEx 5 0 mixEx).map fun B =>
    (B.A 0 0, B.A 1 1, B.F 0 0)) = some (30, 30, toyScale / 20) := by decide +kernel

/-- More integer rows than columns, `t < 0`. -/
example : (mixedTrunc toyOps (fun x => (x * 301029995 / 10 ^ 9).toNat) ⟨1, 2, 1, mixEx.F, mixEx.A⟩ (-1) 0 mixEx).isNone = true := by
  decide +kernel

example : (List.range 2).map (mrzStructure toyOps mixEx) = [1, 2] := by decide +kernel

example : Exact realOps ∧ (∀ x : ℝ, |(realOps.toZ x : ℝ) - x| ≤ 1 / 2) ∧ (Exp10 fun x => (x * 301029995 / 10 ^ 9).toNat) ∧
    Exp10Ge fun x => (x * 301029995 / 10 ^ 9).toNat :=
  ⟨realOps_exact.toExact, fun x => by rw [abs_sub_comm]; exact abs_sub_round x, exp10_exact, exp10Ge_exact⟩

end HPLLL.Props
