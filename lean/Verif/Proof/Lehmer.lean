import Verif.Model.Lehmer
import Verif.Proof.Relations
import Verif.Props.Exact
/-! Invariant of the Lehmer-like reduction. -/

namespace HPLLL
open Spec Matrix Finset

variable {F : Type}

namespace Leh

/-- The products of the loop are products. -/
def ProdOk (e : LehEnv F) (n d : ℕ) : Prop :=
  e.S > 1 → ∀ k A U, toMatrix n d (e.pprod k A U) = toMatrix n d A * toMatrix d d U

/-- Profile on or below the diagonal. -/
def Prof (n d : ℕ) (T : Mat Int) : Prop := ∀ j < d, (j : ℤ) ≤ matrixStructure n T j

theorem uinv_of_prof {n d : ℕ} (A : Mat Int) (s : Lat F) (hd : s.d = d)
    (hstr : s.str = matrixStructure n A) (ht : s.transf = true) (hU : s.U = idMat) (hA : Prof n d A) :
    UInv d s := by
  refine ⟨hd, ht, ?_, ?_, ?_⟩
  · intro i j hij _; rw [hstr]; exact matrixStructure_mono n A hij
  · intro j hj r hr hs
    rw [hU]
    have := hA j hj
    rw [hstr] at hs
    simp only [idMat]
    rw [if_neg (by omega)]
  · rw [hU, show toMatrix d d idMat = (1 : Matrix (Fin d) (Fin d) ℤ) from ?_]
    · simp
    · ext i j
      simp only [toMatrix, idMat, of_apply, Matrix.one_apply, Fin.ext_iff]

/-- Changing the first row of independent columns keeps the profile if the first column is not zero. -/
theorem prof_of_rows {n d : ℕ} {M T : Mat Int} (h : ∀ c < d, ∀ r, 0 < r → r < n → T c r = M c r)
    (hM : FullColumnRank (toMatrix n d M)) (h0 : ∃ r < n, T 0 r ≠ 0) : Prof n d T := by
  have hs0 : 0 ≤ matrixStructure n T 0 := by
    obtain ⟨r, hr, hne⟩ := h0
    by_contra hneg
    exact hne (matrixStructure_supp n T 0 r hr (by omega))
  intro j hj
  refine structure_ge_diag n d M hM (matrixStructure n T) (fun i j hij _ => matrixStructure_mono n T hij)
    (fun j _ => matrixStructure_lt n T j) (fun j hj r hr hs => ?_) j hj
  have := matrixStructure_mono n T (Nat.zero_le j)
  rw [← h j hj r (by omega) hr]
  exact matrixStructure_supp n T j r hr hs

structure Inv (e : LehEnv F) (n d : ℕ) (A : Mat Int) (s : LehState F) : Prop where
  hist : ∃ A', HistInv n d A' true e.vd True s.B
  tr : ∃ W : Matrix (Fin d) (Fin d) ℤ, toMatrix n d s.C = toMatrix n d A * W ∧
    ((∀ T ∈ s.Ts, Prof n d T) → IsUnit W.det)

theorem start_inv (e : LehEnv F) (n d : ℕ) (A : Mat Int) : Inv e n d A (lehStart e n d A) :=
  ⟨⟨_, Props.newLattice_hist e.o e.junk n d _ true 0 e.longFlag e.vd⟩, 1,
    by rw [Matrix.mul_one]; rfl, fun _ => by simp⟩

/-- One iteration, in detail. -/
theorem step_spec {e : LehEnv F} {n d : ℕ} (hd : 0 < d) (hP : ProdOk e n d) {lshift : ℤ} {truncate : Bool}
    {s s' : LehState F} (hs : lehStep e n d lshift truncate s = some s') :
    ∃ Ct st, e.lift n d s.C (min 0 (s.def_ + lshift)) (if truncate then 40 else 0) = some Ct ∧
      hlll e.o e.fuel e.c99 true (s.B.assign Ct) = some (st, s'.B) ∧
      s'.def_ = min 0 (s.def_ + lshift) ∧ s'.Ts = s.Ts ++ [Ct] ∧
      toMatrix n d s'.C = toMatrix n d s.C * toMatrix d d s'.B.getU.M := by
  unfold lehStep at hs
  simp only [] at hs
  split at hs
  · simp at hs
  rename_i Ct hCt
  split at hs
  · simp at hs
  rename_i st B hB
  simp only [Option.some.injEq] at hs
  subst hs
  refine ⟨Ct, st, hCt, hB, rfl, rfl, ?_⟩
  simp only
  split
  · rename_i h; exact hP h _ _ _
  · exact (Props.C46_products n d d hd s.C B.getU.M s.C).2.1

theorem step_inv {e : LehEnv F} {n d : ℕ} (hd : 0 < d) (hP : ProdOk e n d) {lshift : ℤ} {truncate : Bool}
    {A : Mat Int} {s s' : LehState F} (h : Inv e n d A s)
    (hs : lehStep e n d lshift truncate s = some s') : Inv e n d A s' := by
  obtain ⟨⟨A', hH⟩, W, hW, hWu⟩ := h
  obtain ⟨Ct, st, -, hB, -, hT, hC⟩ := step_spec hd hP hs
  have h1 := hH.assign Ct
  have h2 : HistInv n d Ct true e.vd True s'.B := h1.does (.hlll e.o e.c99 true _ _ e.fuel st hB)
    (fun _ S thr h => by cases h)
  refine ⟨⟨Ct, h2⟩, W * toMatrix d d s'.B.getU.M, by rw [hC, hW, Matrix.mul_assoc], fun hTs => ?_⟩
  rw [hT] at hTs
  rw [Matrix.det_mul]
  refine IsUnit.mul (hWu fun T hT => hTs T (List.mem_append_left _ hT)) ?_
  have ht : s'.B.transf = true := h2.tr
  simp only [Lat.getU, ht, if_true]
  have hu : UInv d (s.B.assign Ct) := by
    refine uinv_of_prof (n := n) Ct _ hH.inv.hd ?_ hH.tr ?_ (hTs Ct (by simp))
    · show matrixStructure s.B.n Ct = _; rw [hH.inv.hn]
    · show (if s.B.transf then idMat else s.B.U) = idMat
      rw [hH.tr]; rfl
  exact (UInv.hlll e.o e.c99 e.fuel true _ s'.B st (le_of_eq h1.km) hu hB).uni

/-- If the truncated matrix is the basis itself, the new basis is the one that `hlll` returns. -/
theorem step_last {e : LehEnv F} {n d : ℕ} (hd : 0 < d) (hP : ProdOk e n d) {lshift : ℤ} {truncate : Bool}
    {A : Mat Int} {s s' : LehState F} (h : Inv e n d A s)
    (hs : lehStep e n d lshift truncate s = some s') (Ct : Mat Int) (hCt : s'.Ts = s.Ts ++ [Ct])
    (he : toMatrix n d Ct = toMatrix n d s.C) (hr : FullColumnRank (toMatrix n d Ct)) :
    toMatrix n d s'.C = toMatrix n d s'.B.getbase.M := by
  obtain ⟨⟨A', hH⟩, -⟩ := h
  obtain ⟨Ct', st, -, hB, -, hT, hC⟩ := step_spec hd hP hs
  have hCC : Ct' = Ct := by
    rw [hCt] at hT
    simpa using hT.symm
  subst hCC
  have h1 := hH.assign Ct'
  have h2 : HistInv n d Ct' true e.vd True s'.B := h1.does (.hlll e.o e.c99 true _ _ e.fuel st hB)
    (fun _ S thr h => by cases h)
  obtain ⟨W, hW, hBW, hU⟩ := h2.inv.uni
  have ht : s'.B.transf = true := h2.tr
  rw [hC, ← he]
  simp only [Lat.getU, ht, if_true, Lat.getbase]
  rw [hU ⟨rfl, hr, trivial⟩, hBW]

/-- The loop: invariant, number of iterations, last iteration. -/
theorem loop_spec {e : LehEnv F} {n d : ℕ} (hd : 0 < d) (hP : ProdOk e n d) {lshift : ℤ} {truncate : Bool}
    {A : Mat Int} : ∀ (fuel : ℕ) (s s' : LehState F), Inv e n d A s → s.def_ ≤ 0 →
      lehLoop e n d lshift truncate fuel s = some s' →
      Inv e n d A s' ∧ s'.def_ = 0 ∧
      ∃ l, s'.Ts = s.Ts ++ l ∧ (0 < lshift → (l.length : ℤ) = -(s.def_ / lshift)) ∧
        (s.def_ < 0 → ∃ s1, Inv e n d A s1 ∧ lehStep e n d lshift truncate s1 = some s' ∧
          ∃ l', s1.Ts = s.Ts ++ l' ∧ l'.length + 1 = l.length) := by
  intro fuel
  induction fuel with
  | zero => intro s s' _ _ h; simp [lehLoop] at h
  | succ fuel ih =>
    intro s s' hI h0 h
    unfold lehLoop at h
    split at h
    · rename_i hlt
      split at h
      · simp at h
      rename_i s1 hs1
      have hI1 := step_inv hd hP hI hs1
      obtain ⟨Ct, st, -, hB, hdef, hT, hC⟩ := step_spec hd hP hs1
      have h01 : s1.def_ ≤ 0 := by rw [hdef]; exact min_le_left _ _
      obtain ⟨i1, i2, l, i3, i4, i5⟩ := ih s1 s' hI1 h01 h
      refine ⟨i1, i2, Ct :: l, by rw [i3, hT]; simp, fun hl => ?_, fun _ => ?_⟩
      · have := i4 hl
        rw [List.length_cons]
        push_cast
        rw [this, hdef]
        by_cases hc : s.def_ + lshift ≤ 0
        · rw [min_eq_right hc, Int.add_ediv_of_dvd_right (dvd_refl _), Int.ediv_self (by omega)]
          ring
        · rw [min_eq_left (by omega)]
          have : s.def_ / lshift = -1 := by
            apply le_antisymm
            · have : s.def_ / lshift < 0 := Int.ediv_neg_of_neg_of_pos hlt hl
              omega
            · rw [Int.le_ediv_iff_mul_le hl]; omega
          rw [this]; simp
      · by_cases hd0 : s1.def_ < 0
        · obtain ⟨s2, j1, j2, l', j3, j4⟩ := i5 hd0
          exact ⟨s2, j1, j2, Ct :: l', by rw [j3, hT]; simp, by simp; exact j4⟩
        · have hl0 : s' = s1 := by
            cases fuel with
            | zero => simp [lehLoop] at h
            | succ f =>
              unfold lehLoop at h
              rw [if_neg hd0] at h
              simpa using h.symm
          subst hl0
          refine ⟨s, hI, hs1, [], by simp, ?_⟩
          have : l = [] := by simpa using i3
          rw [this]; rfl
    · rename_i hge
      simp only [Option.some.injEq] at h
      subst h
      have hz : s.def_ = 0 := by omega
      exact ⟨hI, hz, [], by simp, fun _ => by rw [hz]; simp, fun h => by omega⟩

/-- With `lshift > 0` the only way not to return is a reduction that does not (or a conversion that ends
the program). -/
theorem loop_returns {e : LehEnv F} {n d : ℕ} {lshift : ℤ} (hl : 0 < lshift) {truncate : Bool} :
    ∀ (fuel : ℕ) (s : LehState F), (-s.def_).toNat < fuel →
      (∀ s1, s1.def_ < 0 → lehStep e n d lshift truncate s1 ≠ none) →
      ∃ s', lehLoop e n d lshift truncate fuel s = some s' := by
  intro fuel
  induction fuel with
  | zero => intro s h; omega
  | succ fuel ih =>
    intro s hf hne
    unfold lehLoop
    split
    · rename_i hlt
      have h1 := hne s hlt
      cases hs : lehStep e n d lshift truncate s with
      | none => exact absurd hs h1
      | some s1 =>
        simp only
        refine ih s1 ?_ hne
        have : s1.def_ = min 0 (s.def_ + lshift) := by
          unfold lehStep at hs
          simp only [] at hs
          split at hs
          · simp at hs
          split at hs
          · simp at hs
          simp only [Option.some.injEq] at hs
          subst hs; rfl
        rw [this]
        omega
    · exact ⟨s, rfl⟩

/-- With `lshift < 0` the default never reaches 0. -/
theorem loop_negative {e : LehEnv F} {n d : ℕ} {lshift : ℤ} (hl : lshift < 0) {truncate : Bool} :
    ∀ (fuel : ℕ) (s : LehState F), s.def_ < 0 → lehLoop e n d lshift truncate fuel s = none := by
  intro fuel
  induction fuel with
  | zero => intro s _; rfl
  | succ fuel ih =>
    intro s hs0
    unfold lehLoop
    rw [if_pos hs0]
    cases hs : lehStep e n d lshift truncate s with
    | none => rfl
    | some s1 =>
      simp only
      refine ih s1 ?_
      have : s1.def_ = min 0 (s.def_ + lshift) := by
        unfold lehStep at hs
        simp only [] at hs
        split at hs
        · simp at hs
        split at hs
        · simp at hs
        simp only [Option.some.injEq] at hs
        subst hs; rfl
      omega

/-- Rows `1 .. n-1`. -/
def low (M : Mat Int) : Mat Int := fun c r => M c (r + 1)

theorem fcr_of_low {n d : ℕ} {M : Mat Int} (hM : FullColumnRank (toMatrix (n - 1) d (low M))) :
    FullColumnRank (toMatrix n d M) := by
  unfold FullColumnRank at hM ⊢
  rw [Fintype.linearIndependent_iff] at hM ⊢
  intro g hg j
  refine hM g ?_ j
  funext i
  have := congrFun hg ⟨i + 1, by omega⟩
  simp only [Finset.sum_apply, Pi.smul_apply, smul_eq_mul, Pi.zero_apply, Matrix.col, toMatrix, of_apply,
    Matrix.transpose_apply] at this ⊢
  exact this

theorem low_mul {n d : ℕ} {M N : Mat Int} {W : Matrix (Fin d) (Fin d) ℤ}
    (h : toMatrix n d M = toMatrix n d N * W) :
    toMatrix (n - 1) d (low M) = toMatrix (n - 1) d (low N) * W := by
  ext i j
  have := congrFun (congrFun h ⟨i + 1, by omega⟩) j
  rw [Matrix.mul_apply] at this ⊢
  exact this

/-- The truncated matrices of a run without truncation. -/
def plain (e : LehEnv F) : Prop := ∀ n d A def_ bits, e.lift n d A def_ bits =
  some (liftTruncate n d A def_ bits fun _ _ => 0)

/-- `Ct` differs from `C` in the first row only, or not at all. -/
theorem lift_rows {n d : ℕ} (hn : 0 < n) (hd : 0 < d) (A : Mat Int) (df : ℤ) :
    (∀ c < d, ∀ r, 0 < r → r < n → liftTruncate n d A df 0 (fun _ _ => 0) c r = A c r) ∧
    (df = 0 → ∀ c < d, ∀ r < n, liftTruncate n d A df 0 (fun _ _ => 0) c r = A c r) := by
  obtain ⟨k, h1, h2, -⟩ := Props.C32_lift_truncate n d hn hd A df 0 (fun _ _ => 0)
  have hk := h2 (le_refl _)
  subst hk
  refine ⟨fun c hc r h0 hr => ?_, fun h0 c hc r hr => ?_⟩
  · rw [h1 c hc r hr]
    unfold Props.lifted
    rw [if_neg (by omega)]; simp
  · rw [h1 c hc r hr, h0]
    unfold Props.lifted
    split
    · rename_i h; subst h; simp
    · simp

theorem loop_Ts {e : LehEnv F} {n d : ℕ} (hd : 0 < d) (hP : ProdOk e n d) {lshift : ℤ} {truncate : Bool} :
    ∀ (fuel : ℕ) (s s' : LehState F), lehLoop e n d lshift truncate fuel s = some s' →
      ∃ l, s'.Ts = s.Ts ++ l := by
  intro fuel
  induction fuel with
  | zero => intro s s' h; simp [lehLoop] at h
  | succ fuel ih =>
    intro s s' h
    unfold lehLoop at h
    split at h
    · split at h
      · simp at h
      rename_i s2 hs2
      obtain ⟨Ct2, _, _, _, _, hT2, _⟩ := step_spec hd hP hs2
      obtain ⟨l, hl⟩ := ih s2 s' h
      exact ⟨Ct2 :: l, by rw [hl, hT2]; simp⟩
    · simp only [Option.some.injEq] at h
      exact ⟨[], by rw [h]; simp⟩

/-- Without truncation and with independent columns, the transformation is unimodular as long as the
first columns of the reduced matrices are not zero. -/
theorem loop_unit {e : LehEnv F} {n d : ℕ} (hn : 0 < n) (hd : 0 < d) (hP : ProdOk e n d) (he : plain e)
    {lshift : ℤ} {A : Mat Int} (hA : FullColumnRank (toMatrix n d A)) :
    ∀ (fuel : ℕ) (s s' : LehState F),
      ((∃ A', HistInv n d A' true e.vd True s.B) ∧ (∃ W : Matrix (Fin d) (Fin d) ℤ,
        toMatrix n d s.C = toMatrix n d A * W ∧ IsUnit W.det)) →
      lehLoop e n d lshift false fuel s = some s' →
      ∃ l, s'.Ts = s.Ts ++ l ∧ ((∀ T ∈ l, ∃ r < n, T 0 r ≠ 0) → ∀ T ∈ l, Prof n d T) := by
  intro fuel
  induction fuel with
  | zero => intro s s' _ h; simp [lehLoop] at h
  | succ fuel ih =>
    intro s s' hI h
    unfold lehLoop at h
    split at h
    · split at h
      · simp at h
      rename_i s1 hs1
      obtain ⟨⟨A', hH⟩, W, hW, hWu⟩ := hI
      obtain ⟨Ct, st, hl, hB, hdef, hT, hC⟩ := step_spec hd hP hs1
      rw [he] at hl
      simp only [Option.some.injEq] at hl
      by_cases hc : ∃ r < n, Ct 0 r ≠ 0
      · have hPr : Prof n d Ct := by
          refine prof_of_rows (M := s.C) (fun c hc r h0 hr => ?_) (by rw [hW]; exact fcr_mul_unit hWu hA) hc
          rw [← hl]
          exact (lift_rows hn hd s.C _).1 c hc r h0 hr
        have h1 := hH.assign Ct
        have h2 : HistInv n d Ct true e.vd True s1.B := h1.does (.hlll e.o e.c99 true _ _ e.fuel st hB)
          (fun _ S thr h => by cases h)
        have hu : UInv d (s.B.assign Ct) := by
          refine uinv_of_prof (n := n) Ct _ hH.inv.hd ?_ hH.tr ?_ hPr
          · show matrixStructure s.B.n Ct = _; rw [hH.inv.hn]
          · show (if s.B.transf then idMat else s.B.U) = idMat
            rw [hH.tr]; rfl
        have hun := (UInv.hlll e.o e.c99 e.fuel true _ s1.B st (le_of_eq h1.km) hu hB).uni
        have ht : s1.B.transf = true := h2.tr
        obtain ⟨l, hl1, hl2⟩ := ih s1 s' ⟨⟨Ct, h2⟩, W * toMatrix d d s1.B.getU.M,
          by rw [hC, hW, Matrix.mul_assoc], by
            rw [Matrix.det_mul]
            refine hWu.mul ?_
            simp only [Lat.getU, ht, if_true]
            exact hun⟩ h
        refine ⟨Ct :: l, by rw [hl1, hT]; simp, fun hne T hTm => ?_⟩
        rcases List.mem_cons.1 hTm with rfl | hTm
        · exact hPr
        · exact hl2 (fun T' hT' => hne T' (List.mem_cons_of_mem _ hT')) T hTm
      · obtain ⟨l, hl1⟩ := loop_Ts hd hP fuel s1 s' h
        exact ⟨Ct :: l, by rw [hl1, hT]; simp, fun hne => absurd (hne Ct (by simp)) hc⟩
    · simp only [Option.some.injEq] at h
      subst h
      exact ⟨[], by simp, fun _ T hT => by simp at hT⟩

/-- The first column of a matrix that agrees with `M` below the first row. -/
theorem first_ne {n d : ℕ} (hd : 0 < d) {M T : Mat Int} (h : ∀ c < d, ∀ r, 0 < r → r < n → T c r = M c r)
    (hM : FullColumnRank (toMatrix (n - 1) d (low M))) : ∃ r < n, T 0 r ≠ 0 := by
  by_contra hc
  push Not at hc
  have h0 : ∀ r, r < n - 1 → low M 0 r = 0 := fun r hr => by
    unfold low
    rw [← h 0 hd (r + 1) (by omega) (by omega)]
    exact hc _ (by omega)
  have := hM.ne_zero (⟨0, hd⟩ : Fin d)
  apply this
  funext i
  exact h0 i i.2

/-- When the rows below the first one are independent, nothing is left to assume. -/
theorem loop_low {e : LehEnv F} {n d : ℕ} (hn : 0 < n) (hd : 0 < d) (hP : ProdOk e n d) (he : plain e)
    {lshift : ℤ} {A : Mat Int} (hA : FullColumnRank (toMatrix (n - 1) d (low A))) :
    ∀ (fuel : ℕ) (s s' : LehState F), Inv e n d A s → (∀ T ∈ s.Ts, Prof n d T) →
      lehLoop e n d lshift false fuel s = some s' → ∀ T ∈ s'.Ts, Prof n d T := by
  intro fuel
  induction fuel with
  | zero => intro s s' _ _ h; simp [lehLoop] at h
  | succ fuel ih =>
    intro s s' hI hTs h
    unfold lehLoop at h
    split at h
    · split at h
      · simp at h
      rename_i s1 hs1
      obtain ⟨W, hW, hWu⟩ := hI.tr
      have hlow := fcr_mul_unit (hWu hTs) hA
      rw [← low_mul hW] at hlow
      obtain ⟨Ct, st, hl, hB, hdef, hT, hC⟩ := step_spec hd hP hs1
      rw [he] at hl
      simp only [Option.some.injEq] at hl
      have hrow : ∀ c < d, ∀ r, 0 < r → r < n → Ct c r = s.C c r := fun c hc r h0 hr => by
        rw [← hl]
        exact (lift_rows hn hd s.C _).1 c hc r h0 hr
      refine ih s1 s' (step_inv hd hP hI hs1) (fun T hTm => ?_) h
      rw [hT] at hTm
      rcases List.mem_append.1 hTm with hTm | hTm
      · exact hTs T hTm
      · rw [List.mem_singleton] at hTm
        subst hTm
        exact prof_of_rows hrow (fcr_of_low hlow) (first_ne hd hrow hlow)
    · simp only [Option.some.injEq] at h
      subst h; exact hTs

end Leh
end HPLLL
