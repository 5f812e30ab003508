import Verif.Model.Relations
import Verif.Props.History
import Verif.Props.MatH
import Verif.Props.Trunc
/-! Invariant of the integer relation search. -/

namespace HPLLL
open Spec Matrix Finset

variable {F G : Type}

theorem zabs_eq (a : ℤ) : zabs a = |a| := by unfold zabs; exact (Int.abs_eq_natAbs a).symm

/-- The row of input, then the identity. -/
theorem relInit_apply (d : ℕ) (A : Mat Int) (c r : ℕ) (hc : c < d) (hr : r < 1 + d) :
    relInit d A c r = if r = 0 then A c 0 else if r = 1 + c then 1 else 0 := by
  unfold relInit
  have h0 : ∀ c r, forRange 0 d (fun j M => setEntry M 0 j (A j 0)) (fun _ _ => (0 : ℤ)) c r =
      if r = 0 ∧ c < d then A c 0 else 0 := by
    intro c r
    have := forRange_fillRow (fun j => A j 0) 0 0 0 0 d (Nat.zero_le d) (fun _ _ => (0 : ℤ)) c r
    simpa using this
  have := forRange_ind (fun m (M : Mat Int) => M c r =
    if 1 ≤ r ∧ r = 1 + c ∧ c < m then 1 else if r = 0 ∧ c < d then A c 0 else 0) (Nat.zero_le d)
    (fun i M => setEntry M (1 + i) i 1)
    (forRange 0 d (fun j M => setEntry M 0 j (A j 0)) fun _ _ => 0) ?_ ?_
  · rw [this]
    by_cases h1 : r = 0
    · rw [if_neg (by omega), if_pos ⟨h1, hc⟩, if_pos h1]
    · rw [if_neg h1]
      by_cases h2 : r = 1 + c
      · rw [if_pos ⟨by omega, h2, hc⟩, if_pos h2]
      · rw [if_neg (by omega), if_neg (by omega), if_neg h2]
  · rw [h0, if_neg (by omega : ¬ (1 ≤ r ∧ r = 1 + c ∧ c < 0))]
  · intro i M _ _ h
    rw [setEntry_apply, h]
    by_cases e : c = i ∧ r = 1 + i
    · rw [if_pos e, if_pos (by omega)]
    · rw [if_neg e]
      by_cases e2 : 1 ≤ r ∧ r = 1 + c ∧ c < i
      · rw [if_pos e2, if_pos (by omega)]
      · rw [if_neg e2, if_neg (by omega : ¬ (1 ≤ r ∧ r = 1 + c ∧ c < i + 1))]

/-- `relInit * W`: the row of input times `W`, then `W`. -/
theorem relInit_mul (d : ℕ) (A : Mat Int) (W : Matrix (Fin d) (Fin d) ℤ) (r : Fin (1 + d)) (j : Fin d) :
    (toMatrix (1 + d) d (relInit d A) * W) r j =
      if h : (r : ℕ) = 0 then ∑ k : Fin d, A k 0 * W k j else W ⟨r - 1, by omega⟩ j := by
  rw [Matrix.mul_apply]
  simp only [toMatrix, Matrix.of_apply]
  split
  · rename_i h
    refine sum_congr rfl fun k _ => ?_
    rw [relInit_apply d A k r k.2 r.2, if_pos h]
  · rename_i h
    rw [sum_eq_single (⟨r - 1, by omega⟩ : Fin d)]
    · rw [relInit_apply d A _ r (by simp only []; omega) r.2, if_neg h, if_pos (by simp only []; omega),
        one_mul]
    · intro k _ hk
      rw [relInit_apply d A k r k.2 r.2, if_neg h, if_neg, zero_mul]
      intro h'
      exact hk (Fin.ext (by simp only []; omega))
    · intro h; exact absurd (mem_univ _) h

/-- The choice of the column: the least absolute value of the first row. -/
theorem relCol_spec (d : ℕ) (hd : 0 < d) (A : Mat Int) :
    (relCol d A).2 < d ∧ ∀ i < d, |A (relCol d A).2 0| ≤ |A i 0| := by
  have := forRange_ind (fun m (p : ℤ × ℕ) => p.2 < m ∧ |A p.2 0| ≤ p.1 ∧
      (p.1 = |A p.2 0| ∨ (A p.2 0 = 0 ∧ p.1 = 1)) ∧ ∀ i < m, |A p.2 0| ≤ |A i 0|)
    (show 1 ≤ d from hd)
    (fun i (p : ℤ × ℕ) => if zabs (A i 0) < p.1 then (zabs (A i 0), i) else p)
    (if A 0 0 = 0 then 1 else zabs (A 0 0), 0) ?_ ?_
  · exact ⟨this.1, this.2.2.2⟩
  · refine ⟨by norm_num, ?_, ?_, fun i hi => ?_⟩
    · simp only [zabs_eq]
      split
      · rename_i h; rw [h]; norm_num
      · exact le_refl _
    · simp only [zabs_eq]
      split
      · rename_i h; exact Or.inr ⟨h, rfl⟩
      · exact Or.inl rfl
    · have : i = 0 := by omega
      rw [this]
  · intro i p h1 h2 ⟨a, b, c, e⟩
    simp only [zabs_eq]
    split
    · rename_i h
      refine ⟨by simp only []; omega, le_refl _, Or.inl rfl, fun k hk => ?_⟩
      simp only []
      by_cases hki : k = i
      · rw [hki]
      · have := e k (by omega)
        rcases c with c | ⟨c, c'⟩
        · rw [c] at h; linarith
        · rw [c'] at h
          have h0 : |A i 0| = 0 := le_antisymm (by omega) (abs_nonneg _)
          rw [h0]; exact abs_nonneg _
    · rename_i h
      refine ⟨by omega, b, c, fun k hk => ?_⟩
      by_cases hki : k = i
      · rw [hki]
        rcases c with c | ⟨c, c'⟩
        · rw [← c]; exact not_lt.1 h
        · rw [c, abs_zero]; exact abs_nonneg _
      · exact e k (by omega)

/-- The products of the search are products. -/
def ProdOk (e : RelEnv F G) (d : ℕ) : Prop :=
  e.S > 1 → ∀ k A U, toMatrix (1 + d) d (e.pprod k A U) = toMatrix (1 + d) d A * toMatrix d d U

/-- The outcomes given to the model are those of `pmatprod_in_int` under some schedules. -/
def Scheduled (e : RelEnv F G) (d : ℕ) : Prop :=
  ∀ k A U, ∃ (s : PState) (T : List (ℕ × PAct)), s.sh 0 = A ∧
    Interleave (threads e.S (pmatprodInIntProg (1 + d) d e.S)) T ∧
    e.pprod k A U = (execAll (pact U) T s).sh 0

theorem Scheduled.prodOk {e : RelEnv F G} {d : ℕ} (hd : 0 < d) (h : e.S > 1 → Scheduled e d) :
    ProdOk e d := by
  intro hS k A U
  obtain ⟨s, T, h1, h2, h3⟩ := h hS k A U
  rw [h3, (Props.C25_pmatprod_in_int (1 + d) d e.S hd (by omega) A U s h1 T h2).1]

/-- The transformation applied by one iteration on `T` is unimodular: independent columns for HLLL,
`fplll` returning a unimodular matrix for FPLLL. -/
def GoodT (e : RelEnv F G) (d : ℕ) (lllmethod : ℤ) (T : Mat Int) : Prop :=
  (lllmethod = methodHLLL → FullColumnRank (toMatrix (1 + d) d T)) ∧
  (lllmethod = methodFPLLL → Unimodular (toMatrix d d (e.fplll (transposeTo (1 + d) d T fun _ _ => 0))))

structure RelInv (e : RelEnv F G) (d : ℕ) (lllmethod : ℤ) (A : Mat Int) (s : RelState F G) : Prop where
  hist : ∃ A', HistInv (1 + d) d A' true 0 True s.Bp
  tr : ∃ W : Matrix (Fin d) (Fin d) ℤ,
    toMatrix (1 + d) d s.A = toMatrix (1 + d) d (relInit d A) * W ∧
    ((∀ T ∈ s.Ts, GoodT e d lllmethod T) → IsUnit W.det)

theorem isUnit_of_unimodular {d : ℕ} {W : Matrix (Fin d) (Fin d) ℤ} (h : Unimodular W) : IsUnit W.det := by
  rcases h with h | h <;> rw [h] <;> simp

theorem relStart_inv (e : RelEnv F G) (d : ℕ) (A : Mat Int) (alpha sizemethod lllmethod : ℤ) (longFlag : Bool) :
    RelInv e d lllmethod A (relStart e d A alpha sizemethod longFlag) :=
  ⟨⟨_, Props.newLattice_hist e.o e.junk (1 + d) d _ true sizemethod longFlag 0⟩,
    1, by rw [Matrix.mul_one]; rfl, fun _ => by simp⟩

theorem relReduce_inv {e : RelEnv F G} {d : ℕ} (hd : 0 < d) (hP : ProdOk e d) {lllmethod : ℤ} {A : Mat Int}
    {T : Mat Int} {s s' : RelState F G} (h : RelInv e d lllmethod A s)
    (hs : relReduce e d lllmethod T s = some s') :
    RelInv e d lllmethod A s' ∧ s'.Ts = s.Ts ++ [T] ∧ s'.def_ = s.def_ := by
  obtain ⟨⟨A', hH⟩, W, hW, hWu⟩ := h
  have hprod : ∀ U, toMatrix (1 + d) d
      (if e.S > 1 then e.pprod s.Ts.length s.A U else matprodIn (1 + d) d U s.A) =
      toMatrix (1 + d) d s.A * toMatrix d d U := by
    intro U
    split
    · rename_i h; exact hP h _ _ _
    · exact (Props.C46_products (1 + d) d d hd s.A U s.A).2.1
  have hmem : ∀ {s1 : RelState F G}, s1.Ts = s.Ts ++ [T] → (∀ T ∈ s1.Ts, GoodT e d lllmethod T) →
      (∀ T ∈ s.Ts, GoodT e d lllmethod T) ∧ GoodT e d lllmethod T := by
    intro s1 h1 h2
    rw [h1] at h2
    exact ⟨fun T' h' => h2 T' (List.mem_append_left _ h'), h2 T (by simp)⟩
  unfold relReduce at hs
  simp only [] at hs
  split at hs
  · rename_i hm
    split at hs
    · simp at hs
    rename_i st Bp hl
    simp only [Option.some.injEq] at hs
    subst hs
    have h1 := hH.assign T
    have h2 : HistInv (1 + d) d T true 0 True Bp := h1.does (.hlll e.o e.delta true _ _ e.fuel st hl)
      (fun _ S thr h => by cases h)
    refine ⟨⟨⟨T, h2⟩, W * toMatrix d d Bp.getU.M, ?_, fun hT => ?_⟩, rfl, rfl⟩
    · simp only []
      rw [hprod, hW, Matrix.mul_assoc]
    · obtain ⟨g1, g2⟩ := hmem rfl hT
      rw [Matrix.det_mul]
      refine IsUnit.mul (hWu g1) ?_
      have ht : Bp.transf = true := h2.tr
      simp only [Lat.getU, ht, if_true]
      exact (h2.uinv rfl (g2.1 hm)).uni
  split at hs
  · rename_i hm
    simp only [Option.some.injEq] at hs
    subst hs
    refine ⟨⟨⟨A', hH⟩, W * toMatrix d d (transposeTo d d
      (e.fplll (transposeTo (1 + d) d T fun _ _ => 0)) fun _ _ => 0), ?_, fun hT => ?_⟩, rfl, rfl⟩
    · simp only []
      rw [hprod, hW, Matrix.mul_assoc]
    · obtain ⟨g1, g2⟩ := hmem rfl hT
      rw [Matrix.det_mul]
      refine IsUnit.mul (hWu g1) ?_
      rw [Props.C46_transpose_in, Matrix.det_transpose]
      exact isUnit_of_unimodular (g2.2 hm)
  · simp only [Option.some.injEq] at hs
    subst hs
    exact ⟨⟨⟨A', hH⟩, W, hW, fun hT => hWu (hmem rfl hT).1⟩, rfl, rfl⟩

theorem relTest_frame (e : RelEnv F G) (d : ℕ) (bitsize gapbits shift : ℤ) (s : RelState F G) :
    (relTest e d bitsize gapbits shift s).1.A = s.A ∧ (relTest e d bitsize gapbits shift s).1.Bp = s.Bp ∧
    (relTest e d bitsize gapbits shift s).1.Ts = s.Ts ∧ (relTest e d bitsize gapbits shift s).1.def_ = s.def_ ∧
    ∀ col, (relTest e d bitsize gapbits shift s).2 = some col → col = (relCol d s.A).2 ∧
      s.def_ > e.inputgap - bitsize := by
  refine ⟨rfl, rfl, rfl, rfl, fun col h => ?_⟩
  simp only [relTest] at h
  split at h
  · rename_i h'
    simp only [Option.some.injEq] at h
    exact ⟨h.symm, h'.1⟩
  · simp at h

/-- The loop: invariant, choice of the column, number of iterations and range of `def`. -/
theorem relLoop_inv {e : RelEnv F G} {d : ℕ} (hd : 0 < d) (hP : ProdOk e d)
    {bitsize target gapbits shift truncate lllmethod : ℤ} {A : Mat Int} :
    ∀ (fuel : ℕ) (s s' : RelState F G) (r : Option ℕ), RelInv e d lllmethod A s →
      relLoop e d bitsize target gapbits shift truncate lllmethod fuel s = some (s', r) →
      RelInv e d lllmethod A s' ∧ (∀ col, r = some col → col = (relCol d s'.A).2) ∧
      (∃ l, s'.Ts = s.Ts ++ l ∧
        (r = none → target ≤ s'.def_) ∧ (0 < shift → s.def_ ≤ target → s'.def_ ≤ target ∧
          (s'.def_ = target → (l.length : ℤ) = -((s.def_ - target) / shift)) ∧
          (s'.def_ < target → s'.def_ = s.def_ + shift * l.length))) := by
  intro fuel
  induction fuel with
  | zero => intro s s' r _ h; simp [relLoop] at h
  | succ fuel ih =>
    intro s s' r hI h
    unfold relLoop at h
    split at h
    · rename_i hlt
      simp only [] at h
      split at h
      · simp at h
      rename_i T hT
      split at h
      · simp at h
      rename_i s1 hs1
      have hI' : RelInv e d lllmethod A { s with def_ := relDef target shift s.def_ } :=
        ⟨hI.hist, hI.tr⟩
      obtain ⟨hI1, hTs, hdef⟩ := relReduce_inv hd hP hI' hs1
      obtain ⟨f1, f2, f3, f4, f5⟩ := relTest_frame e d bitsize gapbits shift s1
      have hI2 : RelInv e d lllmethod A (relTest e d bitsize gapbits shift s1).1 := by
        refine ⟨?_, ?_⟩
        · rw [f2]; exact hI1.hist
        · rw [f1, f3]; exact hI1.tr
      simp only [] at hdef hTs
      have hone : 0 < shift → s.def_ ≤ target → s1.def_ ≤ target ∧
          (s1.def_ = target → target - s.def_ ≤ shift) ∧ (s1.def_ < target → s1.def_ = s.def_ + shift) := by
        intro h1 h2
        rw [hdef]
        unfold relDef
        split <;> refine ⟨by omega, by omega, by omega⟩
      split at h
      · rename_i s2 col hc
        simp only [Option.some.injEq, Prod.mk.injEq] at h
        obtain ⟨rfl, rfl⟩ := h
        have e1 : s2 = (relTest e d bitsize gapbits shift s1).1 := by rw [hc]
        subst e1
        refine ⟨hI2, fun col' h' => ?_, [T], by rw [f3, hTs], fun h' => by simp at h', fun h1 h2 => ?_⟩
        · simp only [Option.some.injEq] at h'
          subst h'
          have := (f5 col (by rw [hc])).1
          rw [f1]; exact this
        · rw [f4]
          obtain ⟨a, b, c⟩ := hone h1 h2
          refine ⟨a, fun h3 => ?_, fun h3 => ?_⟩
          · have h4 := b h3
            have : (s.def_ - target) / shift = -1 := by
              rw [Int.ediv_eq_iff_of_pos h1]
              omega
            rw [this]; simp
          · rw [c h3]; simp
      · rename_i s2 hc
        have e1 : s2 = (relTest e d bitsize gapbits shift s1).1 := by rw [hc]
        subst e1
        obtain ⟨k1, k2, l, k3, k4, k5⟩ := ih _ s' r hI2 h
        refine ⟨k1, k2, T :: l, by rw [k3, f3, hTs]; simp, k4, fun h1 h2 => ?_⟩
        obtain ⟨a, b, c⟩ := hone h1 h2
        obtain ⟨m1, m2, m3⟩ := k5 h1 (by rw [f4]; exact a)
        rw [f4] at m2 m3
        refine ⟨m1, fun h3 => ?_, fun h3 => ?_⟩
        · have h4 := m2 h3
          rcases lt_or_eq_of_le a with h5 | h5
          · rw [List.length_cons, Nat.cast_succ, h4, c h5]
            have : (s.def_ + shift - target) / shift = (s.def_ - target) / shift + 1 := by
              rw [show s.def_ + shift - target = s.def_ - target + 1 * shift by ring,
                Int.add_mul_ediv_right _ _ (by omega)]
            rw [this]; ring
          · have h6 := b h5
            have h7 : (l.length : ℤ) = 0 := by rw [h4, h5]; simp
            have : (s.def_ - target) / shift = -1 := by
              rw [Int.ediv_eq_iff_of_pos h1]
              omega
            rw [this, List.length_cons, Nat.cast_succ, h7]; norm_num
        · have h4 := m3 h3
          rcases lt_or_eq_of_le a with h5 | h5
          · rw [h4, c h5, List.length_cons, Nat.cast_succ]; ring
          · exfalso
            have : (0 : ℤ) ≤ shift * l.length := by positivity
            omega
    · rename_i hlt
      simp only [Option.some.injEq, Prod.mk.injEq] at h
      obtain ⟨rfl, rfl⟩ := h
      refine ⟨hI, fun col h' => by simp at h', [], by simp, fun _ => by omega, fun h1 h2 => ⟨h2, fun h3 => ?_, fun h3 => ?_⟩⟩
      · rw [h3]; simp
      · omega

end HPLLL
