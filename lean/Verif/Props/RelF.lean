import Verif.Proof.RelF
/-!
# Relation search with elementary lifts (C36)
-/

namespace HPLLL.Props
open HPLLL Spec Matrix Finset

variable {F G : Type}

theorem relationFZ_cases {e : RelFEnv F G} {fuel inner d : ℕ} (hd : 0 < d) {A : Mat Int}
    {alpha gapbits shift increment lllmethod sizemethod : ℤ} {delta : F} {C0 : Mat Int} {out : RelFOut F G}
    (h : relationFZ e fuel inner d A alpha gapbits shift increment lllmethod C0 sizemethod delta = some out) :
    RelFInv e d lllmethod A out.last ∧ (out.found = 0 ∨ out.found = 1) ∧
    (out.found = 0 → out.C = C0 ∧ alpha ≤ increment * out.last.log.length) ∧
    (out.found = 1 → ∀ j < d, out.C 0 j = out.last.A 0 (1 + j)) ∧
    (∀ c ∈ out.last.log, c.sizemethod = e.toInt delta ∧ c.delta = e.d99) := by
  unfold relationFZ at h
  simp only [] at h
  split at h
  · simp at h
  rename_i s found hl
  simp only [Option.some.injEq] at h
  subst h
  obtain ⟨k1, k2, k3, l, k4, k5, k6⟩ := relFLoop_inv hd fuel _ s found
    (relFStart_inv e d A lllmethod _ _ _) hl
  simp only [List.nil_append] at k4
  refine ⟨k1, k2, fun h => ⟨by simp only [] at h; simp [h], ?_⟩, fun h j hj => ?_, ?_⟩
  · have := k3 h
    simp only [] at k6 ⊢
    rw [k4]
    omega
  · simp only [] at h ⊢
    rw [if_pos h]
    exact relC_apply d s.A 0 C0 j hj
  · simp only []
    rw [k4]; exact k5

/-- **C36, parameters (DEFECT).** `relation` ignores `sizemethod` and `delta`: two calls that differ only by these
arguments have the same outcome, and every reduction done by the search is given the factor 0.99 and
the size reduction method `(int) 0.99`. -/
theorem C36_parameters_ignored {X : Type} (conv : X → ℤ → ℤ) (x : ℕ → X) (e : RelFEnv F G) (fuel inner d : ℕ)
    (hd : 0 < d) (alpha gapbits shift increment lllmethod sizemethod sizemethod' : ℤ) (delta delta' : F)
    (C0 : Mat Int) :
    fRelation conv x e fuel inner d alpha gapbits shift increment lllmethod sizemethod delta C0 =
      fRelation conv x e fuel inner d alpha gapbits shift increment lllmethod sizemethod' delta' C0 ∧
    ∀ out, fRelation conv x e fuel inner d alpha gapbits shift increment lllmethod sizemethod delta C0 = some out →
      ∀ c ∈ out.last.log, c.sizemethod = e.toInt e.d99 ∧ c.delta = e.d99 :=
  ⟨rfl, fun _ h => (relationFZ_cases hd h).2.2.2.2⟩

/-- **C36.** When the search reports a relation `C` for the integers `A(0,0), ..., A(0,d-1)`, `C` is the first column of
an integer matrix `W`, for every floating point behaviour, conversion, external reducer and number of lifts.
`W` is unimodular, hence `C` is primitive, provided that conversions to `long` are exact or give more than 50 bits,
and that: with HLLL, conversions to the floating point integers are exact below `2^53`, the coefficients of the
reduced matrices stay below `2^53`, and no operation on them is rounded in the reductions; with FPLLL, the external reducer returns unimodular matrices. -/
theorem C36_relation (e : RelFEnv F G) (fuel inner d : ℕ) (hd : 0 < d) (A : Mat Int)
    (alpha gapbits shift increment lllmethod sizemethod : ℤ) (delta : F) (C0 : Mat Int) (out : RelFOut F G)
    (h : relationFZ e fuel inner d A alpha gapbits shift increment lllmethod C0 sizemethod delta = some out)
    (hf : out.found ≠ 0) :
    ∃ W : Matrix (Fin d) (Fin d) ℤ, (∀ j, entry out.C j = W j ⟨0, hd⟩) ∧
      ((∀ z, e.setF z = z ∨ 2 ^ 50 ≤ |e.setF z|) →
        ((lllmethod = methodHLLL ∧ (∀ z, e.setZ z = z ∨ 2 ^ 53 ≤ |e.setZ z|) ∧
            (∀ c ∈ out.last.log, ∀ i < d, ∀ j < d, |c.T i (1 + j)| < 2 ^ 53) ∧
            ∀ c ∈ out.last.log, c.exact = true) ∨
          (lllmethod = methodFPLLL ∧ ∀ delta T, Unimodular (toMatrix d d (e.fplll delta T).2))) →
        Unimodular W ∧ ∃ u : Fin d → ℤ, ∑ j, u j * entry out.C j = 1) := by
  obtain ⟨⟨⟨W, hW, hWu⟩, -⟩, h01, -, hC, -⟩ := relationFZ_cases hd h
  have hlow := lowBlock_relInit d A out.last.A W hW
  have hC' : ∀ j, entry out.C j = W j ⟨0, hd⟩ := by
    intro j
    unfold entry
    rw [hC (h01.resolve_left hf) j j.2, ← hlow]
    rfl
  refine ⟨W, hC', fun h1 h2 => ?_⟩
  have hu : IsUnit W.det := hWu ⟨h1, h2⟩
  refine ⟨unimodular_of_isUnit hu, fun j => W⁻¹ ⟨0, hd⟩ j, ?_⟩
  have := congrFun (congrFun (Matrix.nonsing_inv_mul W hu) ⟨0, hd⟩) ⟨0, hd⟩
  rw [Matrix.mul_apply, Matrix.one_apply_eq] at this
  simp only [hC']
  exact this

/-- **C36, no overflow.** The products of 64 bit matrices done by the search cannot overflow for `d ≤ 2^13`:
the test on the bit sizes bounds every term and every partial sum. -/
theorem C36_no_overflow (e : RelFEnv F G) (fuel inner d : ℕ) (hd : 0 < d) (hd' : d ≤ 2 ^ 13) (A : Mat Int)
    (alpha gapbits shift increment lllmethod sizemethod : ℤ) (delta : F) (C0 : Mat Int) (out : RelFOut F G)
    (h : relationFZ e fuel inner d A alpha gapbits shift increment lllmethod C0 sizemethod delta = some out) :
    ∀ p ∈ out.last.prods, ∀ i < d, ∀ j < d, (∀ k < d, |p.1 k i * p.2 j k| < 2 ^ 63) ∧
      ∀ l ≤ d, |∑ k ∈ range l, p.1 k i * p.2 j k| < 2 ^ 63 := by
  intro p hp i hi j hj
  have hb := (relationFZ_cases hd h).1.pr p hp
  have h1 := (C31_maxbitsize_rows 0 d d p.1).1
  have h2 := (C31_maxbitsize_rows 0 d d p.2).1
  set a := maxbitsizeRows 0 d d p.1
  set b := maxbitsizeRows 0 d d p.2
  have hk : ∀ k < d, |p.1 k i * p.2 j k| < 2 ^ 50 := by
    intro k hk
    rw [abs_mul]
    calc |p.1 k i| * |p.2 j k| < 2 ^ a * 2 ^ b :=
          mul_lt_mul'' (h1 i (Nat.zero_le _) hi k hk) (h2 k (Nat.zero_le _) hk j hj) (abs_nonneg _) (abs_nonneg _)
      _ = 2 ^ (a + b) := (pow_add _ _ _).symm
      _ ≤ 2 ^ 50 := pow_le_pow_right₀ (by norm_num) hb
  refine ⟨fun k hkd => lt_trans (hk k hkd) (by norm_num), fun l hl => ?_⟩
  rcases Nat.eq_zero_or_pos l with rfl | hl0
  · simp
  calc |∑ k ∈ range l, p.1 k i * p.2 j k| ≤ ∑ k ∈ range l, |p.1 k i * p.2 j k| := abs_sum_le_sum_abs _ _
    _ < ∑ _k ∈ range l, (2 : ℤ) ^ 50 := by
        refine sum_lt_sum_of_nonempty ⟨0, mem_range.2 hl0⟩ fun k hk' => hk k ?_
        have := mem_range.1 hk'
        omega
    _ = l * 2 ^ 50 := by simp
    _ ≤ 2 ^ 63 := by
        have : (l : ℤ) ≤ 2 ^ 13 := by exact_mod_cast le_trans hl hd'
        nlinarith

/-! ## The gap test -/

/-- The quotient kept after the lifts `l`, starting from `q0`. -/
def lastQuot (q0 : G) (l : List (RelFCall F G)) : G := l.foldl (fun _ c => c.quot) q0

/-- Every lift compares its quotient with the one kept by the preceding lift, the first one with `q0`. -/
def QuotChain (q0 : G) (log : List (RelFCall F G)) : Prop :=
  ∀ l c r, log = l ++ c :: r → c.prev = lastQuot q0 l

/-- The test passed by the last lift: with `m` the largest absolute value in the first column of the reduced
matrix (its last row excepted), the quotient is `|residual| / m` (1 for a zero residual), and its ratio to the
preceding quotient is below the threshold. -/
def LastTest (e : RelFEnv F G) (d : ℕ) (thr : G) (log : List (RelFCall F G)) (residual : ℤ) : Prop :=
  ∃ (l : List (RelFCall F G)) (c : RelFCall F G) (m : ℤ), log = l ++ [c] ∧
    ((∀ i < d, |c.Af 0 i| ≤ m) ∧ ∃ i < d, |c.Af 0 i| = m) ∧
    c.quot = e.q.div (e.q.ofZ (if residual = 0 then 1 else |residual|)) (e.q.ofZ m) ∧
    e.q.lt (e.q.abs (e.q.div c.quot c.prev)) thr = true

/-- What a reported relation has passed. -/
def GapPassed (e : RelFEnv F G) (d : ℕ) (gapbits shift : ℤ) (q0 : G) (log : List (RelFCall F G))
    (residual : ℤ) : Prop :=
  QuotChain q0 log ∧ ∃ sh, 0 < sh ∧ sh ≤ shift ∧ LastTest e d (e.pow2 (-gapbits - sh)) log residual

theorem QuotChain.append {q0 : G} {log : List (RelFCall F G)} (h : QuotChain q0 log) {c : RelFCall F G}
    (hc : c.prev = lastQuot q0 log) : QuotChain q0 (log ++ [c]) := by
  intro l c' r hl
  rcases List.eq_nil_or_concat r with rfl | ⟨r', x, rfl⟩
  · obtain ⟨h1, h2⟩ := List.append_inj' hl rfl
    simp only [List.cons.injEq, and_true] at h2
    rw [← h2, ← h1]; exact hc
  · rw [List.concat_eq_append, ← List.cons_append, ← List.append_assoc] at hl
    obtain ⟨h1, -⟩ := List.append_inj' hl rfl
    exact h l c' r' h1

/-- The quotients are chained, and `new_quot` is the last one. -/
def QuotOk (q0 : G) (q : G) (log : List (RelFCall F G)) : Prop := QuotChain q0 log ∧ q = lastQuot q0 log

theorem QuotOk.start (q0 : G) : QuotOk (F := F) q0 q0 [] := by
  refine ⟨fun l c r h => ?_, rfl⟩
  simp at h

theorem QuotOk.next {q0 q : G} {log : List (RelFCall F G)} (h : QuotOk q0 q log) (c : RelFCall F G)
    (hc : c.prev = q) : QuotOk q0 c.quot (log ++ [c]) :=
  ⟨h.1.append (hc.trans h.2), by simp [lastQuot]⟩

theorem liftMax_spec (d : ℕ) (hd : 0 < d) (Af : Mat Int) :
    (∀ i < d, |Af 0 i| ≤ forRange 0 d (fun i t => if t < zabs (Af 0 i) then zabs (Af 0 i) else t) (zabs (Af 0 0))) ∧
    ∃ i < d, |Af 0 i| =
      forRange 0 d (fun i t => if t < zabs (Af 0 i) then zabs (Af 0 i) else t) (zabs (Af 0 0)) := by
  simp only [zabs_eq]
  have := forRange_ind (P := fun b t => (∀ i < b, |Af 0 i| ≤ t) ∧ ∃ i < d, |Af 0 i| = t) (Nat.zero_le d)
    (fun i t => if t < |Af 0 i| then |Af 0 i| else t) |Af 0 0| ⟨by simp, 0, hd, rfl⟩
    (by
      intro k t _ hk ⟨h1, h2⟩
      split
      · rename_i hlt
        refine ⟨fun i hi => ?_, k, hk, rfl⟩
        rcases Nat.lt_succ_iff_lt_or_eq.1 hi with h | rfl
        · exact le_trans (h1 i h) hlt.le
        · exact le_refl _
      · rename_i hlt
        refine ⟨fun i hi => ?_, h2⟩
        rcases Nat.lt_succ_iff_lt_or_eq.1 hi with h | rfl
        · exact h1 i h
        · omega)
  exact this

theorem liftStep_found {e : RelFEnv F G} {d : ℕ} (hd : 0 < d) {gapbits shift lllmethod sizemethod : ℤ} {delta : F}
    {s s' : LiftState F G} {r : ℤ}
    (hs : liftStep e d gapbits shift lllmethod sizemethod delta s = some (s', some r)) :
    r = 0 ∨ (r = 1 ∧ LastTest e d (e.pow2 (-gapbits - shift)) s'.log (s'.L 0 0)) := by
  unfold liftStep at hs
  simp only [] at hs
  split at hs
  · simp at hs
  rename_i B Af Vf hr
  split at hs
  · simp only [Option.some.injEq, Prod.mk.injEq] at hs
    exact Or.inl hs.2.symm
  · simp only [Option.some.injEq, Prod.mk.injEq] at hs
    obtain ⟨rfl, h2⟩ := hs
    split at h2
    · rename_i hlt
      simp only [Option.some.injEq] at h2
      refine Or.inr ⟨h2.symm, s.log, _, _, rfl, liftMax_spec d hd Af, ?_, hlt⟩
      simp only [liftQuot, zabs_eq]
    · simp at h2

theorem liftStep_quot {e : RelFEnv F G} {d : ℕ} {gapbits shift lllmethod sizemethod : ℤ} {delta : F} {q0 : G}
    {s s' : LiftState F G} {r : Option ℤ} (h : QuotOk q0 s.newQuot s.log)
    (hs : liftStep e d gapbits shift lllmethod sizemethod delta s = some (s', r)) :
    QuotOk q0 s'.newQuot s'.log := by
  unfold liftStep at hs
  simp only [] at hs
  split at hs
  · simp at hs
  split at hs <;> simp only [Option.some.injEq, Prod.mk.injEq] at hs <;> obtain ⟨rfl, -⟩ := hs
  · exact h.next _ rfl
  · exact h.next _ rfl

theorem liftLoop_found {e : RelFEnv F G} {d : ℕ} (hd : 0 < d)
    {gapbits shift increment lllmethod sizemethod : ℤ} {delta : F} {q0 : G} :
    ∀ (fuel : ℕ) (S : ℤ) (s s' : LiftState F G) (r : ℤ), QuotOk q0 s.newQuot s.log →
    liftLoop e d gapbits shift increment lllmethod sizemethod delta fuel S s = some (s', r) →
    QuotOk q0 s'.newQuot s'.log ∧
    (r = 0 ∨ (r = 1 ∧ S < shift ∧ LastTest e d (e.pow2 (-gapbits - shift)) s'.log (s'.L 0 0))) := by
  intro fuel
  induction fuel with
  | zero => intro S s s' r _ h; simp [liftLoop] at h
  | succ fuel ih =>
    intro S s s' r hq h
    unfold liftLoop at h
    split at h
    · rename_i hS
      split at h
      · simp at h
      · rename_i s1 r1 hs
        simp only [Option.some.injEq, Prod.mk.injEq] at h
        obtain ⟨rfl, rfl⟩ := h
        refine ⟨liftStep_quot (s := { s with newDef := s.newDef + increment }) hq hs, ?_⟩
        rcases liftStep_found hd hs with h | ⟨h1, h2⟩
        · exact Or.inl h
        · exact Or.inr ⟨h1, hS, h2⟩
      · rename_i s1 hs
        obtain ⟨k1, k2⟩ := ih _ _ s' r (liftStep_quot (s := { s with newDef := s.newDef + increment }) hq hs) h
        refine ⟨k1, ?_⟩
        rcases k2 with h | ⟨h1, -, h2⟩
        · exact Or.inl h
        · exact Or.inr ⟨h1, hS, h2⟩
    · simp only [Option.some.injEq, Prod.mk.injEq] at h
      obtain ⟨rfl, rfl⟩ := h
      exact ⟨hq, Or.inl rfl⟩

theorem detectLift_lrow {e : RelFEnv F G} {d : ℕ} (hd : 0 < d) {inner : ℕ}
    {gapbits shift increment lllmethod sizemethod : ℤ} {delta : F} {U A Tf : Mat Int}
    (hU : toMatrix d d U = 1) {df : ℤ} {q : G} {log : List (RelFCall F G)} {pr : List (Mat Int × Mat Int)}
    {t : LiftState F G} {r : ℤ}
    (h : detectLift e inner d U A Tf df q log pr gapbits shift increment lllmethod sizemethod delta =
      some (t, r)) :
    toMatrix 1 d t.L = toMatrix 1 d A * toMatrix d d t.U := by
  -- only the linear part of the invariant is used
  unfold detectLift at h
  simp only [] at h
  have key : ∀ (fuel : ℕ) (S : ℤ) (s s' : LiftState F G) (r : ℤ),
      toMatrix 1 d s.L = toMatrix 1 d A * toMatrix d d s.U →
      liftLoop e d gapbits shift increment lllmethod sizemethod delta fuel S s = some (s', r) →
      toMatrix 1 d s'.L = toMatrix 1 d A * toMatrix d d s'.U := by
    intro fuel
    induction fuel with
    | zero => intro S s s' r _ h; simp [liftLoop] at h
    | succ fuel ih =>
      intro S s s' r h0 h
      have hone : ∀ s1 r1, liftStep e d gapbits shift lllmethod sizemethod delta
          { s with newDef := s.newDef + increment } = some (s1, r1) →
          toMatrix 1 d s1.L = toMatrix 1 d A * toMatrix d d s1.U := by
        intro s1 r1 hs
        unfold liftStep at hs
        simp only [] at hs
        split at hs
        · simp at hs
        split at hs <;> simp only [Option.some.injEq, Prod.mk.injEq] at hs <;> obtain ⟨rfl, -⟩ := hs
        · exact h0
        · simp only []
          rw [(C46_products 1 d d hd s.L _ s.L).2.1, (C46_products d d d hd s.U _ s.U).2.1, h0, Matrix.mul_assoc]
      unfold liftLoop at h
      split at h
      · split at h
        · simp at h
        · rename_i s1 r1 hs
          simp only [Option.some.injEq, Prod.mk.injEq] at h
          obtain ⟨rfl, rfl⟩ := h
          exact hone _ _ hs
        · rename_i s1 hs
          exact ih _ _ s' r (hone _ _ hs) h
      · simp only [Option.some.injEq, Prod.mk.injEq] at h
        obtain ⟨rfl, rfl⟩ := h
        exact h0
  refine key inner 0 _ t r ?_ h
  simp only []
  rw [hU, Matrix.mul_one]
  ext i j
  simp only [toMatrix, of_apply]
  have := forRange_fillRow (fun j => A j 0) 0 0 0 0 d (Nat.zero_le d) (fun _ _ => (0 : ℤ)) j i
  simp only [Nat.zero_add, Nat.zero_le, true_and, Nat.sub_zero] at this
  rw [this, if_pos ⟨by omega, j.2⟩, show (i : ℕ) = 0 by omega]

theorem relFLoop_found {e : RelFEnv F G} {d : ℕ} (hd : 0 < d) {inner : ℕ}
    {target gapbits shift increment lllmethod : ℤ} {delta : F} {q0 : G} :
    ∀ (fuel : ℕ) (s s' : RelFState F G), s.internShift ≤ shift → QuotOk q0 s.newQuot s.log →
      relFLoop e inner d target gapbits shift increment lllmethod delta fuel s = some (s', 1) →
      GapPassed e d gapbits shift q0 s'.log (s'.A 0 0) := by
  intro fuel
  induction fuel with
  | zero => intro s s' _ _ h; simp [relFLoop] at h
  | succ fuel ih =>
    intro s s' hsh hq h
    unfold relFLoop at h
    split at h
    · simp only [] at h
      have hsh' : (if target - s.def_ ≤ shift then target - s.def_ else s.internShift) ≤ shift := by
        split <;> omega
      split at h
      · simp at h
      rename_i t found ht
      have k := by
        have ht' := ht
        unfold detectLift at ht'
        simp only [] at ht'
        exact liftLoop_found hd (q0 := q0) _ _ _ _ _ hq ht'
      split at h
      · rename_i hf
        simp only [Option.some.injEq, Prod.mk.injEq, and_true] at h
        subst h
        have h1 := detectLift_lrow hd (C46_setId d _) ht
        have h2 : t.L 0 0 = matprodIn (1 + d) d t.U s.A 0 0 := by
          have a := congrFun (congrFun h1 0) ⟨0, hd⟩
          have b := congrFun (congrFun (C46_products (1 + d) d d hd s.A t.U s.A).2.1 ⟨0, by omega⟩) ⟨0, hd⟩
          rw [Matrix.mul_apply] at a b
          simp only [toMatrix, of_apply] at a b
          simp only [Fin.val_zero] at a
          rw [a, b]
        obtain ⟨k1, h3⟩ := k
        rcases h3 with h3 | ⟨-, h3, h4⟩
        · omega
        · simp only []
          rw [← h2]
          exact ⟨k1.1, _, h3, hsh', h4⟩
      · exact ih _ s' hsh' k.1 h
    · simp at h

/-- **C36, the test.** The residual used by the test of a reported relation is the exact value of `A . C` (or 1
if it is zero); divided by the largest coefficient of the first column of the last reduced matrix, its ratio to the
quotient of the preceding lift (`2^alpha` for the first one) is below `2^(-confidence_gap - sh)` with
`0 < sh ≤ shift`. -/
theorem C36_gap (e : RelFEnv F G) (fuel inner d : ℕ) (hd : 0 < d) (A : Mat Int)
    (alpha gapbits shift increment lllmethod sizemethod : ℤ) (delta : F) (C0 : Mat Int) (out : RelFOut F G)
    (h : relationFZ e fuel inner d A alpha gapbits shift increment lllmethod C0 sizemethod delta = some out)
    (hf : out.found ≠ 0) :
    GapPassed e d gapbits shift (e.pow2 alpha) out.last.log (∑ j : Fin d, A j 0 * entry out.C j) := by
  obtain ⟨⟨⟨W, hW, -⟩, -⟩, h01, -, hC, -⟩ := relationFZ_cases hd h
  have hf1 := h01.resolve_left hf
  have hlow := lowBlock_relInit d A out.last.A W hW
  have hval : ∑ j : Fin d, A j 0 * entry out.C j = out.last.A 0 0 := by
    have a := congrFun (congrFun hW ⟨0, by omega⟩) ⟨0, hd⟩
    rw [relInit_mul, dif_pos rfl] at a
    simp only [toMatrix, of_apply] at a
    rw [a]
    refine sum_congr rfl fun j _ => ?_
    unfold entry
    rw [hC hf1 j j.2, ← hlow]
    rfl
  rw [hval]
  unfold relationFZ at h
  simp only [] at h
  split at h
  · simp at h
  rename_i s found hl
  simp only [Option.some.injEq] at h
  subst h
  simp only [] at hf1 ⊢
  subst hf1
  exact relFLoop_found hd fuel _ s (le_refl _) (QuotOk.start _) hl

/-! ## Termination -/

/-- **C36, termination fails for `shift ≤ 0`.** If `shift ≤ 0 < alpha` the search never returns. -/
theorem C36_never_returns (e : RelFEnv F G) (fuel inner d : ℕ) (A : Mat Int)
    (alpha gapbits shift increment lllmethod sizemethod : ℤ) (delta : F) (C0 : Mat Int) (hs : shift ≤ 0)
    (ha : 0 < alpha) :
    relationFZ e fuel inner d A alpha gapbits shift increment lllmethod C0 sizemethod delta = none := by
  set bs : ℤ := ((maxbitsizeRows 0 1 d A : ℕ) : ℤ) with hbs
  have key : ∀ (fuel : ℕ) (s : RelFState F G), s.def_ < -bs + alpha → s.internShift ≤ 0 →
      relFLoop e inner d (-bs + alpha) gapbits shift increment lllmethod delta fuel s = none := by
    intro fuel
    induction fuel with
    | zero => intro s _ _; rfl
    | succ fuel ih =>
      intro s h1 h2
      unfold relFLoop
      rw [if_pos h1]
      simp only []
      rw [if_neg (by omega)]
      unfold detectLift
      simp only []
      cases inner with
      | zero => simp [liftLoop]
      | succ inner =>
        simp only [liftLoop]
        rw [if_neg (by omega)]
        simp only [zero_ne_one, if_false]
        exact ih _ h1 h2
  unfold relationFZ
  simp only []
  rw [key fuel _ (by simp only []; omega) hs]

/-- The reduction object of a round: built by the constructor, then used by `assign` and `hlll`. -/
inductive LiftObject (e : RelFEnv F G) (d : ℕ) (sizemethod : ℤ) : Lat F → Prop
  | new (Af : Mat Int) : LiftObject e d sizemethod
      (newLattice e.o e.junk (1 + d) d Af true sizemethod e.longFlag 0)
  | reduce {s s' : Lat F} {st : ℤ} (T : Mat Int) (f : ℕ) : LiftObject e d sizemethod s →
      fHlll e.o e.rd e.rdE f e.d99 true (s.assign T) = some (st, s') → LiftObject e d sizemethod s'

/-- **C36, termination.** For `shift > 0` and `increment > 0` the search returns if the reductions do: there is
a number of steps for the reductions with which the whole search ends, in at most `max(alpha, 0) + 1` rounds of at
most `shift` lifts. -/
theorem C36_returns (e : RelFEnv F G) (d : ℕ) (A : Mat Int)
    (alpha gapbits shift increment lllmethod sizemethod : ℤ) (delta : F) (C0 : Mat Int) (hs : 0 < shift)
    (hi : 0 < increment)
    (hred : lllmethod = methodHLLL → ∀ T B, LiftObject e d (e.toInt delta) B →
      ∃ f, (fHlll e.o e.rd e.rdE f e.d99 true (B.assign T)).isSome = true) :
    ∃ f0, ∀ f ≥ f0, (relationFZ { e with fuel := f } (max alpha 0 + 1).toNat (shift + 1).toNat d A alpha gapbits
      shift increment lllmethod C0 sizemethod delta).isSome = true := by
  have hredd : ∀ T B, LiftObject e d (e.toInt delta) B → ∃ f0 B' Af Vf, LiftObject e d (e.toInt delta) B' ∧
      ∀ f ≥ f0, liftReduce { e with fuel := f } d lllmethod e.d99 T B = some (B', Af, Vf) := by
    intro T B hB
    unfold liftReduce
    by_cases hm : lllmethod = methodHLLL
    · obtain ⟨f0, hf0⟩ := hred hm T B hB
      obtain ⟨⟨st, B'⟩, hB'⟩ := Option.isSome_iff_exists.1 hf0
      refine ⟨f0, B', B'.getbase.M, B'.getU.M, .reduce T f0 hB hB', fun f hf => ?_⟩
      obtain ⟨k, rfl⟩ : ∃ k, f = f0 + k := ⟨f - f0, by omega⟩
      simp only [hm, if_true, fHlll_mono e.o e.rd e.rdE f0 k e.d99 true _ _ hB']
    · by_cases hm' : lllmethod = methodFPLLL
      · exact ⟨0, B, _, _, hB, fun f _ => by simp only [if_neg hm, if_pos hm']; rfl⟩
      · exact ⟨0, B, _, _, hB, fun f _ => by simp only [if_neg hm, if_neg hm']; rfl⟩
  have hstep : ∀ sh (s : LiftState F G), LiftObject e d (e.toInt delta) s.B → ∃ f0 s' r,
      (∀ f ≥ f0, liftStep { e with fuel := f } d gapbits sh lllmethod (e.toInt delta) e.d99 s = some (s', r)) ∧
      s'.newDef = s.newDef ∧ LiftObject e d (e.toInt delta) s'.B := by
    intro sh s hO
    obtain ⟨f0, B, Af, Vf, hB, hf⟩ := hredd (liftRowF e d s.newDef s.L s.Af) s.B hO
    have hf' : ∀ f ≥ f0, liftReduce { e with fuel := f } d lllmethod e.d99
      (liftRowF { e with fuel := f } d s.newDef s.L s.Af) s.B = some (B, Af, Vf) := hf
    have h0 : ∃ s' r, liftStep { e with fuel := f0 } d gapbits sh lllmethod (e.toInt delta) e.d99 s = some (s', r) ∧
        s'.newDef = s.newDef ∧ LiftObject e d (e.toInt delta) s'.B := by
      unfold liftStep
      simp only [hf' f0 (le_refl _)]
      split
      · exact ⟨_, _, rfl, rfl, hB⟩
      · exact ⟨_, _, rfl, rfl, hB⟩
    obtain ⟨s', r, h1, h2, h3⟩ := h0
    refine ⟨f0, s', r, fun f hff => ?_, h2, h3⟩
    rw [← h1]
    unfold liftStep
    simp only [hf' f hff, hf' f0 (le_refl _)]
    rfl
  have hloop : ∀ (fuel : ℕ) (sh S : ℤ) (s : LiftState F G), LiftObject e d (e.toInt delta) s.B →
      sh - S < fuel → 0 < fuel →
      ∃ f0 s' r, (∀ f ≥ f0, liftLoop { e with fuel := f } d gapbits sh increment lllmethod (e.toInt delta) e.d99
          fuel S s = some (s', r)) ∧
        s.newDef ≤ s'.newDef ∧ (S < sh → s.newDef < s'.newDef) := by
    intro fuel
    induction fuel with
    | zero => intro sh S s _ _ h; omega
    | succ fuel ih =>
      intro sh S s hO h1 _
      unfold liftLoop
      by_cases hlt : S < sh
      · obtain ⟨f1, s1, r1, hs1, hd1, hO1⟩ := hstep sh { s with newDef := s.newDef + increment } hO
        simp only [] at hd1
        cases r1 with
        | some r =>
          exact ⟨f1, s1, r, fun f hf => by simp only [hlt, if_true, hs1 f hf], by omega, fun _ => by omega⟩
        | none =>
          obtain ⟨f2, s', r, k1, k2, -⟩ := ih sh (S + increment) s1 hO1 (by push_cast at h1; omega)
            (by push_cast at h1; omega)
          refine ⟨max f1 f2, s', r, fun f hf => ?_, by omega, fun _ => by omega⟩
          simp only [hlt, if_true, hs1 f (le_trans (le_max_left _ _) hf)]
          exact k1 f (le_trans (le_max_right _ _) hf)
      · exact ⟨0, s, 0, fun f _ => by simp only [hlt, if_false], le_refl _, fun h => absurd h hlt⟩
  set bs : ℤ := ((maxbitsizeRows 0 1 d A : ℕ) : ℤ) with hbs
  have key : ∀ (fuel : ℕ) (s : RelFState F G), (-bs + alpha) - s.def_ < fuel → 0 < fuel →
      0 < s.internShift → s.internShift ≤ shift → ∃ f0, ∀ f ≥ f0,
      (relFLoop { e with fuel := f } (shift + 1).toNat d (-bs + alpha) gapbits shift increment lllmethod delta
        fuel s).isSome = true := by
    intro fuel
    induction fuel with
    | zero => intro s _ h; omega
    | succ fuel ih =>
      intro s h1 _ h3 h4
      unfold relFLoop
      by_cases hlt : s.def_ < -bs + alpha
      · simp only [hlt, if_true]
        set sh := (if -bs + alpha - s.def_ ≤ shift then -bs + alpha - s.def_ else s.internShift) with hsh
        have hsh0 : 0 < sh ∧ sh ≤ shift := by
          rw [hsh]; split <;> omega
        unfold detectLift
        simp only []
        obtain ⟨f1, t, r, k1, k2, k3⟩ := hloop (shift + 1).toNat sh 0
          { U := setId d d fun _ _ => 0
            L := forRange 0 d (fun j M => setEntry M 0 j (s.A j 0)) fun _ _ => 0
            Af := forRange 0 d (fun i M => forRange 0 d (fun j M => setEntry M (1 + i) j
              (forRange 0 d (fun i M => forRange 0 d (fun j M => setEntry M i j (e.setZ (s.A j (1 + i)))) M)
                (fun _ _ => 0) j i)) M) fun j i => if i = 0 then e.af0 j else 0
            B := newLattice e.o e.junk (1 + d) d
              (forRange 0 d (fun i M => forRange 0 d (fun j M => setEntry M (1 + i) j
              (forRange 0 d (fun i M => forRange 0 d (fun j M => setEntry M i j (e.setZ (s.A j (1 + i)))) M)
                (fun _ _ => 0) j i)) M) fun j i => if i = 0 then e.af0 j else 0) true (e.toInt delta) e.longFlag 0
            newDef := s.def_
            newQuot := s.newQuot
            log := s.log
            prods := s.prods } (.new _) (by omega) (by omega)
        have k4 := k3 hsh0.1
        simp only [] at k4
        by_cases hr : r = 1
        · exact ⟨f1, fun f hf => by simp only [k1 f hf, hr, if_true, Option.isSome_some]⟩
        · obtain ⟨f2, hf2⟩ := ih
            { A := matprodIn (1 + d) d t.U s.A, def_ := t.newDef, newQuot := t.newQuot, internShift := sh,
              log := t.log, prods := t.prods }
            (by simp only []; push_cast at h1; omega) (by push_cast at h1; omega) hsh0.1 hsh0.2
          refine ⟨max f1 f2, fun f hf => ?_⟩
          simp only [k1 f (le_trans (le_max_left _ _) hf), hr, if_false]
          exact hf2 f (le_trans (le_max_right _ _) hf)
      · exact ⟨0, fun f _ => by simp [hlt]⟩
  obtain ⟨f0, hf0⟩ := key (max alpha 0 + 1).toNat
    { A := relInit d A, def_ := -bs, newQuot := e.pow2 alpha, internShift := shift, log := [], prods := [] }
    (by simp only []; omega) (by omega) hs (le_refl _)
  refine ⟨f0, fun f hf => ?_⟩
  obtain ⟨⟨s, r⟩, hsr⟩ := Option.isSome_iff_exists.1 (hf0 f hf)
  unfold relationFZ
  simp only []
  have hsr' : relFLoop { e with fuel := f } (shift + 1).toNat d (-((maxbitsizeRows 0 1 d A : ℕ) : ℤ) + alpha) gapbits
      shift increment lllmethod delta (max alpha 0 + 1).toNat
      { A := relInit d A, def_ := -((maxbitsizeRows 0 1 d A : ℕ) : ℤ),
        newQuot := e.pow2 alpha, internShift := shift, log := [], prods := [] } = some (s, r) := hsr
  rw [hsr']
  rfl

/-! ## Concrete runs -/

/-- Search with the toy arithmetic and exact conversions. -/
def toyRelF : RelFEnv Int Int :=
  { o := toyOps, junk := 0, rd := id, rdE := id, fuel := 60, d99 := toy99, toInt := fun x => x / toyScale, setZ := id, setF := id,
    fplll := fun _ T => (T, idMat), vf0 := fun _ _ => 0, af0 := fun _ => 7, longFlag := true, q := toyOps
    pow2 := fun k => if 0 ≤ k then toyScale * 2 ^ k.toNat else toyScale / 2 ^ (-k).toNat }

/-- The relation `-10 - 16 + 26 = 0` is found; the parameters recorded are `(int) 0.99 = 0` and 0.99 whatever is asked. -/
example : ((fRelation (fun x _ => x) (fun j => [10, 16, 26].getD j 0) toyRelF 40 40 3 6 1 3 3 methodHLLL 1 toyScale
    (fun _ _ => 0)).map fun r => (r.found, toCols 3 1 r.C, r.last.log.map fun c => (c.sizemethod, c.delta))) =
    some (1, [[-1, -1, 1]], [(0, toy99)]) := by
  decide +kernel

/-- No relation reported. -/
example : ((relationFZ toyRelF 40 40 3 (ofCols [[10], [16], [26]]) 3 20 3 3 methodHLLL (fun _ _ => 0)).map
    fun r => (r.found, toCols 3 1 r.C, r.last.log.length)) = some (0, [[0, 0, 0]], 1) := by
  decide +kernel

/-- The conditions of `C36_relation` on the conversions hold for exact conversions. -/
example : SetFOk toyRelF ∧ SetZOk toyRelF := ⟨fun _ => Or.inl rfl, fun _ => Or.inl rfl⟩

/-- **C36, rounding.** The condition on the operations cannot be dropped: with integers rounded to two bits, the search
on `(5, 11)` reports `(-4, 2)`, which is not primitive, and no call is recorded as exact.  With one bit, it
reports `(0, 0)` for `(5, 13)`. -/
theorem C36_rounding_matters :
    ((relationFZ { toyRelF with fuel := 12, rd := roundZ 2, rdE := roundZ 2 } 6 6 2 (ofCols [[5], [11]]) 7 1 7 7
      methodHLLL (fun _ _ => 0)).map fun r => (r.found, toCols 2 1 r.C, r.last.log.map fun c => c.exact)) =
      some (1, [[-4, 2]], [false]) ∧
    ((relationFZ { toyRelF with fuel := 12, rd := roundZ 1, rdE := roundZ 1 } 6 6 2 (ofCols [[5], [13]]) 4 1 4 4
      methodHLLL (fun _ _ => 0)).map fun r => (r.found, toCols 2 1 r.C, r.last.log.map fun c => c.exact)) =
      some (1, [[0, 0]], [false]) := by
  decide +kernel

/-- The operations of a run can all be exact with 53 bits. -/
example : ((relationFZ { toyRelF with fuel := 12, rd := roundZ 53, rdE := roundZ 53 } 6 6 2 (ofCols [[3], [4]]) 6 1 6 6
      methodHLLL (fun _ _ => 0)).map fun r => (r.found, toCols 2 1 r.C, r.last.log.map fun c =>
        (c.exact, decide (∀ i < 2, ∀ j < 2, |c.T i (1 + j)| < 2 ^ 53)))) =
      some (1, [[4, -3]], [(true, true)]) := by
  decide +kernel

/-- **C36.** The factor does matter for a round of lifts: with `delta` given in its position, 0.99 and 0.3
lead to different transformations. -/
theorem C36_delta_matters :
    ((detectLift toyRelF 10 2 idMat (ofCols [[3], [4]]) idMat (-1) toyScale [] [] 40 1 1 methodHLLL 0 toy99).map
      fun r => toCols 2 2 r.1.U) = some [[-1, 1], [2, -1]] ∧
    ((detectLift toyRelF 10 2 idMat (ofCols [[3], [4]]) idMat (-1) toyScale [] [] 40 1 1 methodHLLL 0
      (toyScale * 3 / 10)).map fun r => toCols 2 2 r.1.U) = some [[1, 0], [-1, 1]] := by
  decide +kernel

end HPLLL.Props
