import Verif.Proof.Relations
/-!
# Integer relations (C34, C35, C50)
-/

namespace HPLLL.Props
open HPLLL Spec Matrix Finset

variable {F G : Type}

/-- `lift_truncate` for `mpz_t`. -/
def liftMpz (n d : ℕ) (A : Mat Int) (df bits : ℤ) : Option (Mat Int) :=
  some (liftTruncate n d A df bits fun _ _ => 0)

/-- `lift_truncate` for `long` and for 128 bit integers. -/
def liftLong (n d : ℕ) (A : Mat Int) (df bits : ℤ) : Option (Mat Int) :=
  some (liftTruncateLong n d A df bits)

def lift128 (n d : ℕ) (A : Mat Int) (df bits : ℤ) : Option (Mat Int) := liftTruncate128 n d A df bits

/-- The entries of the d × 1 matrix `C`. -/
def entry (C : Mat Int) {d : ℕ} (j : Fin d) : ℤ := C 0 j

/-- The products of the search really are those of the library: nothing to say for one thread (the model
calls the sequential product), outcomes of `pmatprod_in_int` under any schedules otherwise. -/
def ProductsScheduled (e : RelEnv F G) (d : ℕ) : Prop := e.S > 1 → Scheduled e d

theorem relC_apply (d : ℕ) (A : Mat Int) (col : ℕ) (C0 : Mat Int) (j : ℕ) (hj : j < d) :
    forRange 0 d (fun j C => setEntry C j 0 (A col (1 + j))) C0 0 j = A col (1 + j) := by
  have := forRange_ind (fun m (C : Mat Int) => j < m → C 0 j = A col (1 + j)) (Nat.zero_le d)
    (fun j C => setEntry C j 0 (A col (1 + j))) C0 (by omega) (by
      intro i C _ _ h hj'
      rw [setEntry_apply]
      by_cases e : j = i
      · rw [if_pos ⟨rfl, e⟩, e]
      · rw [if_neg (by omega)]; exact h (by omega))
  exact this hj

/-- **C34.** When the search reports a relation `C` for the integers `A(0,0), ..., A(0,d-1)`: `C` is a column of
an integer matrix `W`, whose columns all have a residual `|A W|` at least the one of `C` (the residual
tested is the exact value `A C`), for every floating point behaviour, truncation, shift, thread schedule and
external reducer.  If moreover the truncated matrices given to the reductions had independent columns
(HLLL), or the external reducer returned unimodular matrices (FPLLL), then `W` is unimodular; hence `C` is primitive. -/
theorem C34_relation (e : RelEnv F G) (fuel d : ℕ) (hd : 0 < d) (A : Mat Int)
    (alpha gapbits shift truncate lllmethod sizemethod : ℤ) (longFlag : Bool) (C0 : Mat Int)
    (out : RelOut F G) (hS : ProductsScheduled e d)
    (h : relationLll e fuel d A alpha gapbits shift truncate lllmethod sizemethod longFlag C0 = some out)
    (hf : out.found ≠ 0) :
    ∃ (W : Matrix (Fin d) (Fin d) ℤ) (f : Fin d), (∀ j, entry out.C j = W j f) ∧
      (∀ i, |∑ j : Fin d, A j 0 * entry out.C j| ≤ |∑ j : Fin d, A j 0 * W j i|) ∧
      ((∀ T ∈ out.last.Ts, GoodT e d lllmethod T) →
        Unimodular W ∧ ∃ u : Fin d → ℤ, ∑ j, u j * entry out.C j = 1) := by
  have hP := Scheduled.prodOk hd hS
  unfold relationLll at h
  simp only [] at h
  split at h
  · simp at h
  · simp only [Option.some.injEq] at h
    subst h
    simp at hf
  rename_i s col hl
  simp only [Option.some.injEq] at h
  subst h
  obtain ⟨hI, hcol, -⟩ := relLoop_inv hd hP fuel _ s _
    (relStart_inv e d A alpha sizemethod lllmethod longFlag) hl
  obtain ⟨W, hW, hWu⟩ := hI.tr
  obtain ⟨c1, c2⟩ := relCol_spec d hd s.A
  rw [← hcol col rfl] at c1 c2
  have hlow : ∀ (j i : Fin d), s.A i (1 + j) = W j i := by
    intro j i
    have := congrFun (congrFun hW ⟨1 + j, by omega⟩) i
    rw [relInit_mul, dif_neg (by simp only []; omega)] at this
    simp only [toMatrix, Matrix.of_apply] at this
    rw [this]
    congr 1
    exact Fin.ext (by simp only []; omega)
  have htop : ∀ i : Fin d, s.A i 0 = ∑ j : Fin d, A j 0 * W j i := by
    intro i
    have := congrFun (congrFun hW ⟨0, by omega⟩) i
    rw [relInit_mul, dif_pos rfl] at this
    exact this
  have hC : ∀ j : Fin d, entry (forRange 0 d (fun j C => setEntry C j 0 (s.A col (1 + j))) C0) j =
      W j ⟨col, c1⟩ := fun j => by
    unfold entry
    rw [relC_apply d s.A col C0 j j.2]
    exact hlow j ⟨col, c1⟩
  refine ⟨W, ⟨col, c1⟩, hC, fun i => ?_, fun hT => ⟨unimodular_of_isUnit (hWu hT), ?_⟩⟩
  · simp only [hC]
    rw [← htop, ← htop]
    exact c2 i i.2
  · refine ⟨fun j => W⁻¹ ⟨col, c1⟩ j, ?_⟩
    have := congrFun (congrFun (Matrix.nonsing_inv_mul W (hWu hT)) ⟨col, c1⟩) ⟨col, c1⟩
    rw [Matrix.mul_apply, Matrix.one_apply_eq] at this
    simp only [hC]
    exact this

theorem fullColumnRank_of_lower {d : ℕ} {T : Mat Int} {W : Matrix (Fin d) (Fin d) ℤ} (hW : IsUnit W.det)
    (h : ∀ j i : Fin d, T i (1 + j) = W j i) : FullColumnRank (toMatrix (1 + d) d T) := by
  have h1 : LinearIndependent ℤ fun j : Fin d => fun i : Fin d => W i j :=
    Matrix.linearIndependent_cols_of_det_ne_zero (A := W) (by
      intro h0; rw [h0] at hW; simp at hW)
  unfold FullColumnRank
  rw [Fintype.linearIndependent_iff] at h1 ⊢
  intro g hg
  refine h1 g ?_
  funext i
  have := congrFun hg ⟨1 + i, by omega⟩
  simp only [Finset.sum_apply, Pi.smul_apply, smul_eq_mul, Pi.zero_apply, toMatrix, Matrix.of_apply] at this ⊢
  rw [← this]
  exact sum_congr rfl fun k _ => by rw [h i k]

/-- Without truncation the matrices given to the reductions always have independent columns. -/
theorem relLoop_good {e : RelEnv F G} {d : ℕ} (hd : 0 < d) (hP : ProdOk e d)
    {bitsize target gapbits shift lllmethod : ℤ} {A : Mat Int} (hlift : e.lift = liftMpz)
    (hm : lllmethod ≠ methodFPLLL) :
    ∀ (fuel : ℕ) (s s' : RelState F G) (r : Option ℕ), RelInv e d lllmethod A s →
      (∀ T ∈ s.Ts, GoodT e d lllmethod T) →
      relLoop e d bitsize target gapbits shift (-1) lllmethod fuel s = some (s', r) →
      ∀ T ∈ s'.Ts, GoodT e d lllmethod T := by
  intro fuel
  induction fuel with
  | zero => intro s s' r _ _ h; simp [relLoop] at h
  | succ fuel ih =>
    intro s s' r hI hG h
    unfold relLoop at h
    split at h
    · simp only [] at h
      split at h
      · simp at h
      rename_i T hT
      split at h
      · simp at h
      rename_i s1 hs1
      have hI' : RelInv e d lllmethod A { s with def_ := relDef target shift s.def_ } :=
        ⟨hI.hist, hI.tr⟩
      obtain ⟨hI1, hTs, hdef⟩ := relReduce_inv hd hP hI' hs1
      obtain ⟨f1, f2, f3, f4, f5⟩ := relTest_frame e d bitsize gapbits shift s1
      have hI2 : RelInv e d lllmethod A (relTest e d bitsize gapbits shift s1).1 := by
        refine ⟨?_, ?_⟩
        · rw [f2]; exact hI1.hist
        · rw [f1, f3]; exact hI1.tr
      have hGT : GoodT e d lllmethod T := by
        refine ⟨fun _ => ?_, fun h' => absurd h' hm⟩
        obtain ⟨W, hW, hWu⟩ := hI.tr
        refine fullColumnRank_of_lower (hWu hG) fun j i => ?_
        rw [hlift] at hT
        simp only [liftMpz, relBits, if_true, Option.some.injEq] at hT
        obtain ⟨k, k1, k2, -, -⟩ := C32_lift_truncate (1 + d) d (by omega) hd s.A
          (relDef target shift s.def_) 0 (fun _ _ => 0)
        rw [← hT, k1 i i.2 (1 + j) (by omega), k2 (le_refl _), pow_zero, Int.ediv_one]
        unfold lifted
        rw [if_neg (by omega)]
        have := congrFun (congrFun hW ⟨1 + j, by omega⟩) i
        rw [relInit_mul, dif_neg (by simp only []; omega)] at this
        simp only [toMatrix, Matrix.of_apply] at this
        rw [this]
        congr 1
        exact Fin.ext (by simp only []; omega)
      have hG2 : ∀ T ∈ (relTest e d bitsize gapbits shift s1).1.Ts, GoodT e d lllmethod T := by
        rw [f3, hTs]
        intro T' hT'
        rcases List.mem_append.1 hT' with h' | h'
        · exact hG T' h'
        · rw [List.mem_singleton.1 h']; exact hGT
      split at h
      · rename_i s2 col hc
        simp only [Option.some.injEq, Prod.mk.injEq] at h
        obtain ⟨rfl, rfl⟩ := h
        have e1 : s2 = (relTest e d bitsize gapbits shift s1).1 := by rw [hc]
        subst e1
        exact hG2
      · rename_i s2 hc
        have e1 : s2 = (relTest e d bitsize gapbits shift s1).1 := by rw [hc]
        subst e1
        exact ih _ s' r hI2 hG2 h
    · simp only [Option.some.injEq, Prod.mk.injEq] at h
      obtain ⟨rfl, rfl⟩ := h
      exact hG

/-- **C34, unconditional.** For `mpz_t` bases without truncation (`truncate = -1`, the default) and HLLL, or for
FPLLL with any external reducer that returns unimodular transformations: a relation reported is a primitive
vector, column of a unimodular matrix, whatever the floating point numbers do. -/
theorem C34_relation_primitive (e : RelEnv F G) (fuel d : ℕ) (hd : 0 < d) (A : Mat Int)
    (alpha gapbits shift truncate lllmethod sizemethod : ℤ) (longFlag : Bool) (C0 : Mat Int)
    (out : RelOut F G) (hS : ProductsScheduled e d)
    (hm : (lllmethod = methodHLLL ∧ truncate = -1 ∧ e.lift = liftMpz) ∨
      (lllmethod = methodFPLLL ∧ ∀ T, Unimodular (toMatrix d d (e.fplll T))))
    (h : relationLll e fuel d A alpha gapbits shift truncate lllmethod sizemethod longFlag C0 = some out)
    (hf : out.found ≠ 0) :
    ∃ (W : Matrix (Fin d) (Fin d) ℤ) (f : Fin d), Unimodular W ∧ (∀ j, entry out.C j = W j f) ∧
      (∀ i, |∑ j : Fin d, A j 0 * entry out.C j| ≤ |∑ j : Fin d, A j 0 * W j i|) ∧
      ∃ u : Fin d → ℤ, ∑ j, u j * entry out.C j = 1 := by
  have hG : ∀ T ∈ out.last.Ts, GoodT e d lllmethod T := by
    rcases hm with ⟨h1, h2, h3⟩ | ⟨h1, h2⟩
    · subst h2
      have h' := h
      unfold relationLll at h'
      simp only [] at h'
      have hst := relStart_inv e d A alpha sizemethod lllmethod longFlag
      have hP := Scheduled.prodOk hd hS
      have hne : lllmethod ≠ methodFPLLL := by rw [h1]; decide
      split at h'
      · simp at h'
      · rename_i s hl
        simp only [Option.some.injEq] at h'
        subst h'
        exact relLoop_good hd hP h3 hne fuel _ s _ hst (fun T hT => by simp [relStart] at hT) hl
      · rename_i s col hl
        simp only [Option.some.injEq] at h'
        subst h'
        exact relLoop_good hd hP h3 hne fuel _ s _ hst (fun T hT => by simp [relStart] at hT) hl
    · intro T _
      exact ⟨fun h' => by rw [h1] at h'; exact absurd h' (by decide), fun _ => h2 _⟩
  obtain ⟨W, f, a, b, c⟩ := C34_relation e fuel d hd A alpha gapbits shift truncate lllmethod sizemethod
    longFlag C0 out hS h hf
  obtain ⟨c1, c2⟩ := c hG
  exact ⟨W, f, c1, a, b, c2⟩

/-- **C34, real tuples.** If the integers are the scaled tuple up to an error `η` each, a relation found for the
integers is a relation for the reals up to `2^-alpha (|A C| + η (|c_1| + ... + |c_d|))`. -/
theorem C34_reals (x : ℕ → ℝ) (conv : ℝ → ℤ → ℤ) (η : ℝ) (e : RelEnv F G) (fuel d : ℕ)
    (alpha gapbits shift truncate lllmethod sizemethod : ℤ) (longFlag : Bool) (C0 : Mat Int)
    (out : RelOut F G) (hconv : ∀ j < d, |(conv (x j) alpha : ℝ) - x j * 2 ^ alpha| ≤ η)
    (h : fpRelation conv x e fuel d alpha gapbits shift truncate lllmethod sizemethod longFlag C0 = some out) :
    ∃ L : Mat Int, relationLll e fuel d L alpha gapbits shift truncate lllmethod sizemethod longFlag C0 =
        some out ∧ (∀ j < d, L j 0 = conv (x j) alpha) ∧
      |∑ j : Fin d, x j * entry out.C j| ≤
        (|∑ j : Fin d, (L j 0 : ℝ) * entry out.C j| + η * ∑ j : Fin d, |(entry out.C j : ℝ)|) / 2 ^ alpha := by
  refine ⟨_, h, ?_, ?_⟩
  · intro j hj
    have := forRange_fillRow (fun j => conv (x j) alpha) 0 0 0 0 d (Nat.zero_le d) (fun _ _ => (0 : ℤ)) j 0
    simp only [Nat.zero_add, Nat.zero_le, true_and, Nat.sub_zero] at this
    rw [this, if_pos hj]
  · have hL : ∀ j < d, forRange 0 d (fun j L => setEntry L 0 j (conv (x j) alpha)) (fun _ _ => (0 : ℤ)) j 0 =
        conv (x j) alpha := by
      intro j hj
      have := forRange_fillRow (fun j => conv (x j) alpha) 0 0 0 0 d (Nat.zero_le d) (fun _ _ => (0 : ℤ)) j 0
      simp only [Nat.zero_add, Nat.zero_le, true_and, Nat.sub_zero] at this
      rw [this, if_pos hj]
    have hp : (0 : ℝ) < 2 ^ alpha := by positivity
    rw [le_div_iff₀ hp]
    have e1 : |∑ j : Fin d, x j * entry out.C j| * 2 ^ alpha =
        |∑ j : Fin d, (x j * 2 ^ alpha) * entry out.C j| := by
      rw [← abs_of_pos hp, ← abs_mul, abs_of_pos hp, sum_mul]
      congr 1
      exact sum_congr rfl fun j _ => by ring
    rw [e1]
    have e2 : ∑ j : Fin d, (x j * 2 ^ alpha) * entry out.C j =
        ∑ j : Fin d, (forRange 0 d (fun j L => setEntry L 0 j (conv (x j) alpha)) (fun _ _ => (0 : ℤ)) j 0 : ℝ) *
            entry out.C j -
          ∑ j : Fin d, ((conv (x j) alpha : ℝ) - x j * 2 ^ alpha) * entry out.C j := by
      rw [← sum_sub_distrib]
      refine sum_congr rfl fun j _ => ?_
      rw [hL j j.2]; ring
    rw [e2]
    refine le_trans (abs_sub _ _) (add_le_add (le_refl _) ?_)
    refine le_trans (abs_sum_le_sum_abs _ _) ?_
    rw [mul_sum]
    refine sum_le_sum fun j _ => ?_
    rw [abs_mul]
    exact mul_le_mul_of_nonneg_right (hconv j j.2) (abs_nonneg _)

/-! ## C35: number of reductions -/

/-- **C35.** For `shift > 0` at most `⌈alpha/shift⌉` reductions are done (none if `alpha ≤ 0`), exactly that many when no relation is
reported; for `shift ≤ 0 < alpha` the target is never reached: the search cannot end without reporting
a relation. -/
theorem C35_iterations (e : RelEnv F G) (fuel d : ℕ) (hd : 0 < d) (A : Mat Int)
    (alpha gapbits shift truncate lllmethod sizemethod : ℤ) (longFlag : Bool) (C0 : Mat Int)
    (out : RelOut F G) (hS : ProductsScheduled e d)
    (h : relationLll e fuel d A alpha gapbits shift truncate lllmethod sizemethod longFlag C0 = some out) :
    (0 < shift → 0 ≤ alpha → (out.last.Ts.length : ℤ) ≤ ⌈(alpha : ℚ) / shift⌉) ∧
    (0 < shift → 0 ≤ alpha → out.found = 0 → (out.last.Ts.length : ℤ) = ⌈(alpha : ℚ) / shift⌉) ∧
    (alpha ≤ 0 → out.last.Ts = [] ∧ out.found = 0) ∧
    (shift ≤ 0 → 0 < alpha → out.found ≠ 0) := by
  have hP := Scheduled.prodOk hd hS
  set bs : ℤ := ((maxbitsizeRows 0 1 d A : ℕ) : ℤ) with hbs
  obtain ⟨r, hl, hr⟩ : ∃ r, relLoop e d bs (-bs + alpha) gapbits shift truncate lllmethod fuel
      (relStart e d A alpha sizemethod longFlag) = some (out.last, r) ∧ (out.found = 0 ↔ r = none) := by
    unfold relationLll at h
    simp only [] at h
    split at h
    · simp at h
    · rename_i s hl
      simp only [Option.some.injEq] at h
      subst h
      exact ⟨none, hl, by simp⟩
    · rename_i s col hl
      simp only [Option.some.injEq] at h
      subst h
      exact ⟨some col, hl, by simp⟩
  obtain ⟨-, -, l, k1, k2, k3⟩ := relLoop_inv hd hP fuel _ out.last r
    (relStart_inv e d A alpha sizemethod lllmethod longFlag) hl
  have hTs : out.last.Ts = l := by simpa [relStart] using k1
  have hdef : (relStart e d A alpha sizemethod longFlag).def_ = -bs := rfl
  rw [hdef] at k3
  have hceil : 0 < shift → ⌈(alpha : ℚ) / shift⌉ = -((-bs - (-bs + alpha)) / shift) := by
    intro hs
    rw [show -bs - (-bs + alpha) = -alpha by ring]
    rw [Int.ceil_eq_iff]
    have hs' : (0 : ℚ) < shift := by exact_mod_cast hs
    have h1 := Int.ediv_mul_le (-alpha) (by omega : shift ≠ 0)
    have h2 := Int.lt_ediv_add_one_mul_self (-alpha) hs
    set q := (-alpha) / shift
    constructor
    · rw [lt_div_iff₀ hs']
      have : (-q - 1) * shift < alpha := by linarith [add_mul q 1 shift]
      exact_mod_cast this
    · rw [div_le_iff₀ hs']
      have : alpha ≤ -q * shift := by linarith
      exact_mod_cast this
  refine ⟨fun h1 h2 => ?_, fun h1 h2 h3 => ?_, fun h1 => ?_, fun h1 h2 => ?_⟩
  · obtain ⟨a, b, c⟩ := k3 h1 (by omega)
    rw [hTs]
    rcases lt_or_eq_of_le a with h4 | h4
    · have h5 := c h4
      rw [Int.le_ceil_iff]
      have hs' : (0 : ℚ) < shift := by exact_mod_cast h1
      rw [lt_div_iff₀ hs']
      have : ((l.length : ℤ) - 1) * shift < alpha := by
        have : shift * l.length < alpha := by omega
        nlinarith
      exact_mod_cast this
    · rw [hceil h1]; exact (b h4).le
  · obtain ⟨a, b, c⟩ := k3 h1 (by omega)
    rw [hTs, hceil h1]
    exact b (le_antisymm a (k2 (hr.1 h3)))
  · have : ∀ fuel s, ¬ s.def_ < -bs + alpha →
        relLoop e d bs (-bs + alpha) gapbits shift truncate lllmethod (fuel + 1) s = some (s, none) := by
      intro fuel s h
      simp only [relLoop, h, if_false]
    cases fuel with
    | zero => simp [relLoop] at hl
    | succ fuel =>
      rw [this fuel _ (by rw [hdef]; omega)] at hl
      simp only [Option.some.injEq, Prod.mk.injEq] at hl
      obtain ⟨h3, h4⟩ := hl
      refine ⟨?_, hr.2 h4.symm⟩
      rw [← h3]; rfl
  · intro h3
    have hn := hr.1 h3
    subst hn
    -- `def` never increases
    have key : ∀ fuel (s s' : RelState F G) r, s.def_ < -bs + alpha →
        relLoop e d bs (-bs + alpha) gapbits shift truncate lllmethod fuel s = some (s', r) → r ≠ none := by
      intro fuel
      induction fuel with
      | zero => intro s s' r _ h; simp [relLoop] at h
      | succ fuel ih =>
        intro s s' r hlt h
        unfold relLoop at h
        rw [if_pos hlt] at h
        simp only [] at h
        split at h
        · simp at h
        rename_i T hT
        split at h
        · simp at h
        rename_i s1 hs1
        have hd1 : s1.def_ = relDef (-bs + alpha) shift s.def_ := by
          unfold relReduce at hs1
          simp only [] at hs1
          split at hs1
          · split at hs1
            · simp at hs1
            · simp only [Option.some.injEq] at hs1; rw [← hs1]
          split at hs1 <;> simp only [Option.some.injEq] at hs1 <;> rw [← hs1]
        obtain ⟨f1, f2, f3, f4, f5⟩ := relTest_frame e d bs gapbits shift s1
        split at h
        · rename_i s2 col hc
          simp only [Option.some.injEq, Prod.mk.injEq] at h
          rw [← h.2]; simp
        · rename_i s2 hc
          refine ih s2 s' r ?_ h
          have e1 : s2 = (relTest e d bs gapbits shift s1).1 := by rw [hc]
          rw [e1, f4, hd1]
          unfold relDef
          rw [if_neg (by omega)]
          omega
    exact key fuel _ _ _ (by rw [hdef]; omega) hl rfl

/-- The reduction object during the search: built by the constructor, then used by `assign` and `hlll`. -/
inductive SearchObject (e : RelEnv F G) (d : ℕ) (sizemethod : ℤ) (longFlag : Bool) : Lat F → Prop
  | new : SearchObject e d sizemethod longFlag
      (newLattice e.o e.junk (1 + d) d (fun _ _ => 0) true sizemethod longFlag 0)
  | reduce {s s' : Lat F} {st : ℤ} (T : Mat Int) (f : ℕ) : SearchObject e d sizemethod longFlag s →
      hlll e.o f e.delta true (s.assign T) = some (st, s') → SearchObject e d sizemethod longFlag s'

/-- **C35, termination.** For `shift > 0` the search returns if the reductions return and the program
does not exit in `lift_truncate`: there is then a number of steps for the reductions with which the whole
search, of at most `max(alpha, 0) + 1` iterations, ends. -/
theorem C35_returns (e : RelEnv F G) (d : ℕ) (A : Mat Int)
    (alpha gapbits shift truncate lllmethod sizemethod : ℤ) (longFlag : Bool) (C0 : Mat Int) (hs : 0 < shift)
    (hlift : ∀ A df b, (e.lift (1 + d) d A df b).isSome = true)
    (hred : lllmethod = methodHLLL → ∀ T Bp, SearchObject e d sizemethod longFlag Bp →
      ∃ f, (hlll e.o f e.delta true (Bp.assign T)).isSome = true) :
    ∃ f0, ∀ f ≥ f0, (relationLll { e with fuel := f } (max alpha 0 + 1).toNat d A alpha gapbits shift truncate
      lllmethod sizemethod longFlag C0).isSome = true := by
  set bs : ℤ := ((maxbitsizeRows 0 1 d A : ℕ) : ℤ) with hbs
  have hone : ∀ T (s : RelState F G), SearchObject e d sizemethod longFlag s.Bp → ∃ f0 s1,
      (∀ f ≥ f0, relReduce { e with fuel := f } d lllmethod T s = some s1) ∧
      SearchObject e d sizemethod longFlag s1.Bp ∧ s1.def_ = s.def_ := by
    intro T s hO
    by_cases h1 : lllmethod = methodHLLL
    · obtain ⟨f, hf⟩ := hred h1 T s.Bp hO
      obtain ⟨⟨st, Bp⟩, hB⟩ := Option.isSome_iff_exists.1 hf
      refine ⟨f, { s with
        Bp := Bp
        A := (if e.S > 1 then e.pprod s.Ts.length s.A Bp.getU.M else matprodIn (1 + d) d Bp.getU.M s.A)
        Ts := s.Ts ++ [T] }, ?_, SearchObject.reduce T f hO hB, rfl⟩
      · intro f' hf'
        obtain ⟨k, rfl⟩ : ∃ k, f' = f + k := ⟨f' - f, by omega⟩
        have hm := hlll_mono e.o f k e.delta true _ _ hB
        unfold relReduce
        simp only [h1, if_true, hm]
    · by_cases h2 : lllmethod = methodFPLLL
      · have h1' : ¬ methodFPLLL = methodHLLL := by decide
        refine ⟨0, { s with
          A := (if e.S > 1 then e.pprod s.Ts.length s.A (transposeTo d d (e.fplll (transposeTo (1 + d) d T fun _ _ => 0)) fun _ _ => 0)
            else matprodIn (1 + d) d (transposeTo d d (e.fplll (transposeTo (1 + d) d T fun _ _ => 0)) fun _ _ => 0) s.A)
          Ts := s.Ts ++ [T] }, fun f _ => ?_, hO, rfl⟩
        unfold relReduce
        simp only [h2, if_neg h1', if_true]
      · refine ⟨0, { s with Ts := s.Ts ++ [T] }, fun f _ => ?_, hO, rfl⟩
        unfold relReduce
        simp only [if_neg h1, if_neg h2]
  have key : ∀ (fuel : ℕ) (s : RelState F G), SearchObject e d sizemethod longFlag s.Bp →
      (-bs + alpha) - s.def_ < fuel → 0 < fuel → ∃ f0, ∀ f ≥ f0,
      (relLoop { e with fuel := f } d bs (-bs + alpha) gapbits shift truncate lllmethod fuel s).isSome = true := by
    intro fuel
    induction fuel with
    | zero => intro s _ h1 h2; omega
    | succ fuel ih =>
      intro s hO h1 _
      by_cases hlt : s.def_ < -bs + alpha
      · obtain ⟨T, hT⟩ := Option.isSome_iff_exists.1
          (hlift s.A (relDef (-bs + alpha) shift s.def_) (relBits d shift truncate))
        obtain ⟨f1, s1, hf1, hO1, hd1⟩ := hone T { s with def_ := relDef (-bs + alpha) shift s.def_ } hO
        obtain ⟨g1, g2, g3, g4, g5⟩ := relTest_frame e d bs gapbits shift s1
        cases hc : relTest e d bs gapbits shift s1 with
        | mk s2 r =>
          have e1 : s2 = (relTest e d bs gapbits shift s1).1 := by rw [hc]
          have hc' : ∀ f, relTest { e with fuel := f } d bs gapbits shift s1 = (s2, r) := fun f => hc
          cases r with
          | some col =>
            refine ⟨f1, fun f hf => ?_⟩
            unfold relLoop
            simp only [hlt, if_true, hT, hf1 f hf, hc' f, Option.isSome_some]
          | none =>
            have e2 : s2.def_ ≥ s.def_ + 1 := by
              rw [e1, g4, hd1]
              simp only []
              unfold relDef
              split <;> omega
            obtain ⟨f2, hf2⟩ := ih s2 (by rw [e1, g2]; exact hO1) (by push_cast at h1; omega)
              (by push_cast at h1; omega)
            refine ⟨max f1 f2, fun f hf => ?_⟩
            unfold relLoop
            simp only [hlt, if_true, hT, hf1 f (le_trans (le_max_left _ _) hf), hc' f]
            exact hf2 f (le_trans (le_max_right _ _) hf)
      · refine ⟨0, fun f _ => ?_⟩
        unfold relLoop
        simp only [hlt, if_false, Option.isSome_some]
  obtain ⟨f0, hf0⟩ := key (max alpha 0 + 1).toNat (relStart e d A alpha sizemethod longFlag)
    SearchObject.new (by simp only [relStart]; omega) (by omega)
  refine ⟨f0, fun f hf => ?_⟩
  have := hf0 f hf
  unfold relationLll
  simp only []
  change (relLoop { e with fuel := f } d bs (-bs + alpha) gapbits shift truncate lllmethod _
      (relStart { e with fuel := f } d A alpha sizemethod longFlag)).isSome = true at this
  revert this
  cases relLoop { e with fuel := f } d bs (-bs + alpha) gapbits shift truncate lllmethod
    (max alpha 0 + 1).toNat (relStart { e with fuel := f } d A alpha sizemethod longFlag) with
  | none => simp
  | some p =>
    obtain ⟨s, r⟩ := p
    cases r <;> simp

/-! ## Concrete runs -/

/-- Search with the toy arithmetic, one thread, HLLL reductions. -/
def toyRel (inputgap : ℤ) : RelEnv Int Int :=
  { o := toyOps, junk := 0, delta := toy99, fuel := 60, lift := liftMpz, fplll := fun _ => idMat, q := toyOps,
    pow2 := fun k => if 0 ≤ k then toyScale * 2 ^ k.toNat else toyScale / 2 ^ (-k).toNat
    S := 1, pprod := fun _ A _ => A, inputgap := inputgap }

/-- The relation `-10 - 16 + 26 = 0` is found. -/
example : ((relationLll (toyRel 0) 40 3 (ofCols [[10], [16], [26]]) 6 1 3 (-1) methodHLLL 0 true
    (fun _ _ => 0)).map fun r => (r.found, toCols 3 1 r.C, r.last.Ts.length)) = some (1, [[-1, -1, 1]], 1) := by
  decide +kernel

/-- No relation reported: one reduction, `⌈3/3⌉`. -/
example : ((relationLll (toyRel 0) 40 3 (ofCols [[10], [16], [26]]) 3 20 3 (-1) methodHLLL 0 true
    (fun _ _ => 0)).map fun r => (r.found, toCols 3 1 r.C, r.last.Ts.length)) = some (0, [[0, 0, 0]], 1) := by
  decide +kernel

example : ProductsScheduled (toyRel 0) 3 := fun h => by simp [toyRel] at h

/-- **C34, defect.** With a truncation of two bits (`truncate = 2`) the matrix given to the reduction has
dependent columns; the search then reports a vector taken from a matrix that is not unimodular: the rows
1..3 of the final matrix have determinant 5, the relations between the inputs are not all generated any more. -/
theorem C34_truncation_loses_unimodularity :
    ∃ out, relationLll (toyRel (-100)) 40 3 (ofCols [[1000003], [1618777], [2618131]]) 30 3 8 2 methodHLLL 0 true
        (fun _ _ => 0) = some out ∧ out.found = 1 ∧
      toCols 4 3 out.last.A = [[9618801, 8, 1, 0], [-5000015, -5, 0, 0], [2618131, 0, 0, 1]] ∧
      (!![8, -5, 0; 1, 0, 0; 0, 0, 1] : Matrix (Fin 3) (Fin 3) ℤ).det = 5 := by
  have h : (((relationLll (toyRel (-100)) 40 3 (ofCols [[1000003], [1618777], [2618131]]) 30 3 8 2 methodHLLL 0
      true (fun _ _ => 0)).map fun r => (r.found, toCols 4 3 r.last.A)) ==
      some (1, [[9618801, 8, 1, 0], [-5000015, -5, 0, 0], [2618131, 0, 0, 1]])) = true := by decide +kernel
  rw [beq_iff_eq, Option.map_eq_some_iff] at h
  obtain ⟨out, h1, h2⟩ := h
  simp only [Prod.mk.injEq] at h2
  exact ⟨out, h1, h2.1, h2.2, by simp [Matrix.det_fin_three]⟩

/-! ## C50: one reduction, `lll` -/

theorem argmin_spec (f : ℕ → ℤ) (d : ℕ) (hd : 0 < d) :
    let p := forRange 1 d (fun i (p : ℤ × ℕ) => if f i < p.1 then (f i, i) else p) (f 0, 0)
    p.2 < d ∧ ∀ i < d, f p.2 ≤ f i := by
  have := forRange_ind (fun m (p : ℤ × ℕ) => p.2 < m ∧ p.1 = f p.2 ∧ ∀ i < m, f p.2 ≤ f i) (hd : 1 ≤ d)
    (fun i (p : ℤ × ℕ) => if f i < p.1 then (f i, i) else p) (f 0, 0)
    ⟨by simp, rfl, fun i hi => by rw [show i = 0 by omega]⟩ (by
      rintro i p h1 h2 ⟨a, b, c⟩
      split
      · rename_i hlt
        rw [b] at hlt
        refine ⟨by simp, rfl, fun j hj => ?_⟩
        rcases Nat.lt_succ_iff_lt_or_eq.1 hj with hj | rfl
        · exact le_trans hlt.le (c j hj)
        · exact le_refl _
      · rename_i hlt
        rw [b, not_lt] at hlt
        refine ⟨by omega, b, fun j hj => ?_⟩
        rcases Nat.lt_succ_iff_lt_or_eq.1 hj with hj | rfl
        · exact c j hj
        · exact hlt)
  exact ⟨this.1, this.2.2⟩

/-- **C50.** `lll` always returns 0 (even though it writes `C`); with HLLL, for every floating point behaviour,
`C` is a column of a unimodular matrix `W` of least residual `|L W|`, `L` the scaled and converted tuple.
With FPLLL the same holds if the external reducer multiplies its input by a unimodular matrix. -/
theorem C50_lll {X : Type} (conv : X → ℤ → ℤ) (x : ℕ → X) (o : FPOps F) (junk delta : F)
    (red : Mat Int → Mat Int) (fuel d : ℕ) (hd : 0 < d) (alpha lllmethod : ℤ) (C0 : Mat Int) (ret : ℤ) (C : Mat Int)
    (hm : lllmethod = methodFPLLL → ∀ T, ∃ V : Matrix (Fin d) (Fin d) ℤ, Unimodular V ∧
      toMatrix d (1 + d) (red T) = V * toMatrix d (1 + d) T)
    (h : fpLll conv x o junk delta red fuel d alpha lllmethod C0 = some (ret, C)) :
    ret = 0 ∧ ∃ (W : Matrix (Fin d) (Fin d) ℤ) (f : Fin d), Unimodular W ∧ (∀ j, entry C j = W j f) ∧
      ∀ i, |∑ j : Fin d, conv (x j) alpha * entry C j| ≤ |∑ j : Fin d, conv (x j) alpha * W j i| := by
  have hL : ∀ j < d, forRange 0 d (fun j L => setEntry L 0 j (conv (x j) alpha)) (fun _ _ => (0 : ℤ)) j 0 =
      conv (x j) alpha := by
    intro j hj
    have := forRange_fillRow (fun j => conv (x j) alpha) 0 0 0 0 d (Nat.zero_le d) (fun _ _ => (0 : ℤ)) j 0
    simp only [Nat.zero_add, Nat.zero_le, true_and, Nat.sub_zero] at this
    rw [this, if_pos hj]
  unfold fpLll at h
  simp only [] at h
  set L := forRange 0 d (fun j L => setEntry L 0 j (conv (x j) alpha)) (fun _ _ => (0 : ℤ)) with hLdef
  rw [Option.map_eq_some_iff] at h
  obtain ⟨A', hA', hC⟩ := h
  obtain ⟨W, hWu, hW⟩ : ∃ W : Matrix (Fin d) (Fin d) ℤ, Unimodular W ∧
      toMatrix (1 + d) d A' = toMatrix (1 + d) d (relInit d L) * W := by
    split at hA'
    · rw [Option.map_eq_some_iff] at hA'
      obtain ⟨⟨st, s'⟩, h1, h2⟩ := hA'
      obtain ⟨A2, hH⟩ : ∃ A2, HistInv (1 + d) d A2 false 0 True
          (newLattice o junk (1 + d) d (relInit d L) false 0 true 0) ∧ A2 = relInit d L :=
        ⟨_, newLattice_hist o junk (1 + d) d _ false 0 true 0, rfl⟩
      obtain ⟨hH, rfl⟩ := hH
      have hE := hlll_exit o fuel delta true _ s' st hH.inv (le_of_eq hH.km) h1
      obtain ⟨W, hW, hB, -⟩ := hE.inv.uni
      refine ⟨W, unimodular_of_isUnit hW, ?_⟩
      rw [← h2]
      exact hB
    split at hA'
    · rename_i hf
      simp only [Option.some.injEq] at hA'
      obtain ⟨V, hV, hVT⟩ := hm hf (transposeTo (1 + d) d (relInit d L) fun _ _ => 0)
      refine ⟨Vᵀ, ?_, ?_⟩
      · unfold Unimodular at hV ⊢; rwa [Matrix.det_transpose]
      · rw [← hA']
        rw [C46_transpose_in, hVT, C46_transpose_in, Matrix.transpose_mul, Matrix.transpose_transpose]
    · simp only [Option.some.injEq] at hA'
      subst hA'
      exact ⟨1, Or.inl Matrix.det_one, (Matrix.mul_one _).symm⟩
  have hlow : ∀ (j i : Fin d), A' i (1 + j) = W j i := by
    intro j i
    have := congrFun (congrFun hW ⟨1 + j, by omega⟩) i
    rw [relInit_mul, dif_neg (by simp only []; omega)] at this
    simp only [toMatrix, Matrix.of_apply] at this
    rw [this]
    congr 1
    exact Fin.ext (by simp only []; omega)
  set U := forRange 0 d (fun i U => forRange 0 d (fun j U => setEntry U i j (A' j (i + 1))) U)
    (fun _ _ => (0 : ℤ)) with hUdef
  have hU : ∀ i j : Fin d, U j i = W i j := by
    intro i j
    rw [hUdef]
    have := forRange_fill (fun i j => A' j (i + 1)) 0 0 d 0 d (fun _ _ => (0 : ℤ)) j i
    simp only [Nat.zero_add, Nat.zero_le, true_and, Nat.sub_zero] at this
    rw [this, if_pos ⟨i.2, j.2⟩, ← hlow i j, Nat.add_comm]
  have hLU : ∀ i : Fin d, matprodIn 1 d U L i 0 = ∑ j : Fin d, conv (x j) alpha * W j i := by
    intro i
    rw [matprodIn_apply 1 d hd, if_pos ⟨by omega, i.2⟩]
    rw [Finset.sum_range]
    exact sum_congr rfl fun k _ => by rw [hL k k.2, hU k i]
  set f : ℕ → ℤ := fun i => zabs (matprodIn 1 d U L i 0) with hf
  obtain ⟨a1, a2⟩ := argmin_spec f d hd
  simp only [Prod.mk.injEq] at hC
  obtain ⟨rfl, rfl⟩ := hC
  set p := forRange 1 d (fun i (p : ℤ × ℕ) => if f i < p.1 then (f i, i) else p) (f 0, 0) with hp
  have hC : ∀ j : Fin d, entry (forRange 0 d (fun j C => setEntry C j 0 (A' p.2 (1 + j))) C0) j =
      W j ⟨p.2, a1⟩ := fun j => by
    unfold entry
    rw [relC_apply d A' p.2 C0 j j.2]
    exact hlow j ⟨p.2, a1⟩
  refine ⟨rfl, W, ⟨p.2, a1⟩, hWu, hC, fun i => ?_⟩
  have := a2 i i.2
  rw [hf] at this
  simp only [zabs_eq] at this
  rw [hLU i, hLU ⟨p.2, a1⟩] at this
  simp only [hC]
  exact this

/-- `lll` on the tuple (10, 16, 26): the relation is written in `C`, and 0 is returned. -/
example : ((fpLll (fun (x : ℤ) _ => x) (fun j => [10, 16, 26].getD j 0) toyOps 0 toy99 id 60 3 0 methodHLLL
    (fun _ _ => 0)).map fun r => (r.1, toCols 3 1 r.2)) = some (0, [[-1, -1, 1]]) := by decide +kernel

end HPLLL.Props
