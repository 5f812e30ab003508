import Verif.Props.Relations
import Verif.Model.Toy
import Mathlib.Data.Int.Log
/-!
# The constructor of `FPTuple` and tuples with a wide range of magnitudes: C84
-/

namespace HPLLL.Props
open HPLLL Spec

variable {F G X : Type}

/-- What `exponent()` of mpfr is for numbers different from zero: `x = m 2^e` with `1/2 ≤ |m| < 1`. -/
def IsExponent (ex : ℝ → ℤ) : Prop := ∀ x : ℝ, x ≠ 0 → 2 ^ (ex x - 1) ≤ |x| ∧ |x| < 2 ^ ex x

theorem minmax_loop (ex : X → ℤ) (x : ℕ → X) (d : ℕ) (hd : 0 < d) :
    let p := forRange 0 d (fun i (p : ℤ × ℤ) => (min p.1 (ex (x i)), max p.2 (ex (x i)))) (ex (x 0), ex (x 0))
    (∀ i < d, p.1 ≤ ex (x i) ∧ ex (x i) ≤ p.2) ∧ (∃ i < d, p.1 = ex (x i)) ∧ ∃ i < d, p.2 = ex (x i) := by
  have := forRange_ind (P := fun k (p : ℤ × ℤ) => (∀ i < k, p.1 ≤ ex (x i) ∧ ex (x i) ≤ p.2) ∧
      (∃ i < d, p.1 = ex (x i)) ∧ ∃ i < d, p.2 = ex (x i)) (Nat.zero_le d)
    (fun i (p : ℤ × ℤ) => (min p.1 (ex (x i)), max p.2 (ex (x i)))) (ex (x 0), ex (x 0))
    ⟨fun i hi => by omega, ⟨0, hd, rfl⟩, ⟨0, hd, rfl⟩⟩
    (by
      rintro k ⟨a, b⟩ h1 h2 ⟨h3, ⟨i, hi, h4⟩, j, hj, h5⟩
      dsimp only at *
      refine ⟨fun l hl => ?_, ?_, ?_⟩
      · by_cases hlk : l = k
        · rw [hlk]; exact ⟨min_le_right _ _, le_max_right _ _⟩
        · obtain ⟨u, v⟩ := h3 l (by omega)
          exact ⟨le_trans (min_le_left _ _) u, le_trans v (le_max_left _ _)⟩
      · rcases min_choice a (ex (x k)) with h | h
        · exact ⟨i, hi, by rw [h, h4]⟩
        · exact ⟨k, h2, h⟩
      · rcases max_choice b (ex (x k)) with h | h
        · exact ⟨j, hj, by rw [h, h5]⟩
        · exact ⟨k, h2, h⟩)
  exact this

/-- **C84, constructor.** The gap kept by the object is the largest difference between two exponents; the construction is
undefined exactly for an empty vector and when this difference does not fit in a `long`. -/
theorem C84_gap (ex : X → ℤ) (x : ℕ → X) (d : ℕ) (g : ℤ) :
    fpInputgap ex x d = some g ↔
      (∃ i < d, ∃ j < d, g = ex (x i) - ex (x j)) ∧ (∀ i < d, ∀ j < d, ex (x i) - ex (x j) ≤ g) ∧ g < 2 ^ 63 := by
  unfold fpInputgap
  by_cases hd : d = 0
  · rw [if_pos hd]
    subst hd
    refine ⟨fun h => (Option.some_ne_none _ h.symm).elim, ?_⟩
    rintro ⟨⟨i, hi, -⟩, -⟩
    omega
  · rw [if_neg hd]
    obtain ⟨h1, ⟨i, hi, h2⟩, j, hj, h3⟩ := minmax_loop ex x d (by omega)
    simp only
    obtain ⟨p, hp⟩ : ∃ p, p = forRange 0 d (fun i (p : ℤ × ℤ) => (min p.1 (ex (x i)), max p.2 (ex (x i))))
      (ex (x 0), ex (x 0)) := ⟨_, rfl⟩
    rw [← hp] at h1 h2 h3 ⊢
    constructor
    · intro h
      split_ifs at h with hlt
      obtain rfl := Option.some.inj h
      exact ⟨⟨j, hj, i, hi, by rw [h2, h3]⟩, fun a ha b hb => by have := h1 a ha; have := h1 b hb; omega, hlt⟩
    · rintro ⟨⟨a, ha, b, hb, e⟩, h4, h5⟩
      have := h4 j hj i hi
      have := h1 a ha
      have := h1 b hb
      have : p.2 - p.1 = g := by omega
      rw [this, if_pos h5]

/-- The value of `def` when a relation is reported. -/
theorem relLoop_def {e : RelEnv F G} {d : ℕ} {bitsize target gapbits shift truncate lllmethod : ℤ} :
    ∀ (fuel : ℕ) (s s' : RelState F G) (col : ℕ),
      relLoop e d bitsize target gapbits shift truncate lllmethod fuel s = some (s', some col) →
      e.inputgap - bitsize < target := by
  intro fuel
  induction fuel with
  | zero => intro s s' r h; simp [relLoop] at h
  | succ fuel ih =>
    intro s s' col h
    unfold relLoop at h
    split at h
    · rename_i hlt
      simp only [] at h
      split at h
      · simp at h
      rename_i T hT
      split at h
      · simp at h
      rename_i s1 hs1
      obtain ⟨f1, f2, f3, f4, f5⟩ := relTest_frame e d bitsize gapbits shift s1
      have hdef : s1.def_ = relDef target shift s.def_ := by
        unfold relReduce at hs1
        simp only [] at hs1
        split at hs1
        · split at hs1
          · simp at hs1
          · obtain rfl := Option.some.inj hs1; rfl
        · split at hs1 <;> (obtain rfl := Option.some.inj hs1; rfl)
      have hle : s1.def_ ≤ target := by
        rw [hdef]; unfold relDef; split <;> omega
      split at h
      · rename_i s2 col' hc
        have := (f5 col' (by rw [hc])).2
        omega
      · exact ih _ _ _ h
    · simp at h

/-- **C84, wide tuples.** A relation is reported only if `alpha` is more than the difference of the exponents of any two entries
of the tuple: for any other call the search returns 0 and `C` is left as it was, whatever the tuple, the reductions and the
arithmetic.  In particular a tuple with an entry whose exponent is very negative, as the exponent of zero, has no
relation. -/
theorem C84_wide (ex : X → ℤ) (conv : X → ℤ → ℤ) (x : ℕ → X) (e : RelEnv F G) (fuel d : ℕ)
    (alpha gapbits shift truncate lllmethod sizemethod : ℤ) (longFlag : Bool) (C0 : Mat Int) (out : RelOut F G)
    (h : fpTupleRelation ex conv x e fuel d alpha gapbits shift truncate lllmethod sizemethod longFlag C0 = some out) :
    (out.found = 0 ∧ out.C = C0) ∨ (out.found = 1 ∧ ∀ i < d, ∀ j < d, ex (x i) - ex (x j) < alpha) := by
  unfold fpTupleRelation at h
  split at h
  · simp at h
  rename_i g hg
  obtain ⟨-, hmax, -⟩ := (C84_gap ex x d g).1 hg
  unfold fpRelation relationLll at h
  simp only [] at h
  split at h
  · simp at h
  · obtain rfl := Option.some.inj h
    exact Or.inl ⟨rfl, rfl⟩
  · rename_i s col hl
    obtain rfl := Option.some.inj h
    have := relLoop_def _ _ _ _ hl
    dsimp only at this
    exact Or.inr ⟨rfl, fun i hi j hj => by have := hmax i hi j hj; omega⟩

/-- **C84, magnitudes.** With the exponents of mpfr: when a relation is reported for a tuple of nonzero reals, every entry
multiplied by `2^alpha` is larger than every entry. -/
theorem C84_magnitudes (ex : ℝ → ℤ) (hex : IsExponent ex) (conv : ℝ → ℤ → ℤ) (x : ℕ → ℝ) (e : RelEnv F G) (fuel d : ℕ)
    (alpha gapbits shift truncate lllmethod sizemethod : ℤ) (longFlag : Bool) (C0 : Mat Int) (out : RelOut F G)
    (h : fpTupleRelation ex conv x e fuel d alpha gapbits shift truncate lllmethod sizemethod longFlag C0 = some out)
    (hf : out.found ≠ 0) : ∀ i < d, ∀ j < d, x i ≠ 0 → x j ≠ 0 → |x i| < 2 ^ alpha * |x j| := by
  intro i hi j hj h1 h2
  rcases C84_wide ex conv x e fuel d alpha gapbits shift truncate lllmethod sizemethod longFlag C0 out h with h3 | h3
  · exact absurd h3.1 hf
  · have h4 := h3.2 i hi j hj
    calc |x i| < 2 ^ ex (x i) := (hex _ h1).2
      _ ≤ 2 ^ (alpha + (ex (x j) - 1)) := zpow_le_zpow_right₀ (by norm_num) (by omega)
      _ = 2 ^ alpha * 2 ^ (ex (x j) - 1) := zpow_add₀ (by norm_num) _ _
      _ ≤ 2 ^ alpha * |x j| := mul_le_mul_of_nonneg_left (hex _ h2).1 (by positivity)

/-! ## Concrete cases -/

/-- Exponent of an integer; that of zero is the one of mpfr. -/
def exZ (x : ℤ) : ℤ := if x = 0 then -(2 ^ 63 - 1) else sizeInBits x

/-- The relation between 10, 16, 26 is found. -/
example : ((fpTupleRelation exZ (fun x _ => x) (fun j => [10, 16, 26].getD j 0) (toyRel 7) 40 3 6 1 3 (-1) methodHLLL 0 true
    (fun _ _ => 0)).map fun r => (r.found, toCols 3 1 r.C)) = some (1, [[-1, -1, 1]]) := by decide +kernel

/-- **C84, defect.** A tuple with a zero entry and an entry at least 1/2 in absolute value: the difference of the exponents is
not in the type `long`. -/
theorem C84_zero_entry : fpInputgap exZ (fun j => [0, 16, 26].getD j 0) 3 = none ∧ fpInputgap exZ (fun _ => 5) 0 = none := by
  decide +kernel

/-- The tuple `(1, 16, 16)`: the relation `(0, -1, 1)` is reported for `alpha = 5`, and not for `alpha = 4`, where the search
would report it without the test on the exponents. -/
theorem C84_wide_missed :
    ((fpTupleRelation exZ (fun x al => x * 2 ^ al.toNat) (fun j => [1, 16, 16].getD j 0) (toyRel 0) 40 3 5 (-10) 20 (-1)
      methodHLLL 0 true (fun _ _ => 0)).map fun r => (r.found, toCols 3 1 r.C)) = some (1, [[0, -1, 1]]) ∧
    ((fpTupleRelation exZ (fun x al => x * 2 ^ al.toNat) (fun j => [1, 16, 16].getD j 0) (toyRel 0) 40 3 4 (-10) 20 (-1)
      methodHLLL 0 true (fun _ _ => 0)).map fun r => (r.found, toCols 3 1 r.C)) = some (0, [[0, 0, 0]]) ∧
    ((fpRelation (fun x al => x * 2 ^ al.toNat) (fun j => [1, 16, 16].getD j 0) (toyRel 0) 40 3 4 (-10) 20 (-1)
      methodHLLL 0 true (fun _ _ => 0)).map fun r => (r.found, toCols 3 1 r.C)) = some (1, [[0, -1, 1]]) := by decide +kernel

noncomputable def exR (x : ℝ) : ℤ := Int.log 2 |x| + 1

example : IsExponent exR := by
  intro x hx
  have h : 0 < |x| := abs_pos.mpr hx
  unfold exR
  rw [add_sub_cancel_right]
  exact ⟨Int.zpow_log_le_self (b := 2) (by norm_num) h, Int.lt_zpow_succ_log_self (b := 2) (by norm_num) |x|⟩

end HPLLL.Props
