import Verif.Model.GenAlg
import Verif.Proof.MatH
import Mathlib.Analysis.SpecialFunctions.Pow.Real
import Mathlib.LinearAlgebra.Dimension.Constructions
import Mathlib.LinearAlgebra.FiniteDimensional.Basic
import Mathlib.RingTheory.Localization.Module
/-!
# The generators of real vectors with relations (C81)
-/

namespace HPLLL.Props
open HPLLL Finset

/-! ## Exact elementary functions -/

open Classical in
/-- Exact operations; `none` is a result that is not a real number (NaN or infinite). -/
noncomputable def exactElem : ElemOps (Option ℝ) where
  ofInt := fun z => some z
  add := fun a b => a.bind fun x => b.map fun y => x + y
  sub := fun a b => a.bind fun x => b.map fun y => x - y
  div := fun a b => a.bind fun x => b.bind fun y => if y = 0 then none else some (x / y)
  neg := fun a => a.map fun x => -x
  abs := fun a => a.map fun x => |x|
  log := fun a => a.bind fun x => if 0 < x then some (Real.log x) else none
  exp := fun a => a.map Real.exp
  ltZero := fun a => match a with
    | some x => decide (x < 0)
    | none => false

/-- There is a nonzero vector of `n` integers orthogonal to the `n` numbers `v 0, ..., v (n-1)`. -/
def HasRelation (n : ℕ) (v : ℕ → ℝ) : Prop :=
  ∃ c : Fin n → ℤ, c ≠ 0 ∧ ∑ i, (c i : ℝ) * v i = 0

/-- The same integers for two vectors. -/
def HasRelation2 (n : ℕ) (v w : ℕ → ℝ) : Prop :=
  ∃ c : Fin n → ℤ, c ≠ 0 ∧ ∑ i, (c i : ℝ) * v i = 0 ∧ ∑ i, (c i : ℝ) * w i = 0

theorem genRoot_exact (a r : ℤ) (ha : 0 < a) (hr : 0 < r) :
    genRoot exactElem a r = some ((a : ℝ) ^ ((1 : ℝ) / r)) := by
  have h1 : (0 : ℝ) < a := by exact_mod_cast ha
  have h2 : (r : ℝ) ≠ 0 := by exact_mod_cast hr.ne'
  simp only [genRoot, exactElem, Option.bind_some, if_pos h1, if_neg h2, Option.map_some]
  rw [Real.rpow_def_of_pos h1]
  congr 2
  ring

/-- The two components of the loop. -/
theorem genPowers_loop (alt : Bool) (b : ℝ) (n : ℕ) (hn : 1 ≤ n) (v : ℕ → Option ℝ) :
    ∀ i < n, genPowers exactElem alt (some b) n v i =
      some (if alt && i % 2 > 0 then -Real.exp (i * b) else Real.exp (i * b)) := by
  have := forRange_ind (P := fun k (s : Option ℝ × (ℕ → Option ℝ)) => s.1 = some (((k : ℝ) - 1) * b) ∧
      ∀ i < k, s.2 i = some (if alt && i % 2 > 0 then -Real.exp (i * b) else Real.exp (i * b))) hn
    (fun i (s : Option ℝ × (ℕ → Option ℝ)) =>
      (exactElem.add s.1 (some b), fun k => if k = i then (if alt && i % 2 > 0 then
        exactElem.neg (exactElem.exp (exactElem.add s.1 (some b)))
        else exactElem.exp (exactElem.add s.1 (some b))) else s.2 k))
    (exactElem.ofInt 0, fun k => if k = 0 then exactElem.ofInt 1 else v k)
    (by
      refine ⟨by simp [exactElem], fun i hi => ?_⟩
      have : i = 0 := by omega
      subst this
      simp [exactElem])
    (by
      intro k s h1 h2 ⟨h3, h4⟩
      have h5 : exactElem.add s.1 (some b) = some ((k : ℝ) * b) := by
        rw [h3]; simp only [exactElem, Option.bind_some, Option.map_some]; congr 1; ring
      refine ⟨by rw [h5]; push_cast; congr 1; ring, fun i hi => ?_⟩
      rw [h5]
      rcases Nat.lt_succ_iff_lt_or_eq.1 hi with h | rfl
      · simp only [if_neg h.ne]
        exact h4 i h
      · simp only [if_true]
        by_cases hp : (alt && decide (i % 2 > 0)) = true
        · simp only [if_pos hp]; rfl
        · simp only [if_neg hp]; rfl)
  exact this.2

theorem genPowers_none (alt : Bool) (n : ℕ) (v : ℕ → Option ℝ) :
    ∀ i < n, 0 < i → genPowers exactElem alt none n v i = none := by
  intro i hi h0
  have := forRange_ind (P := fun k (s : Option ℝ × (ℕ → Option ℝ)) => ∀ i < k, 0 < i → s.2 i = none)
    (show 1 ≤ n by omega)
    (fun i (s : Option ℝ × (ℕ → Option ℝ)) =>
      (exactElem.add s.1 none, fun k => if k = i then (if alt && i % 2 > 0 then
        exactElem.neg (exactElem.exp (exactElem.add s.1 none))
        else exactElem.exp (exactElem.add s.1 none)) else s.2 k))
    (exactElem.ofInt 0, fun k => if k = 0 then exactElem.ofInt 1 else v k)
    (by intro i h1 h2; omega)
    (by
      intro k s h1 h2 h4 i hi h0
      have h5 : exactElem.add s.1 none = none := by
        cases h : s.1 <;> simp [exactElem]
      rw [h5]
      rcases Nat.lt_succ_iff_lt_or_eq.1 hi with h | rfl
      · simp only [if_neg h.ne]
        exact h4 i h h0
      · simp only [if_true]
        split <;> rfl)
  exact this i hi h0

/-! ## Powers of a difference of two radicals -/

/-- The numbers `x^a y^b` for `a < r`, `b < s`. -/
noncomputable def radSpan (r s : ℕ) (x y : ℝ) : Submodule ℚ ℝ :=
  Submodule.span ℚ (Set.range fun p : Fin r × Fin s => x ^ (p.1 : ℕ) * y ^ (p.2 : ℕ))

theorem radSpan_finrank (r s : ℕ) (x y : ℝ) : Module.finrank ℚ (radSpan r s x y) ≤ r * s := by
  refine le_trans (finrank_range_le_card (R := ℚ) (fun p : Fin r × Fin s => x ^ (p.1 : ℕ) * y ^ (p.2 : ℕ))) ?_
  simp

instance radSpan_finite (r s : ℕ) (x y : ℝ) : Module.Finite ℚ (radSpan r s x y) :=
  Module.Finite.span_of_finite ℚ (Set.finite_range _)

theorem radSpan_mul_left {r s : ℕ} {x y : ℝ} {A : ℤ} (hx : x ^ r = A) (hr : 0 < r) :
    ∀ z ∈ radSpan r s x y, x * z ∈ radSpan r s x y := by
  intro z hz
  induction hz using Submodule.span_induction with
  | mem z hz =>
    obtain ⟨⟨⟨a, ha⟩, b⟩, rfl⟩ := hz
    simp only []
    rcases Nat.lt_or_ge (a + 1) r with h | h
    · refine Submodule.subset_span ⟨(⟨a + 1, h⟩, b), ?_⟩
      simp only [pow_succ]; ring
    · have : a + 1 = r := by omega
      have h1 : x * (x ^ a * y ^ (b : ℕ)) = (A : ℚ) • (x ^ 0 * y ^ (b : ℕ)) := by
        rw [← mul_assoc, ← pow_succ', this, hx, Rat.smul_def]; push_cast; ring
      rw [h1]
      exact Submodule.smul_mem _ _ (Submodule.subset_span ⟨(⟨0, hr⟩, b), rfl⟩)
  | zero => rw [mul_zero]; exact Submodule.zero_mem _
  | add u v _ _ hu hv => rw [mul_add]; exact Submodule.add_mem _ hu hv
  | smul q u _ hu => rw [mul_smul_comm]; exact Submodule.smul_mem _ _ hu

theorem radSpan_mul_right {r s : ℕ} {x y : ℝ} {B : ℤ} (hy : y ^ s = B) (hs : 0 < s) :
    ∀ z ∈ radSpan r s x y, y * z ∈ radSpan r s x y := by
  intro z hz
  induction hz using Submodule.span_induction with
  | mem z hz =>
    obtain ⟨⟨a, ⟨b, hb⟩⟩, rfl⟩ := hz
    simp only []
    rcases Nat.lt_or_ge (b + 1) s with h | h
    · refine Submodule.subset_span ⟨(a, ⟨b + 1, h⟩), ?_⟩
      simp only [pow_succ]; ring
    · have : b + 1 = s := by omega
      have h1 : y * (x ^ (a : ℕ) * y ^ b) = (B : ℚ) • (x ^ (a : ℕ) * y ^ 0) := by
        rw [mul_left_comm, ← pow_succ', this, hy, Rat.smul_def]; push_cast; ring
      rw [h1]
      exact Submodule.smul_mem _ _ (Submodule.subset_span ⟨(a, ⟨0, hs⟩), rfl⟩)
  | zero => rw [mul_zero]; exact Submodule.zero_mem _
  | add u v _ _ hu hv => rw [mul_add]; exact Submodule.add_mem _ hu hv
  | smul q u _ hu => rw [mul_smul_comm]; exact Submodule.smul_mem _ _ hu

theorem radSpan_pow {r s : ℕ} {x y : ℝ} {A B : ℤ} (hx : x ^ r = A) (hy : y ^ s = B) (hr : 0 < r) (hs : 0 < s)
    (α : ℝ) (hα : α = x - y ∨ α = y - x) (i : ℕ) : α ^ i ∈ radSpan r s x y := by
  induction i with
  | zero =>
    refine Submodule.subset_span ⟨(⟨0, hr⟩, ⟨0, hs⟩), ?_⟩
    simp
  | succ i ih =>
    have h1 := radSpan_mul_left hx hr _ ih
    have h2 := radSpan_mul_right hy hs _ ih
    rw [pow_succ']
    rcases hα with rfl | rfl
    · rw [sub_mul]; exact Submodule.sub_mem _ h1 h2
    · rw [sub_mul]; exact Submodule.sub_mem _ h2 h1

/-- More vectors than the dimension: an integer relation. -/
theorem int_relation {n : ℕ} {V : Type} [AddCommGroup V] [Module ℚ V] [Module.Finite ℚ V] (v : Fin n → V)
    (h : Module.finrank ℚ V < n) : ∃ c : Fin n → ℤ, c ≠ 0 ∧ ∑ i, c i • v i = 0 := by
  have h1 : ¬ LinearIndependent ℚ v := fun hl => by
    have := hl.fintype_card_le_finrank
    rw [Fintype.card_fin] at this
    omega
  have h2 : ¬ LinearIndependent ℤ v := fun hl => h1 ((LinearIndependent.iff_fractionRing ℤ ℚ).1 hl)
  obtain ⟨g, hg, i, hi⟩ := Fintype.not_linearIndependent_iff.1 h2
  exact ⟨g, fun h0 => hi (by rw [h0]; rfl), hg⟩

theorem hasRelation_pow {r s : ℕ} {x y : ℝ} {A B : ℤ} (hx : x ^ r = A) (hy : y ^ s = B) (hr : 0 < r) (hs : 0 < s)
    (α : ℝ) (hα : α = x - y ∨ α = y - x) (n : ℕ) (hn : r * s < n) : HasRelation n fun i => α ^ i := by
  obtain ⟨c, hc, h⟩ := int_relation (fun i : Fin n => (⟨α ^ (i : ℕ), radSpan_pow hx hy hr hs α hα i⟩ : radSpan r s x y))
    (lt_of_le_of_lt (radSpan_finrank r s x y) hn)
  refine ⟨c, hc, ?_⟩
  have := congrArg (Subtype.val) h
  rw [AddSubmonoidClass.coe_finsetSum] at this
  simpa using this

theorem hasRelation2_pow {r s t u : ℕ} {x y z w : ℝ} {A B C D : ℤ} (hx : x ^ r = A) (hy : y ^ s = B)
    (hz : z ^ t = C) (hw : w ^ u = D) (hr : 0 < r) (hs : 0 < s) (ht : 0 < t) (hu : 0 < u)
    (α β : ℝ) (hα : α = x - y ∨ α = y - x) (hβ : β = z - w ∨ β = w - z) (n : ℕ) (hn : r * s + t * u < n) :
    HasRelation2 n (fun i => α ^ i) fun i => β ^ i := by
  obtain ⟨c, hc, h⟩ := int_relation (V := radSpan r s x y × radSpan t u z w)
    (fun i : Fin n => (⟨α ^ (i : ℕ), radSpan_pow hx hy hr hs α hα i⟩, ⟨β ^ (i : ℕ), radSpan_pow hz hw ht hu β hβ i⟩))
    (by
      rw [Module.finrank_prod]
      have h1 := radSpan_finrank r s x y
      have h2 := radSpan_finrank t u z w
      omega)
  refine ⟨c, hc, ?_, ?_⟩
  · have := congrArg (fun p => (p.1 : ℝ)) h
    simp only [Prod.fst_sum, AddSubmonoidClass.coe_finsetSum] at this
    simpa using this
  · have := congrArg (fun p => (p.2 : ℝ)) h
    simp only [Prod.snd_sum, AddSubmonoidClass.coe_finsetSum] at this
    simpa using this

/-! ## The generators -/

theorem rad_pow (a r : ℕ) (hr : 0 < r) : ((a : ℝ) ^ ((1 : ℝ) / r)) ^ r = ((a : ℤ) : ℝ) := by
  rw [one_div, Real.rpow_inv_natCast_pow (Nat.cast_nonneg a) hr.ne']
  simp

theorem rad_pos (a r : ℕ) (ha : 0 < a) : 0 < (a : ℝ) ^ ((1 : ℝ) / r) :=
  Real.rpow_pos_of_pos (by exact_mod_cast ha) _

/-- Comparison of two radicals. -/
theorem rad_lt (a r b s : ℕ) (ha : 0 < a) (hb : 0 < b) (hr : 0 < r) (hs : 0 < s) :
    (b : ℝ) ^ ((1 : ℝ) / s) < (a : ℝ) ^ ((1 : ℝ) / r) ↔ b ^ r < a ^ s := by
  have hx := rad_pow a r hr
  have hy := rad_pow b s hs
  have hx0 := (rad_pos a r ha).le
  have hy0 := (rad_pos b s hb).le
  set x := (a : ℝ) ^ ((1 : ℝ) / r)
  set y := (b : ℝ) ^ ((1 : ℝ) / s)
  rw [← pow_lt_pow_iff_left₀ hy0 hx0 (Nat.mul_ne_zero hr.ne' hs.ne'), pow_mul x, hx, mul_comm r s, pow_mul y, hy]
  norm_cast

theorem rad_ne (a r b s : ℕ) (ha : 0 < a) (hb : 0 < b) (hr : 0 < r) (hs : 0 < s) (hne : a ^ s ≠ b ^ r) :
    (a : ℝ) ^ ((1 : ℝ) / r) ≠ (b : ℝ) ^ ((1 : ℝ) / s) := by
  rcases Nat.lt_or_gt_of_ne hne with h | h
  · exact ((rad_lt b s a r hb ha hs hr).2 h).ne
  · exact ((rad_lt a r b s ha hb hr hs).2 h).ne'

theorem pow_ne_of_coprime (a r b s : ℕ) (hab : Nat.Coprime a b) (ha : a ≠ 1) (hs : 0 < s) : a ^ s ≠ b ^ r := by
  intro h
  have h1 : Nat.Coprime (a ^ s) (b ^ r) := hab.pow s r
  rw [← h, Nat.coprime_self] at h1
  rcases Nat.pow_eq_one.1 h1 with h2 | h2
  · exact ha h2
  · omega

/-- **C81, powers.** With exact elementary functions and `2^r < 3^s`, `gen3r2s(v, n, r, s)` gives the powers
`1, α, ..., α^(n-1)` of the positive number `α = 3^(1/r) - 2^(1/s)`. -/
theorem C81_powers (n r s : ℕ) (hn : 0 < n) (hr : 0 < r) (hs : 0 < s) (h : 2 ^ r < 3 ^ s) (v : ℕ → Option ℝ) :
    ∃ w, gen3r2s exactElem n r s v = some w ∧
      0 < (3 : ℝ) ^ ((1 : ℝ) / r) - (2 : ℝ) ^ ((1 : ℝ) / s) ∧
      ∀ i < n, w i = some (((3 : ℝ) ^ ((1 : ℝ) / r) - (2 : ℝ) ^ ((1 : ℝ) / s)) ^ i) := by
  have hp : 0 < (3 : ℝ) ^ ((1 : ℝ) / r) - (2 : ℝ) ^ ((1 : ℝ) / s) := by
    have := (rad_lt 3 r 2 s (by omega) (by omega) hr hs).2 h
    push_cast at this
    linarith
  refine ⟨_, by unfold gen3r2s; rw [if_neg hn.ne'], hp, fun i hi => ?_⟩
  rw [genRoot_exact 2 s (by norm_num) (by exact_mod_cast hs), genRoot_exact 3 r (by norm_num) (by exact_mod_cast hr)]
  have hl : exactElem.log (exactElem.sub (some (((3 : ℤ) : ℝ) ^ ((1 : ℝ) / ((r : ℤ) : ℝ))))
      (some (((2 : ℤ) : ℝ) ^ ((1 : ℝ) / ((s : ℤ) : ℝ))))) =
      some (Real.log ((3 : ℝ) ^ ((1 : ℝ) / r) - (2 : ℝ) ^ ((1 : ℝ) / s))) := by
    simp only [exactElem, Option.bind_some, Option.map_some]
    push_cast
    rw [if_pos hp]
  rw [hl, genPowers_loop false _ n hn v i hi]
  simp only [Bool.false_and, Bool.false_eq_true, if_false]
  rw [mul_comm, ← Real.rpow_def_of_pos hp, Real.rpow_natCast]

/-- **C81, relation.** As soon as `n > r s` these numbers have an integer relation. -/
theorem C81_relation (n r s : ℕ) (hr : 0 < r) (hs : 0 < s) (h : 2 ^ r < 3 ^ s) (hn : r * s < n)
    (v : ℕ → Option ℝ) :
    ∃ (w : ℕ → Option ℝ) (f : ℕ → ℝ), gen3r2s exactElem n r s v = some w ∧ (∀ i < n, w i = some (f i)) ∧
      HasRelation n f := by
  obtain ⟨w, h1, -, h2⟩ := C81_powers n r s (by omega) hr hs h v
  refine ⟨w, _, h1, h2, ?_⟩
  have hx := rad_pow 3 r hr
  have hy := rad_pow 2 s hs
  push_cast at hx hy
  exact hasRelation_pow (A := 3) (B := 2) (by exact_mod_cast hx) (by exact_mod_cast hy) hr hs _ (Or.inl rfl) n hn

/-- **C81, no number (DEFECT).** If `3^s < 2^r` (for instance `r = 2`, `s = 1`), the generator takes the logarithm
of a negative number: every entry but the first is not a number. -/
theorem C81_nan (n r s : ℕ) (hn : 0 < n) (hr : 0 < r) (hs : 0 < s) (h : 3 ^ s < 2 ^ r) (v : ℕ → Option ℝ) :
    ∃ w, gen3r2s exactElem n r s v = some w ∧ ∀ i < n, 0 < i → w i = none := by
  have hp : (3 : ℝ) ^ ((1 : ℝ) / r) - (2 : ℝ) ^ ((1 : ℝ) / s) < 0 := by
    have := (rad_lt 2 s 3 r (by omega) (by omega) hs hr).2 h
    push_cast at this
    linarith
  refine ⟨_, by unfold gen3r2s; rw [if_neg hn.ne'], fun i hi h0 => ?_⟩
  rw [genRoot_exact 2 s (by norm_num) (by exact_mod_cast hs), genRoot_exact 3 r (by norm_num) (by exact_mod_cast hr)]
  have hl : exactElem.log (exactElem.sub (some (((3 : ℤ) : ℝ) ^ ((1 : ℝ) / ((r : ℤ) : ℝ))))
      (some (((2 : ℤ) : ℝ) ^ ((1 : ℝ) / ((s : ℤ) : ℝ))))) = none := by
    simp only [exactElem, Option.bind_some, Option.map_some]
    push_cast
    rw [if_neg (by linarith)]
  rw [hl]
  exact genPowers_none false n v i hi h0

/-- The two cases `2^r < 3^s` and `3^s < 2^r` are the only ones. -/
theorem C81_cases (r s : ℕ) (hs : 0 < s) : 2 ^ r < 3 ^ s ∨ 3 ^ s < 2 ^ r :=
  Nat.lt_or_gt_of_ne (pow_ne_of_coprime 3 r 2 s (by decide) (by decide) hs).symm

theorem genAltRow_exact (n a r b s : ℕ) (hn : 0 < n) (ha : 0 < a) (hb : 0 < b) (hr : 0 < r) (hs : 0 < s)
    (hne : a ^ s ≠ b ^ r) (v : ℕ → Option ℝ) :
    ∀ i < n, genAltRow exactElem n a r b s v i =
      some ((-|(a : ℝ) ^ ((1 : ℝ) / r) - (b : ℝ) ^ ((1 : ℝ) / s)|) ^ i) := by
  intro i hi
  unfold genAltRow
  rw [genRoot_exact b s (by exact_mod_cast hb) (by exact_mod_cast hs),
    genRoot_exact a r (by exact_mod_cast ha) (by exact_mod_cast hr)]
  have hd : (a : ℝ) ^ ((1 : ℝ) / r) - (b : ℝ) ^ ((1 : ℝ) / s) ≠ 0 :=
    sub_ne_zero.2 (rad_ne a r b s ha hb hr hs hne)
  push_cast
  set D := (a : ℝ) ^ ((1 : ℝ) / r) - (b : ℝ) ^ ((1 : ℝ) / s) with hD
  have hDp : 0 < |D| := abs_pos.2 hd
  have hsub : exactElem.sub (some ((a : ℝ) ^ ((1 : ℝ) / r))) (some ((b : ℝ) ^ ((1 : ℝ) / s))) = some D := rfl
  rw [hsub]
  have habs : (if exactElem.ltZero (some D) = true then exactElem.abs (some D) else some D) = some |D| := by
    by_cases h0 : D < 0
    · rw [if_pos (by simpa [exactElem] using h0)]; rfl
    · rw [if_neg (by simpa [exactElem] using h0), abs_of_nonneg (not_lt.1 h0)]
  rw [habs]
  have hl : exactElem.log (some |D|) = some (Real.log |D|) := by
    simp only [exactElem, Option.bind_some, if_pos hDp]
  rw [hl, genPowers_loop true _ n hn v i hi, mul_comm, ← Real.rpow_def_of_pos hDp, Real.rpow_natCast]
  congr 1
  simp only [Bool.true_and, decide_eq_true_eq]
  rcases Nat.even_or_odd i with he | ho
  · rw [if_neg (by have := Nat.even_iff.1 he; omega), he.neg_pow]
  · rw [if_pos (by have := Nat.odd_iff.1 ho; omega), ho.neg_pow]

/-- **C81, two vectors.** For all positive `r, s, t, u` the rows of `gen3r2s7t5u` are the powers of
`-|3^(1/r) - 2^(1/s)|` and of `-|7^(1/t) - 5^(1/u)|`; the first has a relation for `n > r s`, the second for
`n > t u`, and the two have a common one for `n > r s + t u`. -/
theorem C81_simultaneous (n r s t u : ℕ) (hn : 0 < n) (hr : 0 < r) (hs : 0 < s) (ht : 0 < t) (hu : 0 < u)
    (v : ℕ → ℕ → Option ℝ) :
    ∃ (w : (ℕ → Option ℝ) × (ℕ → Option ℝ)) (f g : ℕ → ℝ), gen3r2s7t5u exactElem n r s t u v = some w ∧
      (∀ i < n, w.1 i = some (f i)) ∧ (∀ i < n, w.2 i = some (g i)) ∧
      (∀ i, f i = (-|(3 : ℝ) ^ ((1 : ℝ) / r) - (2 : ℝ) ^ ((1 : ℝ) / s)|) ^ i) ∧
      (∀ i, g i = (-|(7 : ℝ) ^ ((1 : ℝ) / t) - (5 : ℝ) ^ ((1 : ℝ) / u)|) ^ i) ∧
      (r * s < n → HasRelation n f) ∧ (t * u < n → HasRelation n g) ∧
      (r * s + t * u < n → HasRelation2 n f g) := by
  have h1 := genAltRow_exact n 3 r 2 s hn (by omega) (by omega) hr hs
    (pow_ne_of_coprime 3 r 2 s (by decide) (by decide) hs) (v 0)
  have h2 := genAltRow_exact n 7 t 5 u hn (by omega) (by omega) ht hu
    (pow_ne_of_coprime 7 t 5 u (by decide) (by decide) hu) (v 1)
  have hx := rad_pow 3 r hr
  have hy := rad_pow 2 s hs
  have hz := rad_pow 7 t ht
  have hw := rad_pow 5 u hu
  push_cast at h1 h2 hx hy hz hw
  have key : ∀ p q : ℝ, -|p - q| = p - q ∨ -|p - q| = q - p := by
    intro p q
    rcases le_total p q with h | h
    · rw [abs_of_nonpos (by linarith)]; left; ring
    · rw [abs_of_nonneg (by linarith)]; right; ring
  refine ⟨_, _, _, by unfold gen3r2s7t5u; rw [if_neg hn.ne'], h1, h2, fun _ => rfl, fun _ => rfl, ?_, ?_, ?_⟩
  · exact hasRelation_pow (A := 3) (B := 2) (by exact_mod_cast hx) (by exact_mod_cast hy) hr hs _ (key _ _) n
  · exact hasRelation_pow (A := 7) (B := 5) (by exact_mod_cast hz) (by exact_mod_cast hw) ht hu _ (key _ _) n
  · exact hasRelation2_pow (A := 3) (B := 2) (C := 7) (D := 5) (by exact_mod_cast hx) (by exact_mod_cast hy)
      (by exact_mod_cast hz) (by exact_mod_cast hw) hr hs ht hu _ _ (key _ _) (key _ _) n

/-- The parameters of the test suite (`r = s = 4`, `n = 17`) meet the hypotheses; `r = 2`, `s = 1` is in the
defective case; `n = 0` is an access out of range. -/
example : 2 ^ 4 < 3 ^ 4 ∧ 4 * 4 < 17 ∧ 3 ^ 1 < 2 ^ 2 ∧ (gen3r2s exactElem 0 4 4 fun _ => none).isNone = true := by
  refine ⟨by norm_num, by norm_num, by norm_num, rfl⟩

end HPLLL.Props
