import Verif.Proof.Gen
import Verif.Props.Wrap
/-!
# Properties of the bases built by `command_line_basis` (C55)

The reduction theorems about reducedness need independent columns and `d ≤ n`.  For each generator: when
is that so, whatever the random numbers are?
-/

namespace HPLLL.Props
open HPLLL Spec Matrix

variable (rnd : Nat → Nat → Nat → Int) (ext : Nat → Nat → Mat Int) (dg : Nat → Int)
  (off : Nat → Nat → Int) (atd atn : Nat) (AT : Mat Int) (hj nj : Nat)

/-- A basis `hlll` is meant for. -/
def GoodBasis (g : GenOut) : Prop :=
  g.ub = false ∧ g.d ≤ g.n ∧ FullColumnRank (toMatrix g.n g.d g.A)

/-- **C55, knapsack (the default).** With fplll's contract for `gen_intrel` (row `i` of the `d × (d+1)`
matrix is a number followed by the `i`-th unit vector) the basis is always good. -/
theorem C55_knapsack (a : GenArgs) (ht : a.type = .knapsack)
    (hx : ∀ i < a.d, ∀ j < a.d, ext a.d (a.d + 1) (j + 1) i = if i = j then 1 else 0) :
    GoodBasis (commandLineBasis rnd ext dg off atd atn AT hj nj a) := by
  unfold commandLineBasis
  rw [ht]
  refine ⟨rfl, Nat.le_succ _, ?_⟩
  show LinearIndependent ℤ _
  rw [Fintype.linearIndependent_iff]
  intro g hg i
  have h1 := congrFun hg ⟨i + 1, by simp⟩
  simp only [Finset.sum_apply, Pi.smul_apply, smul_eq_mul, Pi.zero_apply] at h1
  rw [Finset.sum_eq_single i] at h1
  · simp only [toMatrix, Matrix.of_apply, transposeTo_apply] at h1
    rw [if_pos ⟨i.2, by simp⟩, hx i i.2 i i.2, if_pos rfl, mul_one] at h1
    exact h1
  · intro j _ hji
    simp only [toMatrix, Matrix.of_apply, transposeTo_apply]
    rw [if_pos ⟨j.2, by simp⟩, hx j j.2 i i.2, if_neg (fun h => hji (Fin.ext h)), mul_zero]
  · intro h; exact absurd (Finset.mem_univ _) h

/-- **C55, triangular bases from fplll (`gen_trg`) or `-type cin`-like input.** When the generated rows
are lower triangular with a non-zero diagonal, the basis is good. -/
theorem C55_ajtai (a : GenArgs) (ht : a.type = .ajtai)
    (hlow : ∀ i < a.d, ∀ j, i < j → ext a.d a.d j i = 0) (hdi : ∀ i < a.d, ext a.d a.d i i ≠ 0) :
    GoodBasis (commandLineBasis rnd ext dg off atd atn AT hj nj a) := by
  unfold commandLineBasis
  rw [ht]
  refine ⟨rfl, le_refl _, ?_⟩
  show FullColumnRank (toMatrix a.d a.d (transposeTo a.d a.d (ext a.d a.d) fun _ _ => 0))
  rw [fcr_iff_det, upper_det, Finset.prod_ne_zero_iff]
  · intro i _
    rw [transposeTo_apply, if_pos ⟨i.2, i.2⟩]
    exact hdi i i.2
  · intro c r h1 h2
    rw [transposeTo_apply, if_pos ⟨by omega, h2⟩]
    exact hlow c (by omega) r h1

/-- **C55, block knapsack.** The basis is good exactly when `m ≤ d` and the `m × m` matrix of the first
random numbers is invertible over the rationals; for `m > d ≥ 1` an index is out of range. -/
theorem C55_block (a : GenArgs) (ht : a.type = .block) (hd : 0 < a.d) :
    GoodBasis (commandLineBasis rnd ext dg off atd atn AT hj nj a) ↔
      a.m ≤ a.d ∧ (Matrix.of fun i j : Fin a.m => rnd 0 i j).det ≠ 0 := by
  unfold commandLineBasis
  rw [ht]
  constructor
  · rintro ⟨h1, h2, h3⟩
    have h1 : (!decide (a.m ≤ a.d ∨ a.d = 0)) = false := h1
    have hm : a.m ≤ a.d := by
      simp at h1; omega
    refine ⟨hm, ?_⟩
    rw [← genBlock_det rnd hm]
    exact (fcr_iff_det _).1 h3
  · rintro ⟨hm, h⟩
    refine ⟨?_, le_refl _, ?_⟩
    · show (!decide (a.m ≤ a.d ∨ a.d = 0)) = false
      simp [hm]
    · show FullColumnRank (toMatrix a.d a.d (genBlock rnd a.d a.m).A)
      rw [fcr_iff_det, genBlock_det rnd hm]; exact h

/-- The default of `-m` is 1: good exactly when the first number drawn is not 0 (it is 0 with
probability `2^-bits`). -/
theorem C55_block_default (a : GenArgs) (ht : a.type = .block) (hd : 0 < a.d) (hm : a.m = 1) :
    GoodBasis (commandLineBasis rnd ext dg off atd atn AT hj nj a) ↔ rnd 0 0 0 ≠ 0 := by
  rw [C55_block rnd ext dg off atd atn AT hj nj a ht hd]
  obtain ⟨ty, d, m, h, s⟩ := a
  simp only at hm hd
  subst hm
  simp only [Matrix.det_unique, Matrix.of_apply]
  constructor
  · rintro ⟨-, h⟩; simpa using h
  · intro h; exact ⟨hd, by simpa using h⟩

/-- **C55, uniform.** With `m < d` — the default values are `m = 1`, `d = 8` — the columns are dependent
whatever the random numbers, and `d ≤ n` fails: the basis is never good. -/
theorem C55_unif_never (a : GenArgs) (ht : a.type = .unif) (hm : a.m < a.d) :
    ¬ GoodBasis (commandLineBasis rnd ext dg off atd atn AT hj nj a) ∧
    ¬ FullColumnRank (toMatrix
      (commandLineBasis rnd ext dg off atd atn AT hj nj a).n
      (commandLineBasis rnd ext dg off atd atn AT hj nj a).d
      (commandLineBasis rnd ext dg off atd atn AT hj nj a).A) := by
  unfold commandLineBasis
  rw [ht]
  exact ⟨fun h => absurd h.2.1 (by simp only [genUnif]; omega), not_fcr_of_lt (by simp only [genUnif]; omega) _⟩

/-- For `m ≥ d` the basis is the matrix of the random numbers. -/
theorem C55_unif (a : GenArgs) (ht : a.type = .unif) (hm : a.d ≤ a.m) :
    GoodBasis (commandLineBasis rnd ext dg off atd atn AT hj nj a) ↔
      FullColumnRank (Matrix.of fun (i : Fin a.m) (j : Fin a.d) => rnd 0 i j) := by
  unfold commandLineBasis
  rw [ht]
  have e : toMatrix a.m a.d (genUnif rnd a.d a.m).A =
      Matrix.of fun (i : Fin a.m) (j : Fin a.d) => rnd 0 i j := by
    ext i j
    simp only [toMatrix, Matrix.of_apply, genUnif]
    rw [fillRect (rnd 0), if_pos ⟨i.2, j.2⟩]
  constructor
  · rintro ⟨-, -, h⟩
    rw [← e]; exact h
  · intro h
    refine ⟨rfl, hm, ?_⟩
    show FullColumnRank (toMatrix a.m a.d (genUnif rnd a.d a.m).A)
    rw [e]; exact h

/-- **C55, shifted.** With `-m 0` the first row is never written: the basis is never good. -/
theorem C55_dec_zero (a : GenArgs) (ht : a.type = .dec) (hd : 0 < a.d) (hm : a.m = 0) :
    ¬ GoodBasis (commandLineBasis rnd ext dg off atd atn AT hj nj a) := by
  unfold commandLineBasis
  rw [ht, hm]
  rintro ⟨-, -, h⟩
  have h : FullColumnRank (toMatrix a.d a.d (genDec rnd a.d 0).A) := h
  rw [fcr_iff_det] at h
  exact h (Matrix.det_eq_zero_of_row_eq_zero ⟨0, hd⟩ fun j => genDec_row0 rnd a.d j)

/-- With `1 ≤ m ≤ d`: the first `m` rows are the numbers of the second loop, the others those of the
first one. -/
theorem C55_dec (a : GenArgs) (ht : a.type = .dec) (h1 : 1 ≤ a.m) (hm : a.m ≤ a.d) :
    GoodBasis (commandLineBasis rnd ext dg off atd atn AT hj nj a) ↔
      (Matrix.of fun i j : Fin a.d => if (i : ℕ) < a.m then rnd 1 i j else rnd 0 i j).det ≠ 0 := by
  unfold commandLineBasis
  rw [ht]
  have e : toMatrix a.d a.d (genDec rnd a.d a.m).A =
      Matrix.of fun i j : Fin a.d => if (i : ℕ) < a.m then rnd 1 i j else rnd 0 i j := by
    ext i j
    simp only [toMatrix, Matrix.of_apply]
    rw [genDec_apply]
    by_cases h : (i : ℕ) < a.m
    · rw [if_pos ⟨h, j.2⟩, if_pos h]
    · rw [if_neg (by omega), if_neg h, if_pos ⟨by omega, i.2, j.2⟩]
  rw [← e]
  constructor
  · rintro ⟨-, -, h⟩; exact (fcr_iff_det _).1 h
  · intro h
    refine ⟨?_, le_refl _, (fcr_iff_det _).2 h⟩
    show (!decide (a.m ≤ a.d ∨ a.d = 0)) = false
    simp [hm]

/-- **C55, Coppersmith.** Let `N`, `X` be the two numbers drawn.  With `-h h`, `-N`, `-X` given
(`h ≥ 1`): the determinant is `∏ N^(h-1-i/3) X^i`, and the basis is good exactly when `X ≠ 0` and
(`N ≠ 0` or `h = 1`); without one of these arguments an uninitialised variable is used. -/
theorem C55_copp (a : GenArgs) (ht : a.type = .copp) (h : ℕ) (hh : a.h = some h) (hs : a.sNX.isSome)
    (h1 : 1 ≤ h) :
    (toMatrix (3 * h) (3 * h) (commandLineBasis rnd ext dg off atd atn AT hj nj a).A).det =
        ∏ i : Fin (3 * h), rnd 0 0 0 ^ (h - 1 - (i : ℕ) / 3) * rnd 0 0 1 ^ (i : ℕ) ∧
    (GoodBasis (commandLineBasis rnd ext dg off atd atn AT hj nj a) ↔
      rnd 0 0 1 ≠ 0 ∧ (rnd 0 0 0 ≠ 0 ∨ h = 1)) := by
  unfold commandLineBasis
  rw [ht]
  simp only [hh, Option.getD_some, Option.isSome_some, hs, Bool.and_self, Bool.not_true]
  have hdet : (toMatrix (3 * h) (3 * h) (genCopp rnd h false).A).det =
      ∏ i : Fin (3 * h), rnd 0 0 0 ^ (h - 1 - (i : ℕ) / 3) * rnd 0 0 1 ^ (i : ℕ) := by
    rw [upper_det]
    · refine Finset.prod_congr rfl fun i _ => ?_
      rw [genCopp_apply _ _ _ _ _ i.2 i.2, if_neg (lt_irrefl _), if_pos rfl]
    · intro c r h1 h2
      rw [genCopp_apply _ _ _ _ _ (by omega) h2, if_neg (by omega), if_neg (by omega)]
  refine ⟨hdet, ?_⟩
  have hg : GoodBasis (genCopp rnd h false) ↔
      (toMatrix (3 * h) (3 * h) (genCopp rnd h false).A).det ≠ 0 := by
    rw [← fcr_iff_det]
    exact ⟨fun h => h.2.2, fun h => ⟨rfl, le_refl _, h⟩⟩
  rw [hg, hdet, Finset.prod_ne_zero_iff]
  constructor
  · intro hp
    constructor
    · intro h0
      have := hp ⟨1, by omega⟩ (Finset.mem_univ _)
      simp [h0] at this
    · by_contra hc
      rw [not_or, not_not] at hc
      have := hp ⟨0, by omega⟩ (Finset.mem_univ _)
      rw [hc.1] at this
      apply this
      rw [zero_pow (by simp only [Nat.zero_div]; omega), zero_mul]
  · rintro ⟨hX, hN⟩ i _
    refine mul_ne_zero ?_ (pow_ne_zero _ hX)
    rcases hN with hN | rfl
    · exact pow_ne_zero _ hN
    · simp

/-- The default value of `-h`, `-N` or `-X` is missing. -/
theorem C55_copp_uninitialised (a : GenArgs) (ht : a.type = .copp) (hh : a.h = none ∨ a.sNX = none) :
    (commandLineBasis rnd ext dg off atd atn AT hj nj a).ub = true := by
  unfold commandLineBasis
  rw [ht]
  show (!(a.h.isSome && a.sNX.isSome)) = true
  rcases hh with h | h <;> simp [h]

/-- **C55, unknown type.** The only effect is a message on the standard output: `n` is not
initialised. -/
theorem C55_other (a : GenArgs) (ht : a.type = .other) :
    (commandLineBasis rnd ext dg off atd atn AT hj nj a).ub = true ∧
    (commandLineBasis rnd ext dg off atd atn AT hj nj a).n = nj := by
  unfold commandLineBasis
  rw [ht]; exact ⟨rfl, rfl⟩

/-- **C55, alpha.** `dg i` and `off i j` are the integer conversions.  The basis is upper triangular
with diagonal `dg`, good exactly when all the conversions of the diagonal are non-zero.  If moreover
each off-diagonal entry is a nearest integer of `(z - 2^19) / 2^20 * dg i`, `0 ≤ z < 2^20`, then the
Gram–Schmidt coefficients are at most `1/2 + 1/(2 |dg i|)` in absolute value, and the basis is
size-reduced if the diagonal entries are even. -/
theorem C55_alpha (a : GenArgs) (ht : a.type = .al) :
    (GoodBasis (commandLineBasis rnd ext dg off atd atn AT hj nj a) ↔ ∀ i < a.d, dg i ≠ 0) ∧
    ∀ (z : ℕ → ℕ → ℤ), (∀ i < a.d, dg i ≠ 0) → (∀ i j, 0 ≤ z i j ∧ z i j < 2 ^ 20) →
      (∀ i j, i < j → j < a.d → 2 * |2 ^ 20 * off i j - (z i j - 2 ^ 19) * dg i| ≤ 2 ^ 20) →
      (∀ i j : Fin a.d, j < i →
        |mu (toMatrix a.d a.d (commandLineBasis rnd ext dg off atd atn AT hj nj a).A) i j| ≤
          1 / 2 + 1 / (2 * |(dg j : ℝ)|)) ∧
      ((∀ i < a.d, 2 ∣ dg i) →
        SizeReduced (toMatrix a.d a.d (commandLineBasis rnd ext dg off atd atn AT hj nj a).A)) := by
  unfold commandLineBasis
  rw [ht]
  show (GoodBasis { A := genAlpha dg off a.d fun _ _ => 0, n := a.d, d := a.d, ub := false } ↔ _) ∧ _
  have hup : ∀ c r, c < r → r < a.d → genAlpha dg off a.d (fun _ _ => 0) c r = 0 := by
    intro c r h1 h2
    rw [genAlpha_apply _ _ _ _ _ _ (by omega) h2, if_pos h1]
  have hdi : ∀ i < a.d, genAlpha dg off a.d (fun _ _ => 0) i i = dg i := by
    intro i hi
    rw [genAlpha_apply _ _ _ _ _ _ hi hi, if_neg (lt_irrefl _), if_pos rfl]
  constructor
  · constructor
    · rintro ⟨-, -, h⟩ i hi
      have h : FullColumnRank (toMatrix a.d a.d (genAlpha dg off a.d fun _ _ => 0)) := h
      rw [fcr_iff_det, upper_det _ hup, Finset.prod_ne_zero_iff] at h
      have := h ⟨i, hi⟩ (Finset.mem_univ _)
      rwa [hdi i hi] at this
    · intro h
      refine ⟨rfl, le_refl _, ?_⟩
      show FullColumnRank (toMatrix a.d a.d (genAlpha dg off a.d fun _ _ => 0))
      rw [fcr_iff_det, upper_det _ hup, Finset.prod_ne_zero_iff]
      intro i _
      rw [hdi i i.2]; exact h i i.2
  · intro z hd hz hoff
    have hd' : ∀ i < a.d, genAlpha dg off a.d (fun _ _ => 0) i i ≠ 0 := by
      intro i hi; rw [hdi i hi]; exact hd i hi
    have hmu : ∀ i j : Fin a.d, j < i →
        mu (toMatrix a.d a.d (genAlpha dg off a.d fun _ _ => 0)) i j = (off j i : ℝ) / (dg j : ℝ) := by
      intro i j hji
      rw [mu_upper _ hup hd', hdi j j.2, genAlpha_apply _ _ _ _ _ _ i.2 j.2,
        if_neg (by rw [Fin.lt_def] at hji; omega), if_neg (by rw [Fin.lt_def] at hji; omega)]
    have hb : ∀ i j : ℕ, j < i → i < a.d → 2 * |off j i| ≤ |dg j| + 1 := by
      intro i j hji hi
      have h1 := hoff j i hji hi
      obtain ⟨z1, z2⟩ := hz j i
      have h2 : |(z j i - 2 ^ 19) * dg j| ≤ 2 ^ 19 * |dg j| := by
        rw [abs_mul]
        refine mul_le_mul_of_nonneg_right ?_ (abs_nonneg _)
        rw [abs_le]; constructor <;> omega
      have h3 : |2 ^ 20 * off j i| ≤ |2 ^ 20 * off j i - (z j i - 2 ^ 19) * dg j| +
          |(z j i - 2 ^ 19) * dg j| := by
        have := abs_add_le (2 ^ 20 * off j i - (z j i - 2 ^ 19) * dg j) ((z j i - 2 ^ 19) * dg j)
        simpa using this
      rw [abs_mul, abs_of_pos (by norm_num : (0 : ℤ) < 2 ^ 20)] at h3
      generalize |2 ^ 20 * off j i - (z j i - 2 ^ 19) * dg j| = e1 at *
      generalize |(z j i - 2 ^ 19) * dg j| = e2 at *
      omega
    have hpos : ∀ j : Fin a.d, (0 : ℝ) < |(dg j : ℝ)| := by
      intro j
      have : ((dg j : ℤ) : ℝ) ≠ 0 := by exact_mod_cast hd j j.2
      exact abs_pos.2 this
    constructor
    · intro i j hji
      rw [hmu i j hji, abs_div]
      have h1 := hb i j hji i.2
      have h2 : 2 * |(off j i : ℝ)| ≤ |(dg j : ℝ)| + 1 := by exact_mod_cast h1
      have hp := hpos j
      rw [div_le_iff₀ hp]
      have : (1 / 2 + 1 / (2 * |(dg j : ℝ)|)) * |(dg j : ℝ)| = (|(dg j : ℝ)| + 1) / 2 := by
        field_simp
      rw [this]; linarith
    · intro hev i j hji
      rw [hmu i j hji, abs_div]
      have h1 := hb i j hji i.2
      have h3 : 2 * |off j i| ≤ |dg j| := by
        obtain ⟨q, hq⟩ := hev j j.2
        rw [hq, abs_mul] at h1 ⊢
        simp only [Nat.abs_ofNat] at h1 ⊢
        omega
      have h2 : 2 * |(off j i : ℝ)| ≤ |(dg j : ℝ)| := by exact_mod_cast h3
      rw [div_le_iff₀ (hpos j)]
      linarith

/-- The bound cannot be `1/2`: a diagonal entry 3, the number drawn 0, -3/2 rounded to -2. -/
theorem C55_alpha_not_size_reduced :
    ¬ SizeReduced (toMatrix 2 2 (commandLineBasis (fun _ _ _ => 0) (fun _ _ _ _ => 0) (fun _ => 3)
      (fun _ _ => -2) 0 0 (fun _ _ => 0) 0 0 { type := .al, d := 2 }).A) ∧
    2 * |2 ^ 20 * (-2) - ((0 : ℤ) - 2 ^ 19) * 3| ≤ 2 ^ 20 := by
  refine ⟨fun h => ?_, by norm_num⟩
  have := h 1 0 (by decide)
  rw [mu_upper] at this
  · have e1 : (commandLineBasis (fun _ _ _ => 0) (fun _ _ _ _ => 0) (fun _ => 3)
      (fun _ _ => -2) 0 0 (fun _ _ => 0) 0 0 { type := .al, d := 2 }).A ((1 : Fin 2) : ℕ) ((0 : Fin 2) : ℕ) = -2 := by
      decide +kernel
    have e2 : (commandLineBasis (fun _ _ _ => 0) (fun _ _ _ _ => 0) (fun _ => 3)
      (fun _ _ => -2) 0 0 (fun _ _ => 0) 0 0 { type := .al, d := 2 }).A ((0 : Fin 2) : ℕ) ((0 : Fin 2) : ℕ) = 3 := by
      decide +kernel
    rw [e1, e2] at this
    norm_num [abs_div] at this
  · intro c r h1 h2
    show genAlpha (fun _ => 3) (fun _ _ => -2) 2 (fun _ _ => 0) c r = 0
    rw [genAlpha_apply _ _ _ _ _ _ (by omega) h2, if_pos h1]
  · intro i hi
    show genAlpha (fun _ => 3) (fun _ _ => -2) 2 (fun _ _ => 0) i i ≠ 0
    rw [genAlpha_apply _ _ _ _ _ _ hi hi, if_neg (lt_irrefl _), if_pos rfl]
    decide

/-- **C55, the program.** For every good basis the program `hplll`, in exact arithmetic with ties not
rounded away, ends and prints a δ-LLL-reduced basis (as rows) of the generated lattice. -/
theorem C55_program {o : FPOps ℝ} (ho : ExactTies o) (junk : ℝ) (a : GenArgs) (δ : ℝ) (h0 : 0 < δ)
    (hδ : δ ≤ 1)
    (hg : GoodBasis (commandLineBasis rnd ext dg off atd atn AT hj nj a))
    (hp : 2 * potential (commandLineBasis rnd ext dg off atd atn AT hj nj a).n
      (commandLineBasis rnd ext dg off atd atn AT hj nj a).d
      (commandLineBasis rnd ext dg off atd atn AT hj nj a).A +
        (commandLineBasis rnd ext dg off atd atn AT hj nj a).d ≤ 4294967295) :
    ∃ fuel Z, hplllMain o junk fuel δ (commandLineBasis rnd ext dg off atd atn AT hj nj a).n
        (commandLineBasis rnd ext dg off atd atn AT hj nj a).d
        (commandLineBasis rnd ext dg off atd atn AT hj nj a).A = some Z ∧
      Z.rows = (commandLineBasis rnd ext dg off atd atn AT hj nj a).d ∧
      Z.cols = (commandLineBasis rnd ext dg off atd atn AT hj nj a).n ∧
      LLLReduced δ (toMatrix Z.rows Z.cols Z.M)ᵀ ∧
      lattice (toMatrix (commandLineBasis rnd ext dg off atd atn AT hj nj a).d
        (commandLineBasis rnd ext dg off atd atn AT hj nj a).n Z.M)ᵀ =
      lattice (toMatrix (commandLineBasis rnd ext dg off atd atn AT hj nj a).n
        (commandLineBasis rnd ext dg off atd atn AT hj nj a).d
        (commandLineBasis rnd ext dg off atd atn AT hj nj a).A) := by
  generalize commandLineBasis rnd ext dg off atd atn AT hj nj a = g at *
  obtain ⟨-, -, hA⟩ := hg
  obtain ⟨s', h1, h2, h3⟩ := C10_total_correctness ho junk g.n g.d g.A false 0 (by norm_num) true 0 1
    (by norm_num) 1000000 4294967295 hA δ h0 hδ true (by exact_mod_cast hp)
  have h1 := h1 (2 * potential g.n g.d g.A + g.d + 2).toNat (by omega)
  refine ⟨(2 * potential g.n g.d g.A + g.d + 2).toNat,
    ⟨g.d, g.n, transposeTo g.n g.d s'.B fun _ _ => 0⟩, ?_, rfl, rfl, ?_, ?_⟩
  · have h1' : hlll o (2 * potential g.n g.d g.A + g.d + 2).toNat δ true
        (newLattice o junk g.n g.d g.A false 0 true 0) = some (0, s') := h1
    unfold hplllMain reducePhase
    rw [h1']
    rfl
  · show LLLReduced δ (toMatrix g.d g.n (transposeTo g.n g.d s'.B fun _ _ => 0))ᵀ
    rw [C46_transpose_in, transpose_transpose]; exact h2
  · show lattice (toMatrix g.d g.n (transposeTo g.n g.d s'.B fun _ _ => 0))ᵀ = _
    rw [C46_transpose_in, transpose_transpose]; exact h3

/-! Concrete, non-trivial instances. -/

/-- A knapsack basis, `d = 2`. -/
example : GoodBasis (commandLineBasis (fun _ _ _ => 5)
    (fun _ _ c r => if c = 0 then 17 + r else if c = r + 1 then 1 else 0)
    (fun _ => 0) (fun _ _ => 0) 0 0 (fun _ _ => 0) 0 0 { d := 2 }) :=
  C55_knapsack _ _ _ _ _ _ _ _ _ _ rfl (by decide)

/-- A Coppersmith basis, `h = 2`, `N = 15`, `X = 4`; and the unlucky draw `X = 0`. -/
example : GoodBasis (commandLineBasis (fun l _ j => if l = 0 ∧ j = 0 then 15 else 4)
      (fun _ _ _ _ => 0) (fun _ => 0) (fun _ _ => 0) 0 0 (fun _ _ => 0) 0 0
      { type := .copp, h := some 2, sNX := some (4, 3) }) ∧
    ¬ GoodBasis (commandLineBasis (fun _ _ j => if j = 0 then 15 else 0)
      (fun _ _ _ _ => 0) (fun _ => 0) (fun _ _ => 0) 0 0 (fun _ _ => 0) 0 0
      { type := .copp, h := some 2, sNX := some (4, 3) }) := by
  constructor
  · exact (C55_copp _ _ _ _ _ _ _ _ _ _ rfl 2 rfl rfl (by norm_num)).2.2 (by decide)
  · intro h
    exact absurd ((C55_copp _ _ _ _ _ _ _ _ _ _ rfl 2 rfl rfl (by norm_num)).2.1 h) (by decide)

/-- A block knapsack with `m = 2`: good, then singular. -/
example : GoodBasis (commandLineBasis (fun _ i j => i + 2 * j + i * j + 1)
      (fun _ _ _ _ => 0) (fun _ => 0) (fun _ _ => 0) 0 0 (fun _ _ => 0) 0 0 { type := .block, d := 3, m := 2 }) ∧
    ¬ GoodBasis (commandLineBasis (fun _ _ j => j + 1)
      (fun _ _ _ _ => 0) (fun _ => 0) (fun _ _ => 0) 0 0 (fun _ _ => 0) 0 0 { type := .block, d := 3, m := 2 }) := by
  constructor
  · refine (C55_block _ _ _ _ _ _ _ _ _ _ rfl (by decide)).2 ⟨by decide, ?_⟩
    decide +kernel
  · intro h
    have := ((C55_block _ _ _ _ _ _ _ _ _ _ rfl (by decide)).1 h).2
    exact this (by decide +kernel)

end HPLLL.Props
