import Verif.Proof.Int128
/-!
# Properties of the operations of `Z_NR<__int128_t>`
-/

namespace HPLLL.Props
open HPLLL Spec

/-- **C88 (no overflow).** Any sequence of calls of the operations of `Z_NR<__int128_t>` (also with the
target among the operands), in which every value to be written fits its type (128 bits; 64 bits for the
assignment of an `mpz_t` and for `randb`), leaves in every object the value of the same computation on
unbounded integers. -/
theorem C88_no_overflow (p : List Ins128) (r : Nat → Int) (h : NoOverflow p r) :
    run128 p r = runZ p r := exact_run p r h

/-- Hypotheses of `C88_no_overflow` on a sequence with a product of 120 bits, a shift, an absolute value. -/
example : NoOverflow [.setMpz 0 (2 ^ 60), .mul 1 0 0, .neg 1 1, .submul 1 0 0, .abs 2 1,
    .mul2si 2 2 (-100)] (fun _ => 0) ∧
    runZ [.setMpz 0 (2 ^ 60), .mul 1 0 0, .neg 1 1, .submul 1 0 0, .abs 2 1,
      .mul2si 2 2 (-100)] (fun _ => 0) 2 = 2 ^ 21 := by
  simp [NoOverflow, InRange, meant, runZ, Ins128.dest, Narrow]

/-- **C88 (intermediate overflows).** For sequences of assignments, sums, differences, opposites, products,
left shifts: an object ends with the value of the computation on unbounded integers if and only if that
value fits in 128 bits, even if intermediate results overflow, and otherwise with its residue modulo 2^128
in `[-2^127, 2^127)` (two's complement arithmetic). -/
theorem C88_wrapping (p : List Ins128) (r : Nat → Int) (hr : ∀ k, InRange 127 (r k))
    (hp : ∀ i ∈ p, Ring i) (k : Nat) :
    (run128 p r k = runZ p r k ↔ InRange 127 (runZ p r k)) ∧ InRange 127 (run128 p r k) ∧
      (2 ^ 128 : Int) ∣ runZ p r k - run128 p r k := by
  obtain ⟨a, b⟩ := ring_run p r r hp (fun _ => Int.ModEq.refl _) hr k
  refine ⟨⟨fun h => h ▸ b, fun h => ?_⟩, b, Int.modEq_iff_dvd.1 a⟩
  rw [← b.wrap, ← h.wrap]
  exact wrap128_congr a

/-- A sequence with an intermediate overflow which ends with the right value. -/
example : (∀ i ∈ [Ins128.setSi 0 (2 ^ 62), .mul 1 0 0, .mul2si 1 1 10, .mul2si 2 0 72, .addmulSi 1 2 (-1)],
      Ring i) ∧
    runZ [.setSi 0 (2 ^ 62), .mul 1 0 0, .mul2si 1 1 10, .mul2si 2 0 72, .addmulSi 1 2 (-1)]
      (fun _ => 0) 1 = 0 ∧ run128 [.setSi 0 (2 ^ 62), .mul 1 0 0, .mul2si 1 1 10] (fun _ => 0) 1 ≠
      runZ [.setSi 0 (2 ^ 62), .mul 1 0 0, .mul2si 1 1 10] (fun _ => 0) 1 := by
  refine ⟨by simp [Spec.Ring, InRange], by simp [runZ, meant, Ins128.dest], by decide⟩

/-- **C88 (64 bit conversions).** The assignment of an `mpz_t` keeps the value if and only if it fits in
64 bits (and not 128); the value stored always fits in 64 bits. -/
theorem C88_assign (a : Int) (d : Nat) (r : Nat → Int) :
    (run128 [.setMpz d a] r d = a ↔ InRange 63 a) ∧ InRange 63 (run128 [.setMpz d a] r d) := by
  have e : run128 [.setMpz d a] r d = getSi a := by simp [run128, Ins128.run, Ins128.dest, Ins128.val, setAt]
  rw [e]
  exact ⟨getSi_eq_iff a, getSi_range a⟩

/-- **C88 (what does not hold).** An `mpz_t` of 65 bits, which fits in 128 bits, is assigned as zero,
although `matrix_cast` keeps it. -/
theorem C88_assign_loses : run128 [.setMpz 0 (2 ^ 64)] (fun _ => 7) 0 = 0 ∧ InRange 127 (2 ^ 64) ∧
    mpzSet128int (2 ^ 64) = 2 ^ 64 := by
  refine ⟨by decide, by unfold InRange; norm_num, by decide⟩

/-- **C88 (random numbers).** `randb(bits)` stores the number drawn, `0 ≤ u < 2^bits`, reduced modulo
2^63: for `bits ≤ 63` it is `u`; whatever `bits`, the number stored is less than 2^63. -/
theorem C88_randb (bits : Nat) (u : Int) (h0 : 0 ≤ u) (hu : u < 2 ^ bits) (d : Nat) (r : Nat → Int) :
    run128 [.randb d u] r d = u % 2 ^ 63 ∧ (bits ≤ 63 → run128 [.randb d u] r d = u) ∧
      0 ≤ run128 [.randb d u] r d ∧ run128 [.randb d u] r d < 2 ^ 63 := by
  have e : run128 [.randb d u] r d = u % 2 ^ 63 := by
    simp only [run128, Ins128.run, Ins128.dest, Ins128.val, setAt, getSi, List.foldl_cons, List.foldl_nil,
      if_true, if_pos h0]
    omega
  rw [e]
  refine ⟨rfl, fun hb => Int.emod_eq_of_lt h0 (lt_of_lt_of_le hu ?_), Int.emod_nonneg _ (by norm_num),
    Int.emod_lt_of_pos _ (by norm_num)⟩
  exact_mod_cast Nat.pow_le_pow_right (by norm_num) hb

/-- The hypotheses of `C88_randb`, for 100 bits. -/
example : (0 : Int) ≤ 2 ^ 99 + 5 ∧ (2 ^ 99 + 5 : Int) < 2 ^ 100 ∧
    run128 [.randb 0 (2 ^ 99 + 5)] (fun _ => 0) 0 = 5 := by
  refine ⟨by norm_num, by norm_num, by decide⟩

/-- **C88 (comparisons, absolute value).** `cmp` gives the order and `==` equality; `abs` is the absolute
value if and only if the operand is not `-2^127`. -/
theorem C88_compare (a b : Int) : (cmp128 a b = 1 ↔ b < a) ∧ (cmp128 a b = 0 ↔ a = b) ∧
    (cmp128 a b = -1 ↔ a < b) ∧ (eq128 a b = true ↔ a = b) ∧
    (InRange 127 a → (abs128 a = |a| ↔ a ≠ -2 ^ 127)) := by
  refine ⟨?_, ?_, ?_, by simp [eq128], fun h => ?_⟩
  · unfold cmp128; split
    · simp; omega
    · split <;> simp <;> omega
  · unfold cmp128; split
    · simp; omega
    · split <;> simp <;> omega
  · unfold cmp128; split
    · simp; omega
    · split <;> simp <;> omega
  · unfold abs128
    constructor
    · rintro e rfl
      rw [if_neg (by norm_num)] at e
      have := (wrap128_range (-(-2 ^ 127))).2
      rw [e, abs_of_neg (by norm_num)] at this
      norm_num at this
    · intro hn
      obtain ⟨h1, h2⟩ := h
      split
      · rename_i h3; exact (abs_of_nonneg h3).symm
      · rename_i h3
        rw [abs_of_neg (by omega)]
        exact wrap128_of_range (by omega) (by omega)

end HPLLL.Props
