import Verif.Proof.MachSmall
import Verif.Props.Swell
import Verif.Props.History
/-!
# C62 (continued): integer types for which no operation of a run overflows
-/

namespace HPLLL.Props
open HPLLL Spec Finset

variable {o : FPOps ℝ}

/-- `D` bounds the coordinates of the lattice vectors by their norm. -/
def CoordBound (n d : ℕ) (A : Mat Int) (D : ℝ) : Prop :=
  0 ≤ D ∧ ∀ (y : Fin d → ℤ) (i : Fin d), (y i : ℝ) ^ 2 ≤ D ^ 2 * ∑ r, ((toMatrix n d A).mulVec y r : ℝ) ^ 2

/-- Bound on the multipliers computed in a size reduction. -/
noncomputable def multBound (d : ℕ) (g q : ℝ) : ℝ := (3 / 2) ^ d * (g * q ^ d + 1 / 2)

theorem gHlll_small (ho : Exact o) {K N : ℝ} {c : EntF ℝ} (hc : EntBnd c K N)
    (junk : ℝ) (n d : ℕ) (A : Mat Int) (forU : Bool)
    (method : ℤ) (hm : method < 1) (longFlag : Bool) (vd : ℤ) (S : ℕ) (hS : 0 < S) (thr : ℤ) (nb : ℕ)
    (hseq : S = 1 ∨ (d : ℤ) ≤ thr + 1)
    (hA : FullColumnRank (toMatrix n d A)) (β : ℤ)
    (hβ : ∀ j < d, ∑ i ∈ range n, A j i ^ 2 ≤ β) (δ : ℝ) (hδ : δ ≤ 1)
    (g q D : ℝ) (hg0 : 0 ≤ g) (hg : ((d : ℝ) + 3) / 4 * β ≤ g ^ 2) (hq1 : 1 ≤ q) (hq : 1 ≤ q ^ 2 * (δ - 1 / 4))
    (hD : forU = true → CoordBound n d A D) (hK : multBound d g q ≤ K) (hb : (1 + d * multBound d g q) * g ≤ N)
    (hu : forU = true → (1 + d * multBound d g q) * (D * g) ≤ N)
    (fuel : ℕ) (verbose : Bool) :
    gHlll o c fuel δ verbose (fresh o junk n d A forU method longFlag vd S thr nb) =
      hlll o fuel δ verbose (fresh o junk n d A forU method longFlag vd S thr nb) := by
  have hI := fresh_inv o junk n d A forU method longFlag vd S thr nb (forU = true) (fun h => ⟨h, hA, hseq⟩)
  have hE : ExInv n d A (forU = true) δ (hlllInit o
      (if verbose then { fresh o junk n d A forU method longFlag vd S thr nb with
        verboseDepth := vd - 1 } else fresh o junk n d A forU method longFlag vd S thr nb)) := by
    refine ExInv.init ?_ ?_ ?_
    · cases verbose
      · exact hI
      · exact hI.congr rfl rfl rfl rfl rfl rfl rfl rfl
    · cases verbose <;> exact hS
    · intro c _ r _ _
      cases verbose <;> exact ho.zero
  have hN := fresh_ninv ho junk n d A forU method longFlag vd S thr nb hA β hβ
  have hgg : ((d : ℝ) + 3) / 4 * β ≤ g * g := by rw [← sq]; exact hg
  have hU : ∀ t : Lat ℝ, LInv n d A (forU = true) t → NInv n d β t.B → t.transf = forU → t.transf = true →
      ∀ j < d, ∀ r < d, |(t.U j r : ℝ)| ≤ if forU = true then D * g else 0 := by
    intro t hI hN htr ht j hj r hr
    have hf : forU = true := htr ▸ ht
    rw [if_pos hf]
    obtain ⟨hD0, hD⟩ := hD hf
    obtain ⟨W, -, hB, hUW⟩ := hI.uni
    have h1 := hD (fun i => t.U j i) ⟨r, hr⟩
    have h2 : (toMatrix n d A).mulVec (fun i : Fin d => t.U j i) = fun i : Fin n => t.B j i := by
      funext i
      have e : toMatrix n d t.B i ⟨j, hj⟩ = (toMatrix n d A * W) i ⟨j, hj⟩ := by rw [hB]
      have e2 : ∀ k : Fin d, t.U j k = W k ⟨j, hj⟩ := fun k => by rw [← hUW hf]; rfl
      show _ = toMatrix n d t.B i ⟨j, hj⟩
      rw [e, Matrix.mul_apply]
      unfold Matrix.mulVec dotProduct
      exact sum_congr rfl fun k _ => by simp only [e2 k]
    rw [h2] at h1
    have h3 : ∑ i : Fin n, ((t.B j i : ℤ) : ℝ) ^ 2 ≤ g ^ 2 := by
      have := (hN.c j hj).trans hgg
      rw [dot_bv] at this
      rw [sq g]
      refine le_trans (le_of_eq ?_) this
      rw [Int.cast_sum, ← Fin.sum_univ_eq_sum_range (fun i => ((t.B j i ^ 2 : ℤ) : ℝ))]
      exact sum_congr rfl fun i _ => by push_cast; rfl
    refine abs_le_of_sq_le_sq ?_ (mul_nonneg hD0 hg0)
    rw [mul_pow]
    exact h1.trans (mul_le_mul_of_nonneg_left h3 (sq_nonneg _))
  have hs : Sizes d g (if forU = true then D * g else 0) (q ^ d) K N (forU = true) := by
    unfold multBound at hK hb hu
    refine ⟨hg0, ?_, by positivity, hK, by linarith, fun hf => ?_⟩
    · split
      · rename_i hf; exact mul_nonneg (hD hf).1 hg0
      · exact le_refl _
    · rw [if_pos hf]; have := hu hf; linarith
  have hl := mHlllLoop_small ho hc hδ hA hgg forU hU hq1 (by rw [← sq]; exact hq) hs fuel _ hE
    (by cases verbose <;> exact hm) (by cases verbose <;> rfl) (by cases verbose <;> exact hN)
    (by cases verbose <;> rfl) (by cases verbose <;> exact hseq)
  unfold gHlll hlll
  simp only []
  cases verbose
  · simp only [Bool.false_eq_true, if_false] at hl ⊢
    rw [hl]
    rfl
  · simp only [if_true] at hl ⊢
    rw [show (fresh o junk n d A forU method longFlag vd S thr nb).verboseDepth = vd from rfl, hl]
    rfl

theorem fresh_ub {F : Type} (o : FPOps F) (junk : F) (n d : ℕ) (hdn : d ≤ n) (A : Mat Int) (forU : Bool) (method : ℤ)
    (longFlag : Bool) (vd : ℤ) (S : ℕ) (thr : ℤ) (nb fuel : ℕ) (δ : F) (v : Bool) (st : ℤ) (s' : Lat F)
    (h : hlll o fuel δ v (fresh o junk n d A forU method longFlag vd S thr nb) = some (st, s')) : s'.ub = false :=
  C18_index_safety o junk n d hdn A forU method longFlag vd _ s'
    (.snoc _ _ _ _ _ (.snoc _ _ _ _ _ (.snoc _ _ _ [] _ (.nil _) (.setNumS S thr _)) (.setNblovMax nb _))
      (.hlll o δ v _ _ fuel st h))

theorem le_rank {n d : ℕ} {A : Mat Int} (hA : FullColumnRank (toMatrix n d A)) : d ≤ n := by
  have := hA.fintype_card_le_finrank
  simpa using this

/-- `|lx| ≤ |k|`, `2^expo ≤ |k|`. -/
theorem siExp_le (ho : Exact o) {k : ℤ} (hk : k ≠ 0) :
    |(o.getSiExp (k:ℝ)).1| ≤ |k| ∧ (2:ℤ) ^ (o.getSiExp (k:ℝ)).2 ≤ |k| ∧ (o.getSiExp (k:ℝ)).1 ≠ 0 := by
  have h := ho.getSiExp k
  have h0 : (o.getSiExp (k:ℝ)).1 ≠ 0 := by
    intro e; rw [e, zero_mul] at h; exact hk h.symm
  have h1 : 1 ≤ |(o.getSiExp (k:ℝ)).1| := Int.one_le_abs h0
  have h2 : (1:ℤ) ≤ 2 ^ (o.getSiExp (k:ℝ)).2 := one_le_pow₀ (by norm_num)
  have h3 : |k| = |(o.getSiExp (k:ℝ)).1| * 2 ^ (o.getSiExp (k:ℝ)).2 := by
    conv_lhs => rw [← h]
    rw [abs_mul, abs_of_nonneg (by positivity : (0:ℤ) ≤ 2 ^ (o.getSiExp (k:ℝ)).2)]
  refine ⟨?_, ?_, h0⟩ <;> rw [h3] <;> nlinarith

theorem mEntry_bnd (ho : Exact o) (c : Mch) (hw : 1 ≤ c.w) {K N : ℝ} (hK : K < 2 ^ 63) (hKw : K < 2 ^ (c.w - 1))
    (hN : N < 2 ^ (c.w - 1)) : EntBnd (mEntry o c) K N := by
  intro fl k a b hk0 hk hkb ha hab
  have I : ∀ z : ℤ, |(z:ℝ)| < 2 ^ (c.w - 1) → c.inR z = true := by
    intro z hz
    have : |z| < 2 ^ (c.w - 1) := by exact_mod_cast hz
    rw [abs_lt] at this
    unfold Mch.inR
    simp only [Bool.and_eq_true, decide_eq_true_eq]
    exact ⟨this.1.le, this.2⟩
  have W : ∀ z : ℤ, c.inR z = true → c.wrap z = z := fun z hz => Mch.wrap_of_inR hw hz
  have O : ∀ z : ℤ, c.inR z = true → c.ok z = true := fun z hz => by unfold Mch.ok; rw [hz, Bool.or_true]
  have ikb := I _ (lt_of_le_of_lt hkb hN)
  have iab := I _ (lt_of_le_of_lt hab hN)
  have ik := I _ (lt_of_le_of_lt hk hKw)
  obtain ⟨l1, l2, l3⟩ := siExp_le ho hk0
  have hk63 : |k| < 2 ^ 63 := by
    have := lt_of_le_of_lt hk hK
    exact_mod_cast this
  have hkw : |k| < 2 ^ (c.w - 1) := by
    have := lt_of_le_of_lt hk hKw
    exact_mod_cast this
  have hlx := ho.getSiExp k
  have hlong : decide (-(2 ^ 63) < (o.getSiExp (k:ℝ)).1 ∧ (o.getSiExp (k:ℝ)).1 < 2 ^ 63) = true := by
    have := lt_of_le_of_lt l1 hk63
    rw [abs_lt] at this
    simpa using this
  have hex : decide ((o.getSiExp (k:ℝ)).2 < c.w) = true := by
    have h1 : (2:ℤ) ^ (o.getSiExp (k:ℝ)).2 < 2 ^ (c.w - 1) := lt_of_le_of_lt l2 hkw
    have := (pow_lt_pow_iff_right₀ (by norm_num : (1:ℤ) < 2)).1 h1
    simp; omega
  -- the product with the mantissa only
  have ilb : c.inR (b * -(o.getSiExp (k:ℝ)).1) = true := by
    refine I _ (lt_of_le_of_lt ?_ (lt_of_le_of_lt hkb hN))
    have : |b * -(o.getSiExp (k:ℝ)).1| ≤ |k * b| := by
      rw [abs_mul, abs_neg, abs_mul, mul_comm]
      exact mul_le_mul_of_nonneg_right l1 (abs_nonneg _)
    exact_mod_cast this
  have inkb : c.inR (-(k * b)) = true := I _ (by push_cast at hkb ⊢; rw [abs_neg]; exact lt_of_le_of_lt hkb hN)
  unfold mEntry
  simp only []
  rw [ho.toZ]
  by_cases he : (o.getSiExp (k:ℝ)).2 = 0
  · rw [he, pow_zero, mul_one] at hlx
    rw [if_pos he, hlx]
    split
    · rename_i h1; rw [h1] at iab ⊢; rw [one_mul] at iab ⊢; rw [W _ iab, O _ iab]
    · split
      · rename_i h1
        rw [h1] at iab ⊢
        rw [show a - -1 * b = a + b by ring] at iab ⊢
        rw [W _ iab, O _ iab]
      · rw [hlx] at hlong ilb
        split
        · have e : a + b * -k = a - k * b := by ring
          rw [W _ ilb, e, W _ iab, O _ ilb, O _ iab, hlong]; rfl
        · rw [W _ ikb, W _ iab, O _ ikb, O _ iab, ik]; rfl
  · rw [if_neg he]
    split
    · have e1 : b * -(o.getSiExp (k:ℝ)).1 * 2 ^ (o.getSiExp (k:ℝ)).2 = -(k * b) := by
        conv_rhs => rw [← hlx]
        ring
      have e2 : a + -(k * b) = a - k * b := by ring
      rw [W _ ilb, e1, W _ inkb, e2, W _ iab, O _ ilb, O _ inkb, O _ iab, hlong, hex]; rfl
    · rw [W _ ikb, W _ iab, O _ ikb, O _ iab, ik]; rfl

/-- **C62, how many bits are enough.** (exact arithmetic, size reduction, sequential settings, independent columns,
`1/4 < δ ≤ 1`.)  Let all the input vectors have squared norm at most `β`, `g^2 ≥ (d+3)/4 β`, `q^2 (δ - 1/4) ≥ 1` and
`T = (3/2)^d (g q^d + 1/2)`.  If `T` fits in a `long` and in the integer type, `(1 + d T) g` fits in the integer type and, when
the transformation is asked for, `(1 + d T) D g` too with `D` a bound of the coordinates of the lattice vectors by
their norm, then the run on the machine type executes no undefined operation, also with the strict rule of the C++ standard: it
is the run on unbounded integers, and preserves the lattice. -/
theorem C62_enough_bits (ho : Exact o) (c : Mch) (hw : 1 ≤ c.w)
    (junk : ℝ) (n d : ℕ) (A : Mat Int) (forU : Bool)
    (method : ℤ) (hm : method < 1) (longFlag : Bool) (vd : ℤ) (S : ℕ) (hS : 0 < S) (thr : ℤ) (nb : ℕ)
    (hseq : S = 1 ∨ (d : ℤ) ≤ thr + 1)
    (hA : FullColumnRank (toMatrix n d A)) (β : ℤ)
    (hβ : ∀ j < d, ∑ i ∈ range n, A j i ^ 2 ≤ β) (δ : ℝ) (hδ : δ ≤ 1)
    (g q D T : ℝ) (hg0 : 0 ≤ g) (hg : ((d : ℝ) + 3) / 4 * β ≤ g ^ 2) (hq1 : 1 ≤ q) (hq : 1 ≤ q ^ 2 * (δ - 1 / 4))
    (hT : T = (3 / 2) ^ d * (g * q ^ d + 1 / 2))
    (hD : forU = true → CoordBound n d A D) (hT63 : T < 2 ^ 63) (hTw : T < 2 ^ (c.w - 1))
    (hb : (1 + d * T) * g < 2 ^ (c.w - 1)) (hu : forU = true → (1 + d * T) * (D * g) < 2 ^ (c.w - 1))
    (fuel : ℕ) (verbose : Bool) :
    mHlll o c fuel δ verbose (fresh o junk n d A forU method longFlag vd S thr nb) =
      hlll o fuel δ verbose (fresh o junk n d A forU method longFlag vd S thr nb) ∧
    ∀ status s', mHlll o c fuel δ verbose (fresh o junk n d A forU method longFlag vd S thr nb) = some (status, s') →
      s'.ub = false ∧ lattice (toMatrix n d s'.getbase.M) = lattice (toMatrix n d A) := by
  have h : mHlll o c fuel δ verbose (fresh o junk n d A forU method longFlag vd S thr nb) =
      hlll o fuel δ verbose (fresh o junk n d A forU method longFlag vd S thr nb) := by
    refine gHlll_small ho (K := T) (N := max ((1 + d * T) * g) (if forU = true then (1 + d * T) * (D * g) else 0))
      (mEntry_bnd ho c hw hT63 hTw ?_) junk n d A forU method hm longFlag vd S hS thr nb hseq hA β hβ δ
      hδ g q D hg0 hg hq1 hq hD (by rw [hT]; exact le_refl _) ?_ ?_ fuel verbose
    · refine max_lt hb ?_
      split
      · rename_i hf; exact hu hf
      · positivity
    · rw [hT]; exact le_max_left _ _
    · intro hf
      rw [if_pos hf, hT]; exact le_max_right _ _
  refine ⟨h, fun status s' hr => ?_⟩
  rw [h] at hr
  exact ⟨fresh_ub o junk n d (le_rank hA) A forU method longFlag vd S thr nb fuel δ verbose status s' hr,
    (C01_hlll_preserves_lattice o junk n d A forU method longFlag vd S thr nb fuel δ verbose status s' hr).2.2⟩

theorem ex_coord : CoordBound 2 2 (ofCols [[5, 0], [3, 1]]) 1 := by
  refine ⟨by norm_num, fun y i => ?_⟩
  have e : ∀ r, (toMatrix 2 2 (ofCols [[5, 0], [3, 1]])).mulVec y r = if r = 0 then 5 * y 0 + 3 * y 1 else y 1 := by
    intro r
    fin_cases r <;> simp [Matrix.mulVec, dotProduct, toMatrix, ofCols, Fin.sum_univ_two]
  rw [Fin.sum_univ_two, e, e]
  have h1 : y i ^ 2 ≤ (5 * y 0 + 3 * y 1) ^ 2 + y 1 ^ 2 := by
    fin_cases i
    · show y 0 ^ 2 ≤ _
      nlinarith [sq_nonneg (24 * y 0 + 15 * y 1), sq_nonneg (y 0), sq_nonneg (y 1)]
    · show y 1 ^ 2 ≤ _
      nlinarith [sq_nonneg (5 * y 0 + 3 * y 1)]
  have h2 : ((y i ^ 2 : ℤ) : ℝ) ≤ ((((5 * y 0 + 3 * y 1) ^ 2 + y 1 ^ 2 : ℤ)) : ℝ) := by exact_mod_cast h1
  push_cast at h2
  simpa using h2

/-- The hypotheses of `C62_enough_bits` are met: `(5, 0), (3, 1)` on a signed type of 10 bits, with the strict rule and the
transformation; the run ends with a reduced basis. -/
example : ∃ s' : Lat ℝ, mHlll realOps ⟨10, true⟩ 54 (99 / 100) true
      (fresh realOps 7 2 2 (ofCols [[5, 0], [3, 1]]) true 0 true 0 1 1000000 100) = some (0, s') ∧ s'.ub = false ∧
    LLLReduced (99 / 100) (toMatrix 2 2 s'.getbase.M) := by
  obtain ⟨t, h1, h2, -⟩ := ex_run
  have h := C62_enough_bits realOps_exact.toExact ⟨10, true⟩ (by norm_num) 7 2 2 (ofCols [[5, 0], [3, 1]]) true 0 (by norm_num)
    true 0 1 (by norm_num) 1000000 100 (Or.inl rfl) ex_rank 25 ex_norms (99 / 100) (by norm_num) 5.6 1.2 1
    ((3 / 2) ^ 2 * (5.6 * 1.2 ^ 2 + 1 / 2)) (by norm_num)
    (by norm_num) (by norm_num) (by norm_num) rfl (fun _ => ex_coord) (by norm_num) (by norm_num) (by norm_num)
    (fun _ => by norm_num) 54 true
  have hr := h.1.trans h1
  exact ⟨t, hr, (h.2 0 t hr).1, h2⟩

end HPLLL.Props
