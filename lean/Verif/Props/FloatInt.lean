import Verif.Proof.FloatOK
import Verif.Props.MachSmall
/-!
# C85: bases of integers stored in floating point numbers
-/

namespace HPLLL.Props
open HPLLL Spec Finset

/-- **C85.** For every floating point arithmetic of `R`, rounding of the entries and setting: a run on floating point integers
in which no operation on entries is rounded is the run on unbounded integers; in particular it preserves the lattice. -/
theorem C85_exact_run {F : Type} (o : FPOps F) (rd rdE : ℤ → ℤ) (junk : F) (n d : Nat) (A : Mat Int) (forU : Bool)
    (method : Int) (longFlag : Bool) (_hm : method < 1 ∨ longFlag = true) (vd : Int) (S : Nat) (thr : Int) (nb : Nat)
    (fuel : Nat) (delta : F) (verbose : Bool) (status : Int) (s' : Lat F)
    (h : fHlll o rd rdE fuel delta verbose (fresh o junk n d A forU method longFlag vd S thr nb) = some (status, s'))
    (hub : s'.ub = false) :
    hlll o fuel delta verbose (fresh o junk n d A forU method longFlag vd S thr nb) = some (status, s') ∧
    lattice (toMatrix n d s'.getbase.M) = lattice (toMatrix n d A) := by
  obtain ⟨t', h1, h2⟩ := gHlll_sim (EntOK.float o rd rdE) fuel delta verbose
    (fresh o junk n d A forU method longFlag vd S thr nb) status s' h hub
  rw [FPOps.via_id] at h1
  rw [Lat.fmap_id] at h2
  subst h2
  exact ⟨h1, (C01_hlll_preserves_lattice o junk n d A forU method longFlag vd S thr nb fuel delta verbose
    status s' h1).2.2⟩

variable {o : FPOps ℝ}

theorem fEntry_bnd (ho : Exact o) {rd rdE : ℤ → ℤ} {K N M : ℝ} (hK : K < 2 ^ 63) (hKM : K ≤ M) (hN : N ≤ M)
    (hrd : ∀ z : ℤ, |(z:ℝ)| ≤ M → rd z = z) (hrdE : ∀ z : ℤ, |(z:ℝ)| ≤ M → rdE z = z) : EntBnd (fEntry o rd rdE) K N := by
  intro fl k a b hk0 hk hkb ha hab
  have ikb := hrd _ (hkb.trans hN)
  have iab := hrd _ (hab.trans hN)
  have ik := hrd _ (hk.trans hKM)
  obtain ⟨l1, l2, l3⟩ := siExp_le ho hk0
  have hk63 : |k| < 2 ^ 63 := by
    have := lt_of_le_of_lt hk hK
    exact_mod_cast this
  have hlx := ho.getSiExp k
  have hlong : decide (-(2 ^ 63) < (o.getSiExp (k:ℝ)).1 ∧ (o.getSiExp (k:ℝ)).1 < 2 ^ 63) = true := by
    have := lt_of_le_of_lt l1 hk63
    rw [abs_lt] at this
    simpa using this
  have hnl : |((-(o.getSiExp (k:ℝ)).1 : ℤ) : ℝ)| ≤ M := by
    refine le_trans ?_ (hk.trans hKM)
    have : |-(o.getSiExp (k:ℝ)).1| ≤ |k| := by rw [abs_neg]; exact l1
    exact_mod_cast this
  have inl := hrd _ hnl
  have hlb : |((b * -(o.getSiExp (k:ℝ)).1 : ℤ) : ℝ)| ≤ M := by
    refine le_trans ?_ (hkb.trans hN)
    have : |b * -(o.getSiExp (k:ℝ)).1| ≤ |k * b| := by
      rw [abs_mul, abs_neg, abs_mul, mul_comm]
      exact mul_le_mul_of_nonneg_right l1 (abs_nonneg _)
    exact_mod_cast this
  have ilb := hrd _ hlb
  have ilbE := hrdE _ hlb
  unfold fEntry
  simp only []
  rw [ho.toZ]
  by_cases he : (o.getSiExp (k:ℝ)).2 = 0
  · rw [he, pow_zero, mul_one] at hlx
    rw [if_pos he, hlx]
    split
    · rename_i h1; rw [h1] at iab ⊢; rw [one_mul] at iab ⊢; rw [iab]; simp
    · split
      · rename_i h1
        rw [h1] at iab ⊢
        rw [show a - -1 * b = a + b by ring] at iab ⊢
        rw [iab]; simp
      · rw [hlx] at hlong ilb inl
        split
        · have e : a + b * -k = a - k * b := by ring
          rw [inl, ilb, e, iab, hlong]; simp
        · rw [ik, ikb, iab]; simp
  · rw [if_neg he]
    split
    · have e1 : b * -(o.getSiExp (k:ℝ)).1 * 2 ^ (o.getSiExp (k:ℝ)).2 = -(k * b) := by
        conv_rhs => rw [← hlx]
        ring
      have e2 : a + -(k * b) = a - k * b := by ring
      rw [inl, ilb, ilbE, e1, e2, iab, hlong]; simp
    · rw [ik, ikb, iab]; simp

/-- **C85, which precision is enough.** (exact arithmetic of `R`, size reduction, sequential settings, independent columns,
`1/4 < δ ≤ 1`; notation of `C62_enough_bits`.)  If integers up to `M` are represented in the type of the entries (and not
changed by the conversion done by `ldexp`) and `T`, `(1 + d T) g`, for the transformation `(1 + d T) D g`, are at most `M`, then
no operation is rounded: the run is the one on unbounded integers, and preserves the lattice. -/
theorem C85_enough_precision (ho : Exact o) (rd rdE : ℤ → ℤ) (M : ℝ) (hrd : ∀ z : ℤ, |(z:ℝ)| ≤ M → rd z = z)
    (hrdE : ∀ z : ℤ, |(z:ℝ)| ≤ M → rdE z = z)
    (junk : ℝ) (n d : ℕ) (A : Mat Int) (forU : Bool)
    (method : ℤ) (hm : method < 1) (longFlag : Bool) (vd : ℤ) (S : ℕ) (hS : 0 < S) (thr : ℤ) (nb : ℕ)
    (hseq : S = 1 ∨ (d : ℤ) ≤ thr + 1)
    (hA : FullColumnRank (toMatrix n d A)) (β : ℤ)
    (hβ : ∀ j < d, ∑ i ∈ range n, A j i ^ 2 ≤ β) (δ : ℝ) (hδ : δ ≤ 1)
    (g q D T : ℝ) (hg0 : 0 ≤ g) (hg : ((d : ℝ) + 3) / 4 * β ≤ g ^ 2) (hq1 : 1 ≤ q) (hq : 1 ≤ q ^ 2 * (δ - 1 / 4))
    (hT : T = (3 / 2) ^ d * (g * q ^ d + 1 / 2))
    (hD : forU = true → CoordBound n d A D) (hT63 : T < 2 ^ 63) (hTM : T ≤ M)
    (hb : (1 + d * T) * g ≤ M) (hu : forU = true → (1 + d * T) * (D * g) ≤ M)
    (fuel : ℕ) (verbose : Bool) :
    fHlll o rd rdE fuel δ verbose (fresh o junk n d A forU method longFlag vd S thr nb) =
      hlll o fuel δ verbose (fresh o junk n d A forU method longFlag vd S thr nb) ∧
    ∀ status s', fHlll o rd rdE fuel δ verbose (fresh o junk n d A forU method longFlag vd S thr nb) = some (status, s') →
      s'.ub = false ∧ lattice (toMatrix n d s'.getbase.M) = lattice (toMatrix n d A) := by
  have h : fHlll o rd rdE fuel δ verbose (fresh o junk n d A forU method longFlag vd S thr nb) =
      hlll o fuel δ verbose (fresh o junk n d A forU method longFlag vd S thr nb) :=
    gHlll_small ho (K := T) (N := M)
      (fEntry_bnd ho hT63 hTM (le_refl _) hrd hrdE) junk n d A forU method hm longFlag vd S hS thr nb hseq hA β hβ δ
      hδ g q D hg0 hg hq1 hq hD (by rw [hT]; exact le_refl _) (by unfold multBound; rw [← hT]; exact hb)
      (fun hf => by unfold multBound; rw [← hT]; exact hu hf) fuel verbose
  refine ⟨h, fun status s' hr => ?_⟩
  rw [h] at hr
  exact ⟨fresh_ub o junk n d (le_rank hA) A forU method longFlag vd S thr nb fuel δ verbose status s' hr,
    (C01_hlll_preserves_lattice o junk n d A forU method longFlag vd S thr nb fuel δ verbose status s' hr).2.2⟩

/-- **C85.** On a reduced basis no operation is done on the entries, whatever the rounding (exact arithmetic of `R`, ties not
rounded away from zero, sequential settings). -/
theorem C85_reduced_input (ho : ExactTies o) (rd rdE : ℤ → ℤ)
    (junk : ℝ) (n d : ℕ) (A : Mat Int) (forU : Bool)
    (method : ℤ) (hm : method < 1) (longFlag : Bool) (vd : ℤ) (S : ℕ) (hS : 0 < S) (thr : ℤ) (nb : ℕ)
    (hseq : S = 1 ∨ (d : ℤ) ≤ thr + 1)
    (hA : FullColumnRank (toMatrix n d A)) (δ : ℝ) (hδ : δ ≤ 1) (hred : LLLReduced δ (toMatrix n d A))
    (fuel : ℕ) (verbose : Bool) :
    fHlll o rd rdE fuel δ verbose (fresh o junk n d A forU method longFlag vd S thr nb) =
      hlll o fuel δ verbose (fresh o junk n d A forU method longFlag vd S thr nb) := by
  have hE := fresh_exInv ho.toExact junk n d A forU method longFlag vd S hS thr nb δ verbose
  have hdn : d ≤ n := le_rank hA
  have hl := mHlllLoop_fixed (c := fEntry o rd rdE) ho hδ hA (gs_ne_zero hA hdn) (LLLReduced.lovMin hred) fuel _ hE
    (by cases verbose <;> rfl) (by cases verbose <;> exact UniTri.refl n d A)
    (by cases verbose <;> exact hseq) (by cases verbose <;> exact hm)
    (by cases verbose <;> exact hred.1)
  unfold fHlll gHlll hlll
  simp only []
  cases verbose
  · simp only [Bool.false_eq_true, if_false] at hl ⊢
    rw [hl]
    rfl
  · simp only [if_true] at hl ⊢
    rw [show (fresh o junk n d A forU method longFlag vd S thr nb).verboseDepth = vd from rfl, hl]
    rfl

/-! ## Concrete cases -/

/-- The rounding of the types represents the integers up to `2^p`. -/
theorem roundZ_small (p : ℕ) (z : ℤ) (h : |(z:ℝ)| ≤ 2 ^ p) : roundZ p z = z := by
  unfold roundZ
  rw [if_pos]
  have : |z| ≤ 2 ^ p := by exact_mod_cast h
  have h2 : ((z.natAbs : ℕ) : ℤ) ≤ 2 ^ p := by rw [Int.natCast_natAbs]; exact this
  exact_mod_cast h2

/-- It is a rounding to nearest: the error is at most half a unit of the last of `p` bits. -/
theorem roundZ_near (p : ℕ) (z : ℤ) : 2 * |roundZ p z - z| ≤ 2 ^ (z.natAbs.log2 + 1 - p) := by
  unfold roundZ
  have hu : (0:ℤ) < 2 ^ (z.natAbs.log2 + 1 - p) := by positivity
  split_ifs with h0
  · simp
  · simp only []
    obtain ⟨u, hu'⟩ : ∃ u : ℤ, u = 2 ^ (z.natAbs.log2 + 1 - p) := ⟨_, rfl⟩
    rw [← hu'] at hu ⊢
    have h1 := Int.emod_add_mul_ediv z u
    have h2 := Int.emod_nonneg z hu.ne'
    have h3 := Int.emod_lt_of_pos z hu
    have e : z / u * u = u * (z / u) := mul_comm _ _
    have e2 : (z / u + 1) * u = u * (z / u) + u := by ring
    rw [e, e2]
    generalize u * (z / u) = w at *
    split_ifs <;> rw [← abs_two, ← abs_mul] <;> rw [abs_le] <;> constructor <;> omega

/-- Entries `2^53 - 1`. -/
def dblBasis : Mat Int := ofCols [[-2, 5], [9007199254740991, 9007199254740991]]

theorem dblBasis_run : ((fHlll toyOps (roundZ 53) (roundZ 53) 20 toy99 false
      (fresh toyOps 0 2 2 dblBasis true 0 true 0 1 0 1000)).map fun q => (q.1, toCols 2 2 q.2.B)) =
      some (0, [[-2, 5], [10870757721239128, 4348303088495651]]) := by decide +kernel

theorem dblBasis_repr (j i : ℕ) : roundZ 53 (dblBasis j i) = dblBasis j i := by
  have h : ∀ z : ℤ, z = 0 ∨ z = -2 ∨ z = 5 ∨ z = 9007199254740991 → roundZ 53 z = z := by
    rintro z (rfl | rfl | rfl | rfl) <;> decide +kernel
  apply h
  unfold dblBasis ofCols
  rcases j with _ | _ | j <;> rcases i with _ | _ | i <;> simp

/-- **C85.** Rounding is silent and can lose the lattice: the basis `(-2, 5), (M, M)`, `M = 2^53 - 1`, of entries of type
`double`: the call returns 0 and a basis of another lattice. -/
theorem C85_rounding_loses_lattice :
    ∃ (A : Mat Int) (s' : Lat Int), (∀ j i, roundZ 53 (A j i) = A j i) ∧
      fHlll toyOps (roundZ 53) (roundZ 53) 20 toy99 false
        (fresh toyOps 0 2 2 A true 0 true 0 1 0 1000) = some (0, s') ∧
      lattice (toMatrix 2 2 s'.getbase.M) ≠ lattice (toMatrix 2 2 A) := by
  obtain ⟨⟨st, s'⟩, e, h0⟩ := Option.map_eq_some_iff.1 dblBasis_run
  have h1 := congrArg (fun q => q.1) h0
  have h3 := congrArg (fun q => q.2) h0
  dsimp only at h1 h3
  subst h1
  simp only [toCols, List.range, List.range.loop, List.map, List.cons.injEq, and_true] at h3
  refine ⟨dblBasis, s', dblBasis_repr, e, ?_⟩
  intro hl
  have b10 : s'.B 1 0 = 10870757721239128 := h3.2.1
  have b11 : s'.B 1 1 = 4348303088495651 := h3.2.2
  have hm : (fun i : Fin 2 => toMatrix 2 2 s'.getbase.M i 1) ∈ lattice (toMatrix 2 2 dblBasis) := by
    rw [← hl]
    exact Submodule.subset_span ⟨1, rfl⟩
  unfold lattice at hm
  rw [Submodule.mem_span_range_iff_exists_fun] at hm
  obtain ⟨x, hx⟩ := hm
  have e0 := congrFun hx 0
  have e1 := congrFun hx 1
  have a00 : dblBasis 0 0 = -2 := by decide +kernel
  have a01 : dblBasis 0 1 = 5 := by decide +kernel
  have a10 : dblBasis 1 0 = 9007199254740991 := by decide +kernel
  have a11 : dblBasis 1 1 = 9007199254740991 := by decide +kernel
  simp only [Fin.sum_univ_two, toMatrix, Matrix.of_apply, Pi.add_apply, Pi.smul_apply, smul_eq_mul, Lat.getbase,
    Fin.val_zero, Fin.val_one, b10, b11, a00, a01, a10, a11] at e0 e1
  have e2 : 7 * x 0 = -6522454632743477 := by linarith
  clear e0 e1 hx hl
  omega

/-- Non-vacuity of `C85_exact_run`: `(1, 2), (3, 4)` with entries of type `double`. -/
example : ((fHlll toyOps (roundZ 53) (roundZ 53) 20 toy99 false
      (fresh toyOps 0 2 2 (ofCols [[1, 2], [3, 4]]) true 0 true 0 1 0 1000)).map
      fun q => (q.1, q.2.ub, toCols 2 2 q.2.B, toCols 2 2 q.2.U)) =
      some (0, false, [[1, 0], [0, 2]], [[-2, 1], [3, -1]]) := by
  decide +kernel

/-- The hypotheses of `C85_enough_precision` are met: `(5, 0), (3, 1)` with entries of 8 significant bits; the run ends with a
reduced basis. -/
example : ∃ s' : Lat ℝ, fHlll realOps (roundZ 8) (roundZ 8) 54 (99 / 100) true
      (fresh realOps 7 2 2 (ofCols [[5, 0], [3, 1]]) true 0 true 0 1 1000000 100) = some (0, s') ∧ s'.ub = false ∧
    LLLReduced (99 / 100) (toMatrix 2 2 s'.getbase.M) := by
  obtain ⟨t, h1, h2, -⟩ := ex_run
  have h := C85_enough_precision realOps_exact.toExact (roundZ 8) (roundZ 8) (2 ^ 8) (roundZ_small 8) (roundZ_small 8)
    7 2 2 (ofCols [[5, 0], [3, 1]]) true 0 (by norm_num)
    true 0 1 (by norm_num) 1000000 100 (Or.inl rfl) ex_rank 25 ex_norms (99 / 100) (by norm_num) 5.6 1.2 1
    ((3 / 2) ^ 2 * (5.6 * 1.2 ^ 2 + 1 / 2)) (by norm_num)
    (by norm_num) (by norm_num) (by norm_num) rfl (fun _ => ex_coord) (by norm_num) (by norm_num) (by norm_num)
    (fun _ => by norm_num) 54 true
  have hr := h.1.trans h1
  exact ⟨t, hr, (h.2 0 t hr).1, h2⟩

end HPLLL.Props
