import Verif.Proof.MachOK
import Verif.Props.Lattice
import Mathlib.Data.ZMod.Basic
import Mathlib.Data.Int.ModEq
/-!
# C62: `hlll` on machine integers (`Lattice<long>`, `Lattice<__int128_t>`)

Every theorem of this part is quantified over `o : FPOps F` with *no* hypothesis on the operations.
-/

namespace HPLLL.Props
open HPLLL Spec Matrix

variable {F : Type} (o : FPOps F)

/-- `long` on the machines the library targets. -/
def longT : Mch := ⟨64, true⟩

/-- `long`, compiled with `-fwrapv`. -/
def longW : Mch := ⟨64, false⟩

/-- **C62.** If a run on machine integers commits no undefined operation, it returns what the run on
unbounded integers returns: same status, same basis, same transformation, same counters. -/
theorem C62_no_overflow_same_run (c : Mch) (hw : 1 ≤ c.w) (hs : c.strict = true)
    (junk : F) (n d : Nat) (A : Mat Int) (forU : Bool) (method : Int)
    (longFlag : Bool) (vd : Int) (S : Nat) (thr : Int) (nb : Nat)
    (fuel : Nat) (delta : F) (verbose : Bool) (status : Int) (s' : Lat F)
    (h : mHlll o c fuel delta verbose
      (fresh o junk n d A forU method longFlag vd S thr nb) = some (status, s'))
    (hub : s'.ub = false) :
    hlll o fuel delta verbose (fresh o junk n d A forU method longFlag vd S thr nb) =
      some (status, s') := by
  obtain ⟨t', h1, h2⟩ := gHlll_sim (EntOK.strict (o := o) hw hs) fuel delta verbose
    (fresh o junk n d A forU method longFlag vd S thr nb) status s' h hub
  rw [FPOps.via_id] at h1
  rw [h1, h2]; rfl

/-- **C62.** Without undefined operation, `getbase()` generates the lattice of the input. -/
theorem C62_no_overflow_lattice (c : Mch) (hw : 1 ≤ c.w) (hs : c.strict = true)
    (junk : F) (n d : Nat) (A : Mat Int) (forU : Bool) (method : Int)
    (longFlag : Bool) (vd : Int) (S : Nat) (thr : Int) (nb : Nat)
    (fuel : Nat) (delta : F) (verbose : Bool) (status : Int) (s' : Lat F)
    (h : mHlll o c fuel delta verbose
      (fresh o junk n d A forU method longFlag vd S thr nb) = some (status, s'))
    (hub : s'.ub = false) :
    lattice (toMatrix n d s'.getbase.M) = lattice (toMatrix n d A) :=
  (C01_hlll_preserves_lattice o junk n d A forU method longFlag vd S thr nb fuel delta verbose
    status s' (C62_no_overflow_same_run o c hw hs junk n d A forU method longFlag vd S thr nb fuel
      delta verbose status s' h hub)).2.2

theorem fresh_fmap (c : Mch) (hw : 2 ≤ c.w)
    (junk : F) (n d : Nat) (A : Mat Int) (hA : ∀ j i, c.inR (A j i) = true) (forU : Bool)
    (method : Int) (longFlag : Bool) (vd : Int) (S : Nat) (thr : Int) (nb : Nat) :
    fresh o junk n d A forU method longFlag vd S thr nb =
      (fresh (o.via c.wrap) junk n d A forU method longFlag vd S thr nb).fmap c.wrap := by
  have e : (fun j i => c.wrap (A j i)) = A := by
    funext j i; exact Mch.wrap_of_inR (by omega) (hA j i)
  have e2 : (fun j i => c.wrap (idMat j i)) = idMat := by
    funext j i
    refine Mch.wrap_of_inR (by omega) ?_
    have h2 : (2 : Int) ≤ 2 ^ (c.w - 1) := by
      calc (2 : Int) = 2 ^ 1 := rfl
        _ ≤ 2 ^ (c.w - 1) := pow_le_pow_right₀ (by norm_num) (by omega)
    unfold Mch.inR idMat
    simp only [Bool.and_eq_true, decide_eq_true_eq]
    split <;> omega
  unfold fresh newLattice Lat.setNumS Lat.setNblovMax Lat.fmap
  simp only [e, e2]
  rfl

theorem wrap_dvd (c : Mch) (z : Int) : (2 ^ c.w : Int) ∣ c.wrap z - z := by
  have := Int.dvd_bmod_sub_self (x := z) (m := 2 ^ c.w)
  push_cast at this
  exact this

/-- The machine run is a run on unbounded integers of the same program, whose entries are reduced
modulo `2^w`. -/
theorem wrap_run (c : Mch) (hw : 2 ≤ c.w)
    (junk : F) (n d : Nat) (A : Mat Int) (hA : ∀ j i, c.inR (A j i) = true) (forU : Bool)
    (method : Int) (longFlag : Bool) (vd : Int) (S : Nat) (thr : Int) (nb : Nat)
    (fuel : Nat) (delta : F) (verbose : Bool) (status : Int) (s' : Lat F)
    (h : mHlll o c fuel delta verbose
      (fresh o junk n d A forU method longFlag vd S thr nb) = some (status, s'))
    (hub : s'.ub = false) :
    ∃ t', hlll (o.via c.wrap) fuel delta verbose
      (fresh (o.via c.wrap) junk n d A forU method longFlag vd S thr nb) = some (status, t') ∧
      s' = t'.fmap c.wrap := by
  rw [fresh_fmap o c hw junk n d A hA] at h
  exact gHlll_sim (EntOK.wrap c) fuel delta verbose _ status s' h hub

/-- **C62.** With wrapping operations, whatever the overflows: the returned basis has entries in the
type, and modulo `2^w` it is the input basis times a unimodular matrix. -/
theorem C62_wrap_lattice_mod (c : Mch) (hw : 2 ≤ c.w)
    (junk : F) (n d : Nat) (A : Mat Int) (hA : ∀ j i, c.inR (A j i) = true) (forU : Bool)
    (method : Int) (longFlag : Bool) (vd : Int) (S : Nat) (thr : Int) (nb : Nat)
    (fuel : Nat) (delta : F) (verbose : Bool) (status : Int) (s' : Lat F)
    (h : mHlll o c fuel delta verbose
      (fresh o junk n d A forU method longFlag vd S thr nb) = some (status, s'))
    (hub : s'.ub = false) :
    (∀ j i, -(2 : Int) ^ (c.w - 1) ≤ s'.getbase.M j i ∧ s'.getbase.M j i < 2 ^ (c.w - 1)) ∧
    ∃ W : Matrix (Fin d) (Fin d) ℤ, Unimodular W ∧
      ∀ i j, (2 ^ c.w : Int) ∣ toMatrix n d s'.getbase.M i j - (toMatrix n d A * W) i j := by
  obtain ⟨t', h1, rfl⟩ := wrap_run o c hw junk n d A hA forU method longFlag vd S thr nb fuel delta
    verbose status s' h hub
  have hE := hlll_exit _ fuel delta verbose _ t' status
    (fresh_inv _ junk n d A forU method longFlag vd S thr nb False (fun h => h.elim)) (le_refl d) h1
  obtain ⟨W, hW, hB, -⟩ := hE.inv.uni
  refine ⟨fun j i => ?_, W, unimodular_of_isUnit hW, fun i j => ?_⟩
  · have := Mch.inR_wrap (c := c) (by omega) (t'.B j i)
    unfold Mch.inR at this
    simp only [Bool.and_eq_true, decide_eq_true_eq] at this
    exact this
  · rw [← hB]
    exact wrap_dvd c (t'.B j i)

/-- **C62.** With wrapping operations and sequential settings, `A * getU()` and `getbase()` agree
modulo `2^w`. -/
theorem C62_wrap_transformation (c : Mch) (hw : 2 ≤ c.w)
    (junk : F) (n d : Nat) (A : Mat Int) (hA : ∀ j i, c.inR (A j i) = true)
    (hr : FullColumnRank (toMatrix n d A))
    (method : Int) (longFlag : Bool) (vd : Int) (S : Nat) (thr : Int) (nb : Nat)
    (hseq : S = 1 ∨ (d : Int) ≤ thr + 1)
    (fuel : Nat) (delta : F) (verbose : Bool) (status : Int) (s' : Lat F)
    (h : mHlll o c fuel delta verbose
      (fresh o junk n d A true method longFlag vd S thr nb) = some (status, s'))
    (hub : s'.ub = false) :
    ∀ i j, (2 ^ c.w : Int) ∣ (toMatrix n d A * toMatrix d d s'.getU.M) i j -
      toMatrix n d s'.getbase.M i j := by
  obtain ⟨t', h1, rfl⟩ := wrap_run o c hw junk n d A hA true method longFlag vd S thr nb fuel delta
    verbose status s' h hub
  have h2 := (C02_transformation _ junk n d A method longFlag vd S thr nb hseq hr fuel delta verbose
    status t' h1).2.2
  have hE := hlll_exit _ fuel delta verbose _ t' status
    (fresh_inv _ junk n d A true method longFlag vd S thr nb True (fun _ => ⟨rfl, hr, hseq⟩))
    (le_refl d) h1
  have ht : t'.transf = true := hE.inv.tr trivial
  intro i j
  have e : ((toMatrix n d A * toMatrix d d t'.getU.M) i j) = t'.B j i := by
    rw [h2]; rfl
  have e2 : (toMatrix n d A * toMatrix d d (t'.fmap c.wrap).getU.M) i j -
      toMatrix n d (t'.fmap c.wrap).getbase.M i j =
      ((toMatrix n d A * toMatrix d d (t'.fmap c.wrap).getU.M) i j -
        (toMatrix n d A * toMatrix d d t'.getU.M) i j) - (c.wrap (t'.B j i) - t'.B j i) := by
    rw [e]; simp only [Lat.getbase, Lat.fmap, toMatrix, of_apply]; ring
  rw [e2]
  refine dvd_sub ?_ (wrap_dvd c _)
  rw [mul_apply, mul_apply, ← Finset.sum_sub_distrib]
  refine Finset.dvd_sum fun k _ => ?_
  rw [← mul_sub]
  refine Dvd.dvd.mul_left ?_ _
  have e3 : (t'.fmap c.wrap).transf = true := ht
  simp only [Lat.getU, ht, e3, if_true, toMatrix, of_apply]
  exact wrap_dvd c _

/-- **C62.** The Gram determinant is preserved modulo `2^w`. -/
theorem C62_wrap_volume_mod (c : Mch) (hw : 2 ≤ c.w)
    (junk : F) (n d : Nat) (A : Mat Int) (hA : ∀ j i, c.inR (A j i) = true) (forU : Bool)
    (method : Int) (longFlag : Bool) (vd : Int) (S : Nat) (thr : Int) (nb : Nat)
    (fuel : Nat) (delta : F) (verbose : Bool) (status : Int) (s' : Lat F)
    (h : mHlll o c fuel delta verbose
      (fresh o junk n d A forU method longFlag vd S thr nb) = some (status, s'))
    (hub : s'.ub = false) :
    ((toMatrix n d s'.getbase.M)ᵀ * toMatrix n d s'.getbase.M).det ≡
      ((toMatrix n d A)ᵀ * toMatrix n d A).det [ZMOD 2 ^ c.w] := by
  obtain ⟨W, hW, hd⟩ := (C62_wrap_lattice_mod o c hw junk n d A hA forU method longFlag vd S thr nb
    fuel delta verbose status s' h hub).2
  have hW' : IsUnit W.det := by
    rcases hW with h | h <;> rw [h]
    · exact isUnit_one
    · exact isUnit_one.neg
  rw [← gram_det_mul_unit (toMatrix n d A) _ hW']
  have key : ((toMatrix n d s'.getbase.M).map (Int.castRingHom (ZMod (2 ^ c.w)))) =
      (toMatrix n d A * W).map (Int.castRingHom (ZMod (2 ^ c.w))) := by
    ext i j
    simp only [map_apply, eq_intCast]
    rw [← sub_eq_zero, ← Int.cast_sub, ZMod.intCast_zmod_eq_zero_iff_dvd]
    have := hd i j
    push_cast
    exact this
  have e : (2 : Int) ^ c.w = ((2 ^ c.w : Nat) : Int) := by push_cast; rfl
  rw [e, ← ZMod.intCast_eq_intCast_iff]
  have gen : ∀ M : Matrix (Fin n) (Fin d) ℤ, (((Mᵀ * M).det : Int) : ZMod (2 ^ c.w)) =
      ((M.map (Int.castRingHom (ZMod (2 ^ c.w))))ᵀ * M.map (Int.castRingHom (ZMod (2 ^ c.w)))).det := by
    intro M
    rw [← transpose_map, ← Matrix.map_mul, ← RingHom.mapMatrix_apply, ← RingHom.map_det]
    rfl
  rw [gen, gen, key]

/-- `(-2, 5), (M, M)` with `M = 2^63 - 1`. -/
def bigBasis : Mat Int := ofCols [[-2, 5], [9223372036854775807, 9223372036854775807]]

theorem bigBasis_run : ((mHlll toyOps longW 20 toy99 false
      (fresh toyOps 0 2 2 bigBasis true 0 true 0 1 0 1000)).map
      fun q => (q.1, q.2.ub, toCols 2 2 q.2.B)) =
      some (0, false, [[-2, 5], [-4770709674235228867, -1908283869694091548]]) := by
  decide +kernel

theorem bigBasis_inR (j i : Nat) : longW.inR (bigBasis j i) = true := by
  have h : ∀ z : Int, z = 0 ∨ z = -2 ∨ z = 5 ∨ z = 9223372036854775807 → longW.inR z = true := by
    rintro z (rfl | rfl | rfl | rfl) <;> decide +kernel
  apply h
  unfold bigBasis ofCols
  rcases j with _ | _ | j <;> rcases i with _ | _ | i <;> simp

theorem bigBasis_lost (M : Mat Int) (b10 : M 1 0 = -4770709674235228867)
    (b11 : M 1 1 = -1908283869694091548) :
    lattice (toMatrix 2 2 M) ≠ lattice (toMatrix 2 2 bigBasis) := by
  intro hl
  -- the second returned vector is not in the input lattice
  have hm : (fun i : Fin 2 => toMatrix 2 2 M i 1) ∈ lattice (toMatrix 2 2 bigBasis) := by
    rw [← hl]
    exact Submodule.subset_span ⟨1, rfl⟩
  unfold lattice at hm
  rw [Submodule.mem_span_range_iff_exists_fun] at hm
  obtain ⟨x, hx⟩ := hm
  have e0 := congrFun hx 0
  have e1 := congrFun hx 1
  have a00 : bigBasis 0 0 = -2 := by decide +kernel
  have a01 : bigBasis 0 1 = 5 := by decide +kernel
  have a10 : bigBasis 1 0 = 9223372036854775807 := by decide +kernel
  have a11 : bigBasis 1 1 = 9223372036854775807 := by decide +kernel
  simp only [Fin.sum_univ_two, toMatrix, of_apply, Pi.add_apply, Pi.smul_apply, smul_eq_mul,
    Fin.val_zero, Fin.val_one, b10, b11, a00, a01, a10, a11] at e0 e1
  have e2 : 7 * x 0 = 2862425804541137319 := by linarith
  clear e0 e1 hx hl
  omega

/-- **C62.** Overflow is silent and can lose the lattice: for the basis `(-2, 5), (M, M)` with
`M = 2^63 - 1` (entries of type `long`), size reduction leaves the range of `long`; with wrapping
operations the call returns 0 and a basis of another lattice.  The strict rule has undefined
behaviour, and the run on unbounded integers returns a basis of the same lattice. -/
theorem C62_overflow_loses_lattice :
    ∃ (A : Mat Int) (s' : Lat Int), (∀ j i, longW.inR (A j i) = true) ∧
      mHlll toyOps longW 20 toy99 false
        (fresh toyOps 0 2 2 A true 0 true 0 1 0 1000) = some (0, s') ∧ s'.ub = false ∧
      lattice (toMatrix 2 2 s'.getbase.M) ≠ lattice (toMatrix 2 2 A) := by
  obtain ⟨⟨st, s'⟩, e, h0⟩ := Option.map_eq_some_iff.1 bigBasis_run
  have h1 := congrArg (fun q => q.1) h0
  have h2 := congrArg (fun q => q.2.1) h0
  have h3 := congrArg (fun q => q.2.2) h0
  dsimp only at h1 h2 h3
  subst h1
  simp only [toCols, List.range, List.range.loop, List.map, List.cons.injEq, and_true] at h3
  exact ⟨bigBasis, s', bigBasis_inR, e, h2, bigBasis_lost s'.B h3.2.1 h3.2.2⟩

/-- Non-vacuity of the theorems on defined runs: `(1, 2), (3, 4)` on `long`. -/
example : ((mHlll toyOps longT 20 toy99 false
      (fresh toyOps 0 2 2 (ofCols [[1, 2], [3, 4]]) true 0 true 0 1 0 1000)).map
      fun q => (q.1, q.2.ub, toCols 2 2 q.2.B, toCols 2 2 q.2.U)) =
      some (0, false, [[1, 0], [0, 2]], [[-2, 1], [3, -1]]) := by
  decide +kernel

/-- The strict rule flags the overflow of `C62_overflow_loses_lattice`. -/
example : ((mHlll toyOps longT 20 toy99 false
      (fresh toyOps 0 2 2 (ofCols [[-2, 5], [9223372036854775807, 9223372036854775807]]) true 0 true 0 1 0 1000)).map
      fun q => q.2.ub) = some true := by
  decide +kernel

end HPLLL.Props
