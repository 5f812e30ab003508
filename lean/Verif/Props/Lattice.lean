import Verif.Proof.HlllExit
import Verif.Model.Toy
/-!
# Properties of `Lattice` that hold for every floating point behaviour

Every theorem is quantified over `o : FPOps F` with *no* hypothesis on the operations.
-/

namespace HPLLL.Props
open HPLLL Spec Matrix

variable {F : Type} (o : FPOps F)

/-- The object built by the constructor, after `set_num_S(S, thr)` and `set_nblov_max(nb)`. -/
def fresh (junk : F) (n d : Nat) (A : Mat Int) (forU : Bool) (method : Int) (longFlag : Bool)
    (vd : Int) (S : Nat) (thr : Int) (nb : Nat) : Lat F :=
  ((newLattice o junk n d A forU method longFlag vd).setNumS S thr).setNblovMax nb

theorem fresh_inv (junk : F) (n d : Nat) (A : Mat Int) (forU : Bool) (method : Int)
    (longFlag : Bool) (vd : Int) (S : Nat) (thr : Int) (nb : Nat) (track : Prop)
    (ht : track → forU = true ∧ FullColumnRank (toMatrix n d A) ∧
      (S = 1 ∨ (d : Int) ≤ thr + 1)) :
    LInv n d A track (fresh o junk n d A forU method longFlag vd S thr nb) :=
  LInv.of_basis A track _ rfl rfl rfl rfl
    (fun h => ⟨(ht h).1, rfl, (ht h).2.1, (ht h).2.2⟩)

/-- **C01.** Whatever `hlll` returns, for every floating point behaviour, every reduction method,
long flag, thread setting and test budget, `getbase()` generates the lattice of the input. -/
theorem C01_hlll_preserves_lattice (junk : F) (n d : Nat) (A : Mat Int) (forU : Bool) (method : Int)
    (longFlag : Bool) (vd : Int) (S : Nat) (thr : Int) (nb : Nat)
    (fuel : Nat) (delta : F) (verbose : Bool) (status : Int) (s' : Lat F)
    (h : hlll o fuel delta verbose
      (fresh o junk n d A forU method longFlag vd S thr nb) = some (status, s')) :
    s'.getbase.rows = n ∧ s'.getbase.cols = d ∧
      lattice (toMatrix n d s'.getbase.M) = lattice (toMatrix n d A) := by
  have hE := hlll_exit o fuel delta verbose _ s' status
    (fresh_inv o junk n d A forU method longFlag vd S thr nb False (fun h => h.elim)) (le_refl d) h
  obtain ⟨W, hW, hB, -⟩ := hE.inv.uni
  refine ⟨hE.inv.hn, hE.inv.hd, ?_⟩
  simp only [Lat.getbase]
  rw [hB, lattice_mul_unit _ _ hW]

/-- **C02, C03.** With `forU`, independent columns and a sequential reduction (one thread, or a
threshold at least the dimension), `A * getU() = getbase()` and `getU()` is unimodular, on every exit
and for every floating point behaviour. -/
theorem C02_transformation (junk : F) (n d : Nat) (A : Mat Int) (method : Int)
    (longFlag : Bool) (vd : Int) (S : Nat) (thr : Int) (nb : Nat)
    (hseq : S = 1 ∨ (d : Int) ≤ thr + 1) (hA : FullColumnRank (toMatrix n d A))
    (fuel : Nat) (delta : F) (verbose : Bool) (status : Int) (s' : Lat F)
    (h : hlll o fuel delta verbose
      (fresh o junk n d A true method longFlag vd S thr nb) = some (status, s')) :
    s'.getU.rows = d ∧ s'.getU.cols = d ∧
      toMatrix n d A * toMatrix d d s'.getU.M = toMatrix n d s'.getbase.M := by
  have hE := hlll_exit o fuel delta verbose _ s' status
    (fresh_inv o junk n d A true method longFlag vd S thr nb True (fun _ => ⟨rfl, hA, hseq⟩))
    (le_refl d) h
  obtain ⟨W, hW, hB, hU⟩ := hE.inv.uni
  have ht := hE.inv.tr trivial
  simp only [Lat.getU, ht, if_true, Lat.getbase]
  exact ⟨hE.inv.hd, hE.inv.hd, by rw [hU trivial, hB]⟩

theorem C03_getU_unimodular (junk : F) (n d : Nat) (A : Mat Int) (method : Int)
    (longFlag : Bool) (vd : Int) (S : Nat) (thr : Int) (nb : Nat)
    (hseq : S = 1 ∨ (d : Int) ≤ thr + 1) (hA : FullColumnRank (toMatrix n d A))
    (fuel : Nat) (delta : F) (verbose : Bool) (status : Int) (s' : Lat F)
    (h : hlll o fuel delta verbose
      (fresh o junk n d A true method longFlag vd S thr nb) = some (status, s')) :
    Unimodular (toMatrix d d s'.getU.M) := by
  have hE := hlll_exit o fuel delta verbose _ s' status
    (fresh_inv o junk n d A true method longFlag vd S thr nb True (fun _ => ⟨rfl, hA, hseq⟩))
    (le_refl d) h
  obtain ⟨W, hW, hB, hU⟩ := hE.inv.uni
  have ht := hE.inv.tr trivial
  simp only [Lat.getU, ht, if_true]
  rw [hU trivial]
  exact unimodular_of_isUnit hW

/-- Without `forU`, `getU()` returns the empty matrix. -/
theorem C03_getU_without_transform (junk : F) (n d : Nat) (A : Mat Int) (method : Int)
    (longFlag : Bool) (vd : Int) (S : Nat) (thr : Int) (nb : Nat)
    (fuel : Nat) (delta : F) (verbose : Bool) (status : Int) (s' : Lat F)
    (h : hlll o fuel delta verbose
      (fresh o junk n d A false method longFlag vd S thr nb) = some (status, s')) :
    s'.getU.rows = 0 ∧ s'.getU.cols = 0 := by
  have hE := hlll_exit o fuel delta verbose _ s' status
    (fresh_inv o junk n d A false method longFlag vd S thr nb False (fun h => h.elim))
    (le_refl d) h
  have : s'.transf = false := hE.cfg.transf
  simp [Lat.getU, this]

/-- **C04.** The Gram determinant (squared volume) of the basis is preserved. -/
theorem C04_volume (junk : F) (n d : Nat) (A : Mat Int) (forU : Bool) (method : Int)
    (longFlag : Bool) (vd : Int) (S : Nat) (thr : Int) (nb : Nat)
    (fuel : Nat) (delta : F) (verbose : Bool) (status : Int) (s' : Lat F)
    (h : hlll o fuel delta verbose
      (fresh o junk n d A forU method longFlag vd S thr nb) = some (status, s')) :
    ((toMatrix n d s'.getbase.M)ᵀ * toMatrix n d s'.getbase.M).det =
      ((toMatrix n d A)ᵀ * toMatrix n d A).det := by
  have hE := hlll_exit o fuel delta verbose _ s' status
    (fresh_inv o junk n d A forU method longFlag vd S thr nb False (fun h => h.elim)) (le_refl d) h
  obtain ⟨W, hW, hB, -⟩ := hE.inv.uni
  simp only [Lat.getbase]
  rw [hB, gram_det_mul_unit _ _ hW]

/-- **C14.** At most `nblov_max` tests are ever done, and no more swaps than tests. -/
theorem C14_test_budget (junk : F) (n d : Nat) (A : Mat Int) (forU : Bool) (method : Int)
    (longFlag : Bool) (vd : Int) (S : Nat) (thr : Int) (nb : Nat)
    (fuel : Nat) (delta : F) (verbose : Bool) (status : Int) (s' : Lat F)
    (h : hlll o fuel delta verbose
      (fresh o junk n d A forU method longFlag vd S thr nb) = some (status, s')) :
    s'.nblov ≤ nb ∧ s'.nbswaps ≤ s'.nblov ∧ (status = 0 ∨ status = -1) := by
  have hE := hlll_exit o fuel delta verbose _ s' status
    (fresh_inv o junk n d A forU method longFlag vd S thr nb False (fun h => h.elim)) (le_refl d) h
  have h1 := hE.lov
  have h2 := hE.sw
  simp only [fresh, newLattice, Lat.setNumS, Lat.setNblovMax] at h1 h2
  exact ⟨by omega, by omega, hE.status⟩

/-- **C15.** If `hlll` returns 0 before the budget is exhausted, the number of tests is
`d-1 + 2*swaps - (swaps at the first position)`. -/
theorem C15_tests_versus_swaps (junk : F) (n d : Nat) (hd : 0 < d) (A : Mat Int) (forU : Bool)
    (method : Int) (longFlag : Bool) (vd : Int) (S : Nat) (thr : Int) (nb : Nat)
    (fuel : Nat) (delta : F) (verbose : Bool) (s' : Lat F)
    (h : hlll o fuel delta verbose
      (fresh o junk n d A forU method longFlag vd S thr nb) = some (0, s'))
    (hb : s'.nblov < nb) :
    (∃ first ≤ s'.nbswaps, s'.nblov + first = (d - 1) + 2 * s'.nbswaps) ∧
      (s'.nblov = d - 1 ↔ s'.nbswaps = 0) := by
  have hE := hlll_exit o fuel delta verbose _ s' 0
    (fresh_inv o junk n d A forU method longFlag vd S thr nb False (fun h => h.elim)) (le_refl d) h
  have hnm : s'.nblovMax = nb := hE.cfg.nblovMax
  obtain ⟨w, w1, e1, e2, e3⟩ := hE.done rfl (by omega)
  simp only [fresh, newLattice, Lat.setNumS, Lat.setNblovMax] at e1 e3
  refine ⟨⟨w1, by omega, by omega⟩, by omega⟩

/-- **C17.** `hlll` restores the global `verboseDepth` on every exit. -/
theorem C17_verboseDepth_restored (junk : F) (n d : Nat) (A : Mat Int) (forU : Bool) (method : Int)
    (longFlag : Bool) (vd : Int) (S : Nat) (thr : Int) (nb : Nat)
    (fuel : Nat) (delta : F) (verbose : Bool) (status : Int) (s' : Lat F)
    (h : hlll o fuel delta verbose
      (fresh o junk n d A forU method longFlag vd S thr nb) = some (status, s')) :
    s'.verboseDepth = vd :=
  (hlll_exit o fuel delta verbose _ s' status
    (fresh_inv o junk n d A forU method longFlag vd S thr nb False (fun h => h.elim))
    (le_refl d) h).cfg.verboseDepth

/-- **C05.** Structural zeros: with `p` the least nondecreasing profile of the input columns, the
output has a nondecreasing profile, bounded by the profile of the last column; in particular rows
that are zero in the whole input stay zero. -/
theorem C05_zero_rows_stay_zero (junk : F) (n d : Nat) (A : Mat Int) (forU : Bool) (method : Int)
    (longFlag : Bool) (vd : Int) (S : Nat) (thr : Int) (nb : Nat)
    (fuel : Nat) (delta : F) (verbose : Bool) (status : Int) (s' : Lat F)
    (h : hlll o fuel delta verbose
      (fresh o junk n d A forU method longFlag vd S thr nb) = some (status, s'))
    (r : Nat) (hr : r < n) (hz : ∀ j < d, A j r = 0) (j : Nat) (hj : j < d) :
    s'.getbase.M j r = 0 := by
  have hE := hlll_exit o fuel delta verbose _ s' status
    (fresh_inv o junk n d A forU method longFlag vd S thr nb False (fun h => h.elim)) (le_refl d) h
  obtain ⟨W, hW, hB, -⟩ := hE.inv.uni
  have := congrFun (congrFun hB ⟨r, hr⟩) ⟨j, hj⟩
  simp only [toMatrix, Matrix.mul_apply, of_apply] at this
  simp only [Lat.getbase]
  rw [this]
  exact Finset.sum_eq_zero fun k _ => by rw [hz k k.2]; simp

/-! ### Non-vacuity: a concrete run -/

/-- A concrete object on the basis with columns (5,0), (3,1). -/
def ex1 : Lat Int := fresh toyOps 0 2 2 (ofCols [[5, 0], [3, 1]]) true 0 true 0 1 1000000 100

/-- It terminates with status 0 after one swap, and the basis really changes. -/
example : ∃ s', hlll toyOps 20 toy99 true ex1 = some (0, s') ∧
    toCols 2 2 s'.B = [[-2, 1], [1, 2]] ∧ s'.nbswaps = 1 ∧ s'.nblov = 2 := by
  have h : (((hlll toyOps 20 toy99 true ex1).map fun r =>
      (r.1, toCols 2 2 r.2.B, r.2.nbswaps, r.2.nblov)) ==
        some (0, [[-2, 1], [1, 2]], 1, 2)) = true := by decide +kernel
  rw [beq_iff_eq, Option.map_eq_some_iff] at h
  obtain ⟨⟨st, s'⟩, h1, h2⟩ := h
  simp only [Prod.mk.injEq] at h2
  obtain ⟨rfl, a, b, c⟩ := h2
  exact ⟨s', h1, a, b, c⟩

/-- Its columns are independent. -/
example : FullColumnRank (toMatrix 2 2 (ofCols [[5, 0], [3, 1]])) := by
  have : (toMatrix 2 2 (ofCols [[5, 0], [3, 1]])).det ≠ 0 := by
    rw [Matrix.det_fin_two]; decide
  exact Matrix.linearIndependent_cols_of_det_ne_zero this

end HPLLL.Props
