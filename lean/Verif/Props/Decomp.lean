import Verif.Proof.DecompMain
import Verif.Proof.DecompRel
import Verif.Model.Near
import Verif.Model.Toy
/-!
# The FGAS decompositions `ZFgas::decomp` and `Fgas::decomp`

Every theorem is quantified over the floating point operations, without hypothesis on them.
-/

namespace HPLLL.Props
open HPLLL Spec Matrix

/-! ## Concrete arithmetic for the examples -/

/-- Uninitialised floating point storage, for the concrete runs. -/
def fpZero : FPart Rat :=
  ⟨fun _ _ => 0, fun _ _ => 0, fun _ _ => 0, fun _ _ => 0, fun _ _ => 0, fun _ => 0, 0, 0, fun _ => false,
    fun _ => 0, fun _ => 0⟩

/-- Matrix entries in 53 bit floating point, for the concrete runs. -/
def nearX : XOps Rat Rat :=
  let o := nearOps 53
  ⟨id, fun z => o.ofZ z, 0, 1, o.add, o.sub, o.div, fun r a b => o.add r (o.mul a b),
    fun r a b => o.sub r (o.mul a b), o.abs, o.lt⟩

/-- Exact matrix entries, for the concrete runs. -/
def ratX : XOps Rat Rat :=
  ⟨id, fun z => z, 0, 1, (· + ·), (· - ·), (· / ·), fun r a b => r + a * b, fun r a b => r - a * b,
    fun x => if x < 0 then -x else x, fun a b => decide (a < b)⟩

/-- `1.1547005384` -/
def gamma115 : Rat := mkRat 11547005384 10000000000

/-- The default `confidence_gap` (1e-9). -/
def gapDef : Rat := mkRat 1 1000000000

/-- fplll's `size_in_bits`. -/
def bitSize (z : Int) : Nat := if z = 0 then 0 else z.natAbs.log2 + 1

def parDef (targetdim : Int) (precU : Nat) : FgPar Rat Rat :=
  ⟨gamma115, gapDef, gapDef, 0, targetdim, 10000, bitSize, precU⟩

def ratCols (l : List (List Int)) : Mat Rat := fun j i => ((ofCols l j i : Int) : Rat)

/-! ## C68 -/

/-- **C68, `ZFgas`.** Whatever `decomp` returns and whatever the floating point operations do, no index
is out of range, `getbase()` is the input times a unimodular matrix, which is `getU()` (with
`TRANSFORM`), and whose inverse transpose is `getV()` (without). -/
theorem C68_zfgas {F : Type} (o : FPOps F) (fp : FPart F) (junk gamma gap : F) (d n dec : ℕ)
    (A : Mat Int) (transf : Bool) (targetdim : ℤ) (hd : 0 < d) (hdn : d < n) (hdec : dec < d)
    (ht : targetdim ≤ (d : ℤ) - dec) (fuel : ℕ) (c : ℤ) (s' : Fg Int F)
    (h : zDecomp o junk fuel gamma gap targetdim (newZFgas fp d n A transf dec) = some (c, s')) :
    s'.ub = false ∧ s'.zgetbase.rows = d ∧ s'.zgetbase.cols = n ∧
    ∃ U V : Matrix (Fin n) (Fin n) ℤ, Unimodular U ∧ Unimodular V ∧ Vᵀ * U = 1 ∧
      toMatrix d n s'.zgetbase.M = toMatrix d n A * U ∧
      (transf = true → s'.zgetU.rows = n ∧ s'.zgetU.cols = n ∧ toMatrix n n s'.zgetU.M = U) ∧
      (transf = false → s'.zgetV.rows = n ∧ s'.zgetV.cols = n ∧ toMatrix n n s'.zgetV.M = V) ∧
      lattice (toMatrix d n s'.zgetbase.M) = lattice (toMatrix d n A) := by
  have hub := Dec.zDecomp_safe (s := newZFgas fp d n A transf dec) ⟨hd, hdn, hdec, fun h => by simp [newZFgas] at h⟩
    rfl hd ht h
  obtain ⟨T, W, hA, hM⟩ := Dec.zDecomp_alg (lo := 0) (Or.inl rfl) h hub
  have hl := (Dec.zDecomp_mvs (lo := 0) (s := newZFgas fp d n A transf dec) (Or.inl rfl) h).le
  obtain ⟨e1, e2, e3, e4, e5, e6, -⟩ := hl
  have e1 : s'.d = d := e1
  have e2 : s'.n = n := e2
  have e4 : s'.transf = transf := e4
  have e5 : s'.trU = transf := e5
  have e6 : s'.trW = !transf := e6
  refine ⟨hub, e1, e2, T, W, unimodular_of_isUnit hA.unitT.1, unimodular_of_isUnit hA.unitT.2, hA.inv,
    hM, ?_, ?_, ?_⟩
  · intro ht
    rw [ht] at e4 e5
    simp only [Fg.zgetU, e4, if_true]
    exact ⟨e2, e2, hA.u e5⟩
  · intro ht
    rw [ht] at e4 e6
    simp only [Fg.zgetV, e4]
    exact ⟨e2, e2, hA.w e6⟩
  · show lattice (toMatrix d n s'.M) = _
    rw [hM, lattice_mul_unit _ _ hA.unitT.1]

/-- **C68, `Fgas`, any arithmetic.** `getV()` is unimodular, and it is the inverse transpose of
`getU()` (with `transform`). With a residue, `n ≤ d + dec` is required. -/
theorem C68_fgas {X F : Type} (o : FPOps F) (q : XOps X F) (p : FgPar X F) (fp : FPart F) (d n dec : ℕ)
    (A Y0 : Mat X) (transf : Bool) (hd : 0 < d) (hdn : d < n) (hdec : dec < d)
    (hY : 0 < dec → n ≤ d + dec) (ht : p.targetdim ≤ (d : ℤ) - dec) (fuel : ℕ) (c : ℤ) (s' : Fg X F)
    (h : fDecomp o q fuel p (newFgas fp d n A Y0 transf dec) = some (c, s')) :
    s'.ub = false ∧ s'.fgetV.rows = n ∧ s'.fgetV.cols = n ∧ Unimodular (toMatrix n n s'.fgetV.M) ∧
    (transf = true → s'.fgetU.rows = n ∧ s'.fgetU.cols = n ∧ Unimodular (toMatrix n n s'.fgetU.M) ∧
      (toMatrix n n s'.fgetV.M)ᵀ * toMatrix n n s'.fgetU.M = 1) := by
  have hub := Dec.fDecomp_safe (s := newFgas fp d n A Y0 transf dec)
    ⟨hd, hdn, hdec, fun h => hY (by simpa [newFgas] using h)⟩ rfl hd ht h
  obtain ⟨T, W, hA⟩ := Dec.fDecomp_alg (lo := 0) (Or.inl rfl) h hub
  obtain ⟨e1, e2, e3, e4, e5, e6, -⟩ :=
    (Dec.fDecomp_mvs (lo := 0) (s := newFgas fp d n A Y0 transf dec) (Or.inl rfl) h).le
  have e2 : s'.n = n := e2
  have e4 : s'.transf = transf := e4
  have e5 : s'.trU = (transf || decide (dec = 0)) := e5
  have e6 : s'.trW = true := e6
  have hW : toMatrix n n s'.fgetV.M = W := hA.w e6
  refine ⟨hub, e2, e2, by rw [hW]; exact unimodular_of_isUnit hA.unitT.2, ?_⟩
  intro ht
  rw [ht] at e4 e5
  have hU : toMatrix n n s'.U = T := hA.u e5
  simp only [Fg.fgetU, e4, if_true]
  refine ⟨e2, e2, ?_, ?_⟩
  · rw [hU]; exact unimodular_of_isUnit hA.unitT.1
  · rw [hW, hU]; exact hA.inv

/-- **C68, `Fgas`, exact entries.** The matrix that is decomposed is the input times a unimodular `U`,
the residue is the initial residue times the inverse transpose `V = getV()`; `U = getU()` with
`transform`. -/
theorem C68_fgas_exact {X F : Type} [CommRing X] (o : FPOps F) (q : XOps X F) (hq : ExactEntries q)
    (p : FgPar X F) (fp : FPart F) (d n dec : ℕ)
    (A Y0 : Mat X) (transf : Bool) (hd : 0 < d) (hdn : d < n) (hdec : dec < d)
    (hY : 0 < dec → n ≤ d + dec) (ht : p.targetdim ≤ (d : ℤ) - dec) (fuel : ℕ) (c : ℤ) (s' : Fg X F)
    (h : fDecomp o q fuel p (newFgas fp d n A Y0 transf dec) = some (c, s')) :
    ∃ U V : Matrix (Fin n) (Fin n) ℤ, Unimodular U ∧ Vᵀ * U = 1 ∧ toMatrix n n s'.fgetV.M = V ∧
      (transf = true → toMatrix n n s'.fgetU.M = U) ∧
      (∀ r, r < d → ∀ j : Fin n, s'.M j r = ∑ k : Fin n, A k r * ((U k j : ℤ) : X)) ∧
      (0 < dec → ∀ c, c < dec → ∀ j : Fin n, dec ≤ j.1 →
        s'.Y c (j - dec) = ∑ k : Fin n, if dec ≤ k.1 then ((V k j : ℤ) : X) * Y0 c (k - dec) else 0) := by
  have hub := Dec.fDecomp_safe (s := newFgas fp d n A Y0 transf dec)
    ⟨hd, hdn, hdec, fun h => hY (by simpa [newFgas] using h)⟩ rfl hd ht h
  obtain ⟨T, W, hA, hM, hYe⟩ := Dec.fDecomp_exact hq h hub
  obtain ⟨e1, e2, e3, e4, e5, e6, e7, -⟩ :=
    (Dec.fDecomp_mvs (lo := 0) (s := newFgas fp d n A Y0 transf dec) (Or.inl rfl) h).le
  have e4 : s'.transf = transf := e4
  have e5 : s'.trU = (transf || decide (dec = 0)) := e5
  have e6 : s'.trW = true := e6
  have e7 : s'.trY = decide (0 < dec) := e7
  refine ⟨T, W, unimodular_of_isUnit hA.unitT.1, hA.inv, hA.w e6, ?_, hM.2, ?_⟩
  · intro ht
    rw [ht] at e4 e5
    simp only [Fg.fgetU, e4, if_true]
    exact hA.u e5
  · intro hpos
    exact hYe.2 (by rw [e7]; simpa using hpos)

/-- A 2 × 4 decomposition that ends with value 0 and two zero columns (`ZFgas`). -/
example : (match zDecomp (nearOps 53) 0 100 gamma115 gapDef 2
      (newZFgas fpZero 2 4 (ofCols [[10, 3], [7, 4], [3, 8], [5, 9]]) true 0) with
    | some (c, s) => (c, toCols 2 4 s.zgetbase.M, toCols 4 4 s.zgetU.M, s.ub) ==
        (0, [[0, 0], [0, 0], [0, -1], [-1, 0]],
          [[23, -38, 7, 3], [-16, 27, -3, -4], [-18, 30, -5, -3], [-14, 23, -4, -2]], false)
    | none => false) = true := by decide +kernel

/-- With as many rows as columns, the exchange step uses a column that does not exist. -/
theorem C68_square_out_of_range :
    (match zDecomp (nearOps 53) 0 100 gamma115 gapDef 2
      (newZFgas fpZero 2 2 (ofCols [[10, 3], [7, 4]]) true 0) with
    | some (_, s) => s.ub
    | none => false) = true := by decide +kernel

/-! ## C72: `Fgas::set` -/

/-- The integer matrix that `set` leaves in `getU()`/`getV()`: ones on the diagonal, and outside what
was there before. -/
def kept (n : ℕ) (U : Mat Int) : Matrix (Fin n) (Fin n) ℤ :=
  Matrix.of fun i j => if i = j then 1 else U j i

/-- **C72.** After `set(A)` on an object in any state, with exact entries, `decomp` decomposes the new
matrix `A`; but the transformation is multiplied by what `set` kept of the old one. -/
theorem C72_set_general {X F : Type} [CommRing X] (o : FPOps F) (q : XOps X F) (hq : ExactEntries q)
    (p : FgPar X F) (s : Fg X F) (hW : s.trW = true) (n : ℕ) (hn : s.n = n) (A Y0 : Mat X)
    (fuel : ℕ) (c : ℤ) (s' : Fg X F) (h : fDecomp o q fuel p (s.set A Y0) = some (c, s'))
    (hub : s'.ub = false) :
    ∃ U V : Matrix (Fin n) (Fin n) ℤ, Unimodular U ∧ Vᵀ * U = 1 ∧
      (∀ r, r < s.d → ∀ j : Fin n, s'.M j r = ∑ k : Fin n, A k r * ((U k j : ℤ) : X)) ∧
      toMatrix n n s'.fgetV.M = kept n s.W * V ∧
      (s.trU = true → toMatrix n n s'.U = kept n s.U * U) := by
  have hm := Dec.fDecomp_mvs (lo := 0) (s := s.set A Y0) (Or.inl rfl) h
  obtain ⟨T, W, hR⟩ := Dec.Rel.mvs hq hm (n := n) hn hub
  have hu : IsUnit T.det := by
    have := congrArg Matrix.det hR.inv
    rw [Matrix.det_mul, Matrix.det_transpose, Matrix.det_one] at this
    exact IsUnit.of_mul_eq_one_right _ this
  refine ⟨T, W, unimodular_of_isUnit hu, hR.inv, hR.m, ?_, ?_⟩
  · show toMatrix n n s'.W = _
    rw [(hR.w hW).2]
    congr 1
    ext i j
    simp only [toMatrix, of_apply, Fg.set, kept, hn]
    by_cases hij : i = j
    · subst hij; simp
    · have : ¬ i.1 = j.1 := fun e => hij (Fin.ext e)
      simp [hij, this]
  · intro hU
    rw [(hR.u hU).2]
    congr 1
    ext i j
    simp only [toMatrix, of_apply, Fg.set, kept, hn, hU, if_true]
    by_cases hij : i = j
    · subst hij; simp
    · have : ¬ i.1 = j.1 := fun e => hij (Fin.ext e)
      simp [hij, this]

/-- **C72, negation.** A first decomposition stopped by the test on the size of `U` (value -1), `set`,
and a second decomposition that succeeds: `getU()` is not the transformation of the second matrix
(column 0: `9 * (-14) + 5 * 9 ≠ 0`), and `getV()` is not what a new object gives. -/
theorem C72_set_defect :
    ∃ s1 s2 s3 : Fg Rat Rat,
      fDecomp (nearOps 53) ratX 100 (parDef 1 0)
        (newFgas fpZero 1 2 (ratCols [[10], [7]]) (ratCols []) true 0) = some (-1, s1) ∧
      fDecomp (nearOps 53) ratX 100 (parDef 1 500) (s1.set (ratCols [[9], [5]]) (ratCols [])) =
        some (0, s2) ∧ s2.ub = false ∧
      toCols 2 2 s2.fgetU.M = [[-14, 9], [-3, 2]] ∧ s2.M 0 0 = 0 ∧ s2.M 1 0 = 1 ∧
      fDecomp (nearOps 53) ratX 100 (parDef 1 500)
        (newFgas fpZero 1 2 (ratCols [[9], [5]]) (ratCols []) true 0) = some (0, s3) ∧
      toCols 2 2 s3.fgetU.M = [[-5, 9], [-1, 2]] := by
  have key : (match fDecomp (nearOps 53) ratX 100 (parDef 1 0)
        (newFgas fpZero 1 2 (ratCols [[10], [7]]) (ratCols []) true 0) with
      | some (c1, s1) =>
        c1 = -1 ∧ (match fDecomp (nearOps 53) ratX 100 (parDef 1 500)
            (s1.set (ratCols [[9], [5]]) (ratCols [])) with
          | some (c2, s2) => c2 = 0 ∧ s2.ub = false ∧ toCols 2 2 s2.fgetU.M = [[-14, 9], [-3, 2]] ∧
              s2.M 0 0 = 0 ∧ s2.M 1 0 = 1
          | none => False)
      | none => False) ∧
      (match fDecomp (nearOps 53) ratX 100 (parDef 1 500)
        (newFgas fpZero 1 2 (ratCols [[9], [5]]) (ratCols []) true 0) with
      | some (c3, s3) => c3 = 0 ∧ toCols 2 2 s3.fgetU.M = [[-5, 9], [-1, 2]]
      | none => False) := by
    have kb : ((match fDecomp (nearOps 53) ratX 100 (parDef 1 0)
        (newFgas fpZero 1 2 (ratCols [[10], [7]]) (ratCols []) true 0) with
      | some (c1, s1) =>
        decide (c1 = -1) && (match fDecomp (nearOps 53) ratX 100 (parDef 1 500)
            (s1.set (ratCols [[9], [5]]) (ratCols [])) with
          | some (c2, s2) => decide (c2 = 0 ∧ s2.ub = false ∧
              toCols 2 2 s2.fgetU.M = [[-14, 9], [-3, 2]] ∧ s2.M 0 0 = 0 ∧ s2.M 1 0 = 1)
          | none => false)
      | none => false) &&
      (match fDecomp (nearOps 53) ratX 100 (parDef 1 500)
        (newFgas fpZero 1 2 (ratCols [[9], [5]]) (ratCols []) true 0) with
      | some (c3, s3) => decide (c3 = 0 ∧ toCols 2 2 s3.fgetU.M = [[-5, 9], [-1, 2]])
      | none => false)) = true := by decide +kernel
    rw [Bool.and_eq_true] at kb
    refine ⟨?_, ?_⟩
    · have k1 := kb.1
      split at k1
      · rw [Bool.and_eq_true, decide_eq_true_eq] at k1
        refine ⟨k1.1, ?_⟩
        have k2 := k1.2
        split at k2
        · simpa using k2
        · simp at k2
      · simp at k1
    · have k1 := kb.2
      split at k1
      · simpa using k1
      · simp at k1
  obtain ⟨k1, k3⟩ := key
  split at k1
  · rename_i c1 s1 e1
    obtain ⟨rfl, k2⟩ := k1
    split at k2
    · rename_i c2 s2 e2
      obtain ⟨rfl, k2⟩ := k2
      split at k3
      · rename_i c3 s3 e3
        obtain ⟨rfl, k3⟩ := k3
        exact ⟨s1, s2, s3, e1, e2, k2.1, k2.2.1, k2.2.2.1, k2.2.2.2, e3, k3⟩
      · exact k3.elim
    · exact k2.elim
  · exact k1.elim

/-- The hypotheses of `C72_set_general` hold in the run of `C72_set_defect`. -/
example : ExactEntries ratX := ⟨fun _ _ => rfl, fun _ _ => rfl, fun _ _ _ => rfl, fun _ _ _ => rfl, fun _ => rfl⟩

end HPLLL.Props
