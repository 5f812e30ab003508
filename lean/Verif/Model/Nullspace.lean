import Verif.Model.Decomp
import Verif.Model.MatH
/-!
# Model of the integer nullspace functions (src/nullspace.h, src/nullspace.cc)

`M j i` is C++ `M(i,j)`.  The nullspace is the output argument `C`; the model returns the value of the
function, the final `C` and the flag `ub` of the decomposition object.  Pairs of transpositions
(`transpose(B, F.getbase())` then `B(i,j)`) are composed.
-/

namespace HPLLL

/-- Value returned, matrix `C` afterwards, index outside an array during the decomposition. -/
structure NullRes where
  ret : Int
  C : ZMat
  ub : Bool

/-- Column `j` is zero on its first `d` rows (nullspace.cc:69-77, 223-233, 435-446). -/
def isZeroCol (d : Nat) (M : Mat Int) (j : Nat) : Bool := (List.range d).all fun i => M j i == 0

/-- Indices of the zero columns among the first `n`, in increasing order. -/
def zeroCols (d n : Nat) (M : Mat Int) : List Nat := (List.range n).filter (isZeroCol d M)

section
variable {F : Type} (o : FPOps F)

/-- `nullspace_direct_decomp(C, A)` (nullspace.cc:44-111), `A` of size `d × n`; `gamma` is 1.1547005384
and `gap` the default `confidence_gap`; the value returned by `decomp` is not looked at. -/
def nullspaceDirect (fp : FPart F) (junk : F) (fuel : Nat) (gamma gap : F) (d n : Nat) (A : Mat Int)
    (C : ZMat) : Option NullRes :=
  match zDecomp o junk fuel gamma gap d (newZFgas fp d n A true 0) with
  | none => none
  | some (_, s) =>
    let z := zeroCols d n s.zgetbase.M
    if (z.length : Int) ≠ (n : Int) - d then some ⟨-1, C, s.ub⟩
    else some ⟨z.length, ⟨n, n - d, fun j i => s.zgetU.M (z.getD j 0) i⟩, s.ub⟩

/-- `fgasgen` input of `nullspace_hjls` (nullspace.cc:263-267): the `n × (n+d)` matrix `[Aᵀ | I]`.
fplll's `ZZ_mat` is zero after `resize`. -/
def hjlsInput (d : Nat) (A : Mat Int) : Mat Int :=
  fun j i => if j < d then A i j else if j = d + i then 1 else 0

/-- End of `nullspace_indirect_decomp` and `nullspace_hjls` (nullspace.cc:213-245, 297-329): product
`A * C`, number of zero columns. -/
def nullCheck (d n : Nat) (A : Mat Int) (C : ZMat) (ub : Bool) : NullRes :=
  let ZM := matprod d n (n - d) A C.M fun _ _ => 0
  let nullity := (zeroCols d (n - d) ZM).length
  if (nullity : Int) ≠ (n : Int) - d then ⟨-1, C, ub⟩ else ⟨nullity, C, ub⟩

/-- `nullspace_hjls(C, A, setprec)` (nullspace.cc:254-330); `gamma` is 1.1414.  `F.setprec` reallocates
the floating point storage (`fp`). -/
def nullspaceHjls (fp : FPart F) (junk : F) (fuel : Nat) (gamma gap : F) (d n : Nat) (A : Mat Int)
    (C : ZMat) : Option NullRes :=
  match zDecomp o junk fuel gamma gap ((n : Int) - d)
      (newZFgas fp n (n + d) (hjlsInput d A) false d) with
  | none => none
  | some (flag, s) =>
    if flag < 0 then some ⟨-1, C, s.ub⟩
    else some (nullCheck d n A ⟨n, n - d, fun j i => s.zgetV.M (2 * d + j) (d + i)⟩ s.ub)

end

section
variable {X F : Type} (q : XOps X F)

/-- Matrix `B` of `fgasgen` (nullspace.cc:137-149), `n × (n+d)`: `[Aᵀ | I]`, where only the diagonal of
the second block is written; the other entries are those of a new `matrix<FP_NR<RT>>`
(`junkX`: NaN for `mpfr_t`). -/
def fgasgenIn (junkX : X) (d : Nat) (A : Mat Int) : Mat X :=
  fun j i => if j < d then q.ofZ (A i j) else if j = d + i then q.one else junkX

/-- `getR()` of `Fgas` (decomp.cc:847-866): upper trapezoidal part of `R`. -/
def Fg.fgetR (zero : F) (s : Fg X F) : Mat F := fun j i => if i ≤ j then s.fp.R j i else zero

/-- `fgasgen(F, A, setprec)` (nullspace.cc:122-169), where `FT = RT` (`oX` is the arithmetic of `RT`,
`qX` the same as matrix entries): the last `n - d` rows and `n` columns of the triangular factor. -/
def fgasgen (oX : FPOps X) (qX : XOps X X) (fpX : FPart X) (junkX : X) (d n : Nat) (A : Mat Int) :
    Mat X :=
  let G := (newFgas fpX n (n + d) (fgasgenIn qX junkX d A) (fgasgenIn qX junkX d A) false 0).householder oX qX
  fun j i => G.fgetR oX.zero (d + j) (d + i)

/-- `nullspace_indirect_decomp(C, A, setprec)` (nullspace.cc:173-247). -/
def nullspaceIndirect (o : FPOps F) (oX : FPOps X) (qX : XOps X X) (fpX : FPart X) (junkX : X)
    (fp : FPart F) (fuel : Nat) (p : FgPar X F) (d n : Nat) (A : Mat Int) (C : ZMat) :
    Option NullRes :=
  let FF := fgasgen oX qX fpX junkX d n A
  match fDecomp o q fuel { p with targetdim := (n : Int) - d } (newFgas fp (n - d) n FF FF false 0) with
  | none => none
  | some (flag, s) =>
    if flag < 0 then some ⟨-1, C, s.ub⟩
    else some (nullCheck d n A ⟨n, n - d, fun j i => s.fgetV.M (d + j) i⟩ s.ub)

end

/-- The matrix `[2^alpha A; I]` of `nullspace_lll` (nullspace.cc:368-378), `(d+n) × n`. -/
def nullLllInput (alpha d : Nat) (A : Mat Int) : Mat Int :=
  fun j i => if i < d then A j i * 2 ^ alpha else if i = d + j then 1 else 0

/-- `nullspace_lll(C, A, lalpha, 0, HLLL)` (nullspace.cc:352-458, 533-549): unique shift, with
`Lattice::hlll`; the value returned by `hlll` is not looked at. -/
def nullspaceLll {F : Type} (o : FPOps F) (junk : F) (fuel : Nat) (delta : F) (vd : Int) (alpha d n : Nat)
    (A : Mat Int) (C : ZMat) : Option NullRes :=
  match hlll o fuel delta true
      (newLattice o junk (d + n) n (nullLllInput alpha d A) false 0 true vd) with
  | none => none
  | some (_, s) =>
    let z := zeroCols d n s.getbase.M
    if (z.length : Int) < (n : Int) - d then some ⟨-1, C, s.ub⟩
    else some ⟨z.length, ⟨n, z.length, fun j i => s.getbase.M (z.getD j 0) (i + d)⟩, s.ub⟩

end HPLLL
