import Verif.Model.Nullspace
import Verif.Model.Trunc
import Verif.Model.History
/-!
# Model of `nullspace_lll` with several shifts (src/nullspace.cc:460-549)

`M j i` is C++ `M(i,j)`.
-/

namespace HPLLL

variable {F : Type} (o : FPOps F)

/-- `shift_in(B, lalpha, nrows)` (mat.h:1054-1060) for any `lalpha`: `mul_2si` on the first `nrows` rows. -/
def shiftIn2si (cols nrows : Nat) (lalpha : Int) (B : Mat Int) : Mat Int :=
  forRange 0 cols (fun j B =>
    forRange 0 nrows (fun i B => setEntry B i j (mul2si (B j i) lalpha)) B) B

/-- Variables of the loop: the matrix `B`, the object `Bt`, `current_shift`. -/
structure ShiftState (F : Type) where
  B : Mat Int
  L : Lat F
  shift : Int

/-- Body of the loop up to the product `matprod_in(B, Bt.getU())` (nullspace.cc:486-501).  `ex` is the
number of digits computed by `trunc`; the value returned by `hlll` is not looked at. -/
def shiftStep (ex : Int → Nat) (fuel : Nat) (delta : F) (d n : Nat) (lsigma : Int)
    (s : ShiftState F) : Option (ShiftState F) :=
  let shift := s.shift + lsigma
  let BL := shiftIn2si n d shift s.B
  match hlll o fuel delta true (s.L.put (trunc ex BL d n (d + n) (lsigma + n) 0 s.L.B)) with
  | none => none
  | some (_, L) => some ⟨matprodIn (d + n) n L.getU.M s.B, L, shift⟩

/-- `while (notfound)` (nullspace.cc:483-528); `fuel` bounds each reduction and `rounds` the number of shifts. -/
def shiftLoop (ex : Int → Nat) (fuel : Nat) (delta : F) (d n : Nat) (lsigma : Int) :
    Nat → ShiftState F → Option (ShiftState F)
  | 0, _ => none
  | rounds + 1, s =>
    match shiftStep o ex fuel delta d n lsigma s with
    | none => none
    | some s =>
      if (n : Int) - d ≤ (zeroCols d n s.B).length then some s
      else shiftLoop ex fuel delta d n lsigma rounds s

/-- State before the loop (nullspace.cc:463-477). -/
def shiftStart (junk : F) (vd : Int) (alpha d n : Nat) (A : Mat Int) : ShiftState F where
  B := nullLllInput alpha d A
  L := newLattice o junk (d + n) n (nullLllInput alpha d A) true 0 true vd
  shift := -(maxbitsizeRows 0 d n (nullLllInput alpha d A) : Int)

/-- `nullspace_lll(C, A, lalpha, lsigma, method)` with `lsigma != 0` (nullspace.cc:352-383, 460-549), `A` of
size `d × n`; `delta` is 0.999999999.  The `ub` flag is that of the object `Bt`. -/
def nullspaceShifts (ex : Int → Nat) (junk : F) (fuel rounds : Nat) (delta : F) (vd : Int)
    (alpha d n : Nat) (lsigma : Int) (A : Mat Int) : Option NullRes :=
  match shiftLoop o ex fuel delta d n lsigma rounds (shiftStart o junk vd alpha d n A) with
  | none => none
  | some s =>
    let z := zeroCols d n s.B
    some ⟨z.length, ⟨n, z.length, fun j i => s.B (z.getD j 0) (i + d)⟩, s.L.ub⟩

end HPLLL
