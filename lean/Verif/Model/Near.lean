import Verif.Model.Rfloat
/-!
Binary floating point arithmetic with `p` significant bits, round to nearest even, no limit on
exponents, over the rational numbers.  With `p = 53` it computes what IEEE double precision computes as
long as no overflow or underflow occurs (`FP_NR<double>`), in general what `FP_NR<mpfr_t>` computes with
precision `p`.  It is used only for concrete runs; it is *not* a model of code in /repo.
-/

namespace HPLLL

/-- `N / D` rounded to the nearest integer, ties to even. -/
def divNear (N D : Nat) : Nat :=
  let q := N / D
  let r := N % D
  if 2 * r < D then q else if D < 2 * r then q + 1 else if q % 2 = 0 then q else q + 1

/-- Nearest number with `p` significant bits, ties to even. -/
def rnQ (p : Nat) (x : Rat) : Rat :=
  let a := x.num.natAbs
  let ln := a.log2
  let ld := x.den.log2
  let N := a * 2 ^ (p + ld)
  let k := if 2 ^ p ≤ N / (x.den * 2 ^ ln) then ln + 1 else ln
  mkRat (x.num.sign * (divNear N (x.den * 2 ^ k) * 2 ^ k : Nat)) (2 ^ (p + ld))

/-- Square root: `p + 8` correct bits or more, a sticky bit if inexact, then rounded. -/
def rnSqrt (p : Nat) (x : Rat) : Rat :=
  let N := x.num.toNat * x.den * 4 ^ (p + 8)
  let s := isqrtC N
  rnQ p (mkRat (if s * s = N then 2 * s else 2 * s + 1) (x.den * 2 ^ (p + 9)))

/-- Nearest integer, ties to even. -/
def rintQ (x : Rat) : Int := x.num.sign * (divNear x.num.natAbs x.den : Nat)

/-- The arithmetic.  Numbers are not required to be representable; adding a product with a factor zero
to a representable number does not change it, and this is extended to all numbers. -/
def nearOps (p : Nat) : FPOps Rat where
  zero := 0
  one := 1
  tenth := rnQ p (mkRat 1 10)
  hundredth := rnQ p (mkRat 1 100)
  eps := rnQ p (mkRat 1 100000000000)
  ofZ := fun z => rnQ p z
  toZ := rintQ
  add := fun a b => rnQ p (a + b)
  sub := fun a b => rnQ p (a - b)
  mul := fun a b => rnQ p (a * b)
  div := fun a b => rnQ p (a / b)
  addmul := fun r a b => if b.num = 0 then r else rnQ p (r + rnQ p (a * b))
  submul := fun r a b => rnQ p (r - rnQ p (a * b))
  neg := fun x => -x
  abs := fun x => if x.num < 0 then -x else x
  sqrt := fun x => rnSqrt p x
  rnd := fun x => rintQ x
  isZero := fun x => decide (x.num = 0)
  le := fun a b => decide (a ≤ b)
  lt := fun a b => decide (a < b)
  getSiExp := fun x => (rintQ x, 0)

end HPLLL
