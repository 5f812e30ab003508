import Verif.Model.Toy
import Mathlib.Data.Nat.Sqrt
/-!
A computable floating point arithmetic with `p` significant bits and no limit on exponents, used only
for concrete runs (non-vacuity examples).  It is *not* a model of any code in /repo.
-/

namespace HPLLL

/-- Truncation to `p` significant bits (or `p + 1`). -/
def rdQ (p : Nat) (x : Rat) : Rat :=
  let ln := x.num.natAbs.log2
  let ld := x.den.log2
  mkRat (x.num * 2 ^ (p + ld) / (x.den * 2 ^ ln : Nat) * 2 ^ ln) (2 ^ (p + ld))

/-- Integer square root: Newton iteration, checked. -/
def isqrtC (n : Nat) : Nat :=
  let c := isqrt n
  if c * c ≤ n ∧ n < (c + 1) * (c + 1) then c else Nat.sqrt n

def sqrtQ (p : Nat) (x : Rat) : Rat :=
  rdQ p (mkRat (isqrtC (x.num.toNat * x.den * 4 ^ p)) (x.den * 2 ^ p))

def ratOps (p : Nat) : FPOps Rat where
  zero := 0
  one := 1
  tenth := rdQ p (mkRat 1 10)
  hundredth := rdQ p (mkRat 1 100)
  eps := rdQ p (mkRat 1 100000000000)
  ofZ := fun z => rdQ p z
  toZ := fun x => x.floor
  add := fun a b => rdQ p (a + b)
  sub := fun a b => rdQ p (a - b)
  mul := fun a b => rdQ p (a * b)
  div := fun a b => rdQ p (a / b)
  addmul := fun r a b => if b.num = 0 then r else rdQ p (r + rdQ p (a * b))
  submul := fun r a b => if b.num = 0 then r else rdQ p (r - rdQ p (a * b))
  neg := fun x => -x
  abs := fun x => if x.num < 0 then -x else x
  sqrt := fun x => sqrtQ p x
  rnd := fun x => (x + mkRat 1 2).floor
  isZero := fun x => decide (x.num = 0)
  le := fun a b => decide (a ≤ b)
  lt := fun a b => decide (a < b)
  getSiExp := fun x => (x.floor, 0)

end HPLLL
