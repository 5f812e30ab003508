import Verif.Model.Lattice
/-!
A computable instance of the floating point interface, used only for concrete runs (witnesses and
non-vacuity examples): fixed point arithmetic with 64 fractional bits (the number `a` stands for
`a / 2^64`), round to nearest with `±1/2 ↦ 0`.  It is *not* a model of any code in /repo.
-/

namespace HPLLL

/-- Newton iteration for integer square roots (fuelled). -/
def isqrtAux (n : Nat) : Nat → Nat → Nat
  | 0, x => x
  | fuel + 1, x =>
    let y := (x + n / x) / 2
    if y < x then isqrtAux n fuel y else x

def isqrt (n : Nat) : Nat := if n = 0 then 0 else isqrtAux n 400 (2 ^ (n.log2 / 2 + 1))

def toyScale : Int := 2 ^ 64

/-- Round to nearest integer, ties towards zero. -/
def toyRnd (x : Int) : Int :=
  if 0 ≤ x then -((-(x - toyScale / 2)) / toyScale) else (x + toyScale / 2) / toyScale

def toyOps : FPOps Int where
  zero := 0
  one := toyScale
  tenth := toyScale / 10
  hundredth := toyScale / 100
  eps := toyScale / 100000000000
  ofZ := fun z => z * toyScale
  toZ := fun x => x / toyScale
  add := (· + ·)
  sub := (· - ·)
  mul := fun a b => a * b / toyScale
  div := fun a b => if b = 0 then 0 else a * toyScale / b
  addmul := fun r a b => r + a * b / toyScale
  submul := fun r a b => r - a * b / toyScale
  neg := fun x => -x
  abs := fun x => if x < 0 then -x else x
  sqrt := fun x => isqrt (x.toNat * toyScale.toNat)
  rnd := fun x => toyRnd x * toyScale
  isZero := fun x => x == 0
  le := fun a b => decide (a ≤ b)
  lt := fun a b => decide (a < b)
  getSiExp := fun x => (x / toyScale, 0)

/-- Matrix given by the list of its columns. -/
def ofCols (l : List (List Int)) : Mat Int := fun j i => (l.getD j []).getD i 0

/-- The first `n` rows of the first `d` columns, as a list of columns. -/
def toCols (n d : Nat) (M : Mat Int) : List (List Int) :=
  (List.range d).map fun j => (List.range n).map fun i => M j i

/-- `0.99` -/
def toy99 : Int := toyScale * 99 / 100

end HPLLL
