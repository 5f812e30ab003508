import Verif.Model.Cond
/-!
# Model of the values printed by `isreduced` (src/hlll.cc:2301-2512)

`R` is the triangular factor at the time of printing: after `householder()` for the first block, after
`hlll(deltain)` for the second one ("further").
-/

namespace HPLLL

variable {F : Type} (o : FPOps F)

/-- The values of one block of messages. -/
structure Printed (F : Type) where
  delta : F
  b1 : F
  vol : F
  eta : F
  theta : F
  alpha : F

/-- `fp_norm_sq` on an integer column (mat.h:978-984). -/
def zNormSq (v : Nat → Int) (n : Nat) : Int :=
  forRange 1 n (fun i acc => acc + v i * v i) (v 0 * v 0)

/-- `||b_1||` (hlll.cc:2331-2333, 2447-2449). -/
def printedB1 (n : Nat) (B : Mat Int) : F := o.sqrt (o.ofZ (zNormSq (B 0) n))

/-- `Vol(L)` (hlll.cc:2340-2344, 2457-2461). -/
def printedVol (d : Nat) (R : Mat F) : F :=
  o.abs (forRange 1 d (fun k s => o.mul s (R k k)) (R 0 0))

/-- `eta` of the first block (hlll.cc:2350-2369).  `R(i,j)` is `R j i` in the model. -/
def printedEta (theta : F) (d : Nat) (R : Mat F) : F :=
  forRange 0 (d - 1) (fun i eta => forRange (i + 1) d (fun j eta =>
    let v := o.sub (o.abs (R j i)) (o.mul theta (R j j))
    if o.lt o.zero v then
      let v := o.abs (o.div v (R i i))
      if o.lt eta v then v else eta
    else eta) eta) o.zero

/-- `eta` of the second block (hlll.cc:2467-2480): the absolute value is taken before the division
by `R(i,i)`. -/
def printedEta2 (theta : F) (d : Nat) (R : Mat F) : F :=
  forRange 0 (d - 1) (fun i eta => forRange (i + 1) d (fun j eta =>
    let v := o.div (o.abs (o.sub (o.abs (R j i)) (o.mul theta (R j j)))) (R i i)
    if o.lt eta v then v else eta) eta) o.zero

/-- `alpha` (hlll.cc:2371-2387, 2482-2498). -/
def printedAlpha (delta eta theta : F) : F :=
  let alpha := o.mul (o.add (o.mul theta theta) o.one) delta
  let alpha := o.sqrt (o.sub alpha (o.mul eta eta))
  let alpha := o.add (o.mul eta theta) alpha
  o.div alpha (o.sub delta (o.mul eta eta))

/-- First block of messages (hlll.cc:2301-2400), `theta` being the constant 0.00001. -/
def printed1 (theta : F) (n d : Nat) (B : Mat Int) (R : Mat F) : Printed F :=
  let delta := printedDelta o d R
  let eta := printedEta o theta d R
  { delta := delta, b1 := printedB1 o n B, vol := printedVol o d R, eta := eta, theta := theta
    alpha := printedAlpha o delta eta theta }

/-- Second block of messages (hlll.cc:2424-2503), `theta` being the constant 0.001. -/
def printed2 (theta : F) (n d : Nat) (B : Mat Int) (R : Mat F) : Printed F :=
  let delta := printedDelta o d R
  let eta := printedEta2 o theta d R
  { delta := delta, b1 := printedB1 o n B, vol := printedVol o d R, eta := eta, theta := theta
    alpha := printedAlpha o delta eta theta }

/-- `isreduced(delta)` with its messages (hlll.cc:2274-2512): the first block, the second one if the
status is not 0 with the number printed as "#non-trivial swaps" (`nblov - d + 1`, computed in
`unsigned int`), the value returned and the object. -/
def Lat.isreducedMsg (junk : F) (theta1 theta2 : F) (fuel : Nat) (deltab : F) (s : Lat F) :
    Option (Printed F × Option (Int × Printed F) × Int × Lat F) :=
  let p := s.isreducedPrep o junk
  match hlll o fuel deltab true p with
  | none => none
  | some (_, s1) =>
    some (printed1 o theta1 p.n p.d p.B p.fp.R,
      (if s1.nblov = s1.d - 1 then none
        else some (((s1.nblov : Int) - s1.d + 1) % 4294967296, printed2 o theta2 s1.n s1.d s1.B s1.fp.R)),
      (if s1.nblov = s1.d - 1 then 0 else -1), s1.setprec o junk)

end HPLLL
