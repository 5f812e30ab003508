import Verif.Model.MatH
/-!
# Model of the generators of real vectors with relations (src/matgen.cc 372-530)

The elementary functions are uninterpreted.  A vector of length `n` is a function of the index, `none` stands for
an access out of range (`n = 0`).
-/

namespace HPLLL

variable {F : Type}

/-- The operations of `FP_NR` used by the generators; `ofInt` is the conversion of a constant (`2.0`) or of
`(double) s`. -/
structure ElemOps (F : Type) where
  ofInt : Int → F
  add : F → F → F
  sub : F → F → F
  div : F → F → F
  neg : F → F
  abs : F → F
  log : F → F
  exp : F → F
  ltZero : F → Bool

/-- `exp(log(a) / r)` (matgen.cc:394-398, 400-404). -/
def genRoot (o : ElemOps F) (a r : Int) : F := o.exp (o.div (o.log (o.ofInt a)) (o.ofInt r))

/-- The loop `beta += alpha; v_i = exp(beta)` (matgen.cc:411-416); with `alt` the entries of odd index are negated
(matgen.cc:487-493). -/
def genPowers (o : ElemOps F) (alt : Bool) (alpha : F) (n : Nat) (v : Nat → F) : Nat → F :=
  (forRange 1 n (fun i (s : F × (Nat → F)) =>
      let beta := o.add s.1 alpha
      let e := o.exp beta
      (beta, fun k => if k = i then (if alt && i % 2 > 0 then o.neg e else e) else s.2 k))
    (o.ofInt 0, fun k => if k = 0 then o.ofInt 1 else v k)).2

/-- `gen3r2s(fpv, n, r, s)` (matgen.cc:421-453; the version for matrices, matgen.cc:386-419, has the same body);
`v` is the content of the fresh storage. -/
def gen3r2s (o : ElemOps F) (n : Nat) (r s : Int) (v : Nat → F) : Option (Nat → F) :=
  if n = 0 then none
  else
    let l2 := genRoot o 2 s
    let l3 := genRoot o 3 r
    let alpha := o.log (o.sub l3 l2)
    some (genPowers o false alpha n v)

/-- One row of `gen3r2s7t5u` (matgen.cc:468-493 and 498-527). -/
def genAltRow (o : ElemOps F) (n : Nat) (a r b s : Int) (v : Nat → F) : Nat → F :=
  let l2 := genRoot o b s
  let l3 := genRoot o a r
  let alpha := o.sub l3 l2
  let alpha := if o.ltZero alpha then o.abs alpha else alpha
  genPowers o true (o.log alpha) n v

/-- `gen3r2s7t5u(B, n, r, s, t, u)` (matgen.cc:457-530): the two rows. -/
def gen3r2s7t5u (o : ElemOps F) (n : Nat) (r s t u : Int) (v : Nat → Nat → F) :
    Option ((Nat → F) × (Nat → F)) :=
  if n = 0 then none
  else some (genAltRow o n 3 r 2 s (v 0), genAltRow o n 7 t 5 u (v 1))

end HPLLL
