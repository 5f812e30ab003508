import Verif.Model.History
import Verif.Model.Trunc
import Verif.Model.ParMat
/-!
# Model of the integer relation search `FPTuple` (src/relations_z.cc)

`M j i` is C++ `M(i,j)`.  One row of input (`m = 1`, "m=1 for the moment", relations_z.cc:343).
-/

namespace HPLLL

variable {F G : Type}

/-- What the search uses besides its arguments. -/
structure RelEnv (F G : Type) where
  /-- arithmetic of the reductions, content of fresh storage, `delta` (conversion of the argument) -/
  o : FPOps F
  junk : F
  delta : F
  /-- steps allowed to one reduction (a run that needs more is one that is not observed to return) -/
  fuel : Nat
  /-- `lift_truncate` for the integer type `ZT` (`none`: the program exits) -/
  lift : Nat → Nat → Mat Int → Int → Int → Option (Mat Int)
  /-- `call_fplll(TT, UT, ...)`: the matrix `UT` for a given `TT` (fplll is not in /repo) -/
  fplll : Mat Int → Mat Int
  /-- `mpfr` arithmetic of the gap test, and `2^k` -/
  q : FPOps G
  pow2 : Int → G
  /-- member `S`, and the outcome of `pmatprod_in_int` at each iteration -/
  S : Nat
  pprod : Nat → Mat Int → Mat Int → Mat Int
  /-- member `inputgap` (relations_z.cc:222) -/
  inputgap : Int

/-- `Z_NR::abs`. -/
def zabs (a : Int) : Int := a.natAbs

/-- `HLLL` and `FPLLL` (defs.h:76-77). -/
def methodHLLL : Int := 1
def methodFPLLL : Int := 0

/-- The (1+d) × d matrix `A_in`: the row `A`, then the identity (relations_z.cc:339-350). -/
def relInit (d : Nat) (A : Mat Int) : Mat Int :=
  forRange 0 d (fun i M => setEntry M (1 + i) i 1)
    (forRange 0 d (fun j M => setEntry M 0 j (A j 0)) fun _ _ => 0)

/-- The number of bits given to `lift_truncate` (relations_z.cc:434-439). -/
def relBits (d : Nat) (shift truncate : Int) : Int :=
  if truncate = -1 then 0 else if truncate = 0 then shift + 2 * d else truncate

/-- Choice of the column (relations_z.cc:563-583): `(tz, foundcol)`. -/
def relCol (d : Nat) (A : Mat Int) : Int × Nat :=
  forRange 1 d (fun i (p : Int × Nat) => if (zabs (A i 0)) < p.1 then ((zabs (A i 0)), i) else p)
    (if A 0 0 = 0 then 1 else (zabs (A 0 0)), 0)

/-- `maxcol` (relations_z.cc:588-595). -/
def relMaxcol (d : Nat) (A : Mat Int) (col : Nat) (def_ : Int) : Int :=
  forRange 0 d (fun i t => if t < (zabs (A col (1 + i))) then (zabs (A col (1 + i))) else t)
    (mul2si (zabs (A col 0)) def_)

/-- State of the main loop.  `Ts` is a ghost: the matrices given to the reductions so far. -/
structure RelState (F G : Type) where
  A : Mat Int
  Bp : Lat F
  def_ : Int
  newQuot : G
  Ts : List (Mat Int)

/-- Reduction and update of the basis in one iteration (relations_z.cc:446-552). -/
def relReduce (e : RelEnv F G) (d : Nat) (lllmethod : Int) (T : Mat Int) (s : RelState F G) :
    Option (RelState F G) :=
  let prod (A U : Mat Int) : Mat Int :=
    if e.S > 1 then e.pprod s.Ts.length A U else matprodIn (1 + d) d U A
  if lllmethod = methodHLLL then
    match hlll e.o e.fuel e.delta true (s.Bp.assign T) with
    | none => none
    | some (_, Bp) => some { s with Bp := Bp, A := prod s.A Bp.getU.M, Ts := s.Ts ++ [T] }
  else if lllmethod = methodFPLLL then
    let TT := transposeTo (1 + d) d T fun _ _ => 0
    let UT := e.fplll TT
    some { s with A := prod s.A (transposeTo d d UT fun _ _ => 0), Ts := s.Ts ++ [T] }
  else some { s with Ts := s.Ts ++ [T] }

/-- The test at the end of an iteration (relations_z.cc:561-620): the new state, and the column of
the relation if one is reported. -/
def relTest (e : RelEnv F G) (d : Nat) (bitsize gapbits shift : Int) (s : RelState F G) :
    RelState F G × Option Nat :=
  let quot := s.newQuot
  let (tz, col) := relCol d s.A
  let maxcol := relMaxcol d s.A col s.def_
  let newQuot := e.q.div (e.q.ofZ tz) (e.q.ofZ maxcol)
  let gap := e.q.abs (e.q.div newQuot quot)
  let confidence := e.pow2 (-gapbits - shift)
  ({ s with newQuot := newQuot },
    if s.def_ > e.inputgap - bitsize ∧ e.q.lt gap confidence then some col else none)

/-- The value of `def` in the next iteration (relations_z.cc:419-421). -/
def relDef (target shift def_ : Int) : Int := if target - def_ ≤ shift then target else def_ + shift

/-- Main loop (relations_z.cc:413-655); `Sum.inl` is the state on `return 1` with the column. -/
def relLoop (e : RelEnv F G) (d : Nat) (bitsize target gapbits shift truncate lllmethod : Int) :
    Nat → RelState F G → Option (RelState F G × Option Nat)
  | 0, _ => none
  | fuel + 1, s =>
    if s.def_ < target then
      let def_ := relDef target shift s.def_
      match e.lift (1 + d) d s.A def_ (relBits d shift truncate) with
      | none => none
      | some T =>
        match relReduce e d lllmethod T { s with def_ := def_ } with
        | none => none
        | some s1 =>
          match relTest e d bitsize gapbits shift s1 with
          | (s2, some col) => some (s2, some col)
          | (s2, none) => relLoop e d bitsize target gapbits shift truncate lllmethod fuel s2
    else some (s, none)

/-- State before the loop (relations_z.cc:339-408): the object is built on a zero matrix. -/
def relStart (e : RelEnv F G) (d : Nat) (A : Mat Int) (alpha : Int) (sizemethod : Int) (longFlag : Bool) :
    RelState F G :=
  { A := relInit d A
    Bp := newLattice e.o e.junk (1 + d) d (fun _ _ => 0) true sizemethod longFlag 0
    def_ := -(maxbitsizeRows 0 1 d A : Int)
    newQuot := e.pow2 alpha
    Ts := [] }

/-- Result of the search: the value returned, and `C` (relations_z.cc:622-624), a d × 1 matrix. -/
structure RelOut (F G : Type) where
  found : Int
  C : Mat Int
  /-- ghost: final state -/
  last : RelState F G

/-- `relation_lll(C, A, alpha, confidence_gap, shift, truncate, lllmethod, sizemethod, delta)`
(relations_z.cc:317-690).  When no relation is found `C0`, the matrix `C` before the call, is kept; the
lower bound printed in that case and the messages are not modelled. -/
def relationLll (e : RelEnv F G) (fuel d : Nat) (A : Mat Int)
    (alpha gapbits shift truncate lllmethod sizemethod : Int) (longFlag : Bool) (C0 : Mat Int) :
    Option (RelOut F G) :=
  let bitsize : Int := maxbitsizeRows 0 1 d A
  match relLoop e d bitsize (-bitsize + alpha) gapbits shift truncate lllmethod fuel
      (relStart e d A alpha sizemethod longFlag) with
  | none => none
  | some (s, none) => some { found := 0, C := C0, last := s }
  | some (s, some col) =>
    some { found := 1, C := forRange 0 d (fun j C => setEntry C j 0 (s.A col (1 + j))) C0, last := s }

/-- `relation(C, alpha, ...)` (relations_z.cc:277-311): the tuple `fpv` is scaled by `2^alpha` and
converted; `conv x alpha` is `set_f` of `mul_2si(x, alpha)`. -/
def fpRelation {X : Type} (conv : X → Int → Int) (fpv : Nat → X) (e : RelEnv F G) (fuel d : Nat)
    (alpha gapbits shift truncate lllmethod sizemethod : Int) (longFlag : Bool) (C0 : Mat Int) :
    Option (RelOut F G) :=
  relationLll e fuel d (forRange 0 d (fun j L => setEntry L 0 j (conv (fpv j) alpha)) fun _ _ => 0)
    alpha gapbits shift truncate lllmethod sizemethod longFlag C0

/-- The member `inputgap` set by the constructor `FPTuple(fpvin)` (relations_z.cc:202-231); `ex` is `exponent()`
(of type `long`).  `none`: empty vector (`fpv[0]` out of range), or `emax - emin` not in the type. -/
def fpInputgap {X : Type} (ex : X → Int) (fpv : Nat → X) (d : Nat) : Option Int :=
  if d = 0 then none
  else
    let p := forRange 0 d (fun i (p : Int × Int) => (min p.1 (ex (fpv i)), max p.2 (ex (fpv i))))
      (ex (fpv 0), ex (fpv 0))
    if p.2 - p.1 < 2 ^ 63 then some (p.2 - p.1) else none

/-- Construction of the object, then `relation(C, alpha, ...)` (relations_z.cc:202-231, 277-311). -/
def fpTupleRelation {X : Type} (ex : X → Int) (conv : X → Int → Int) (fpv : Nat → X) (e : RelEnv F G) (fuel d : Nat)
    (alpha gapbits shift truncate lllmethod sizemethod : Int) (longFlag : Bool) (C0 : Mat Int) :
    Option (RelOut F G) :=
  match fpInputgap ex fpv d with
  | none => none
  | some g =>
    fpRelation conv fpv { e with inputgap := g } fuel d alpha gapbits shift truncate lllmethod sizemethod longFlag C0

/-- `lll(C, alpha, lllmethod, sizemethod, delta)` (relations_z.cc:699-796): one reduction.  `red` is
`lll_reduction` of fplll on the transposed matrix.  `sizemethod` is not used. -/
def fpLll {X : Type} (conv : X → Int → Int) (fpv : Nat → X) (o : FPOps F) (junk delta : F)
    (red : Mat Int → Mat Int) (fuel d : Nat) (alpha lllmethod : Int) (C0 : Mat Int) :
    Option (Int × Mat Int) :=
  let L := forRange 0 d (fun j L => setEntry L 0 j (conv (fpv j) alpha)) fun _ _ => 0
  let A := relInit d L
  let A' : Option (Mat Int) :=
    if lllmethod = methodHLLL then
      (hlll o fuel delta true (newLattice o junk (1 + d) d A false 0 true 0)).map fun r => r.2.getbase.M
    else if lllmethod = methodFPLLL then
      some (transposeTo d (1 + d) (red (transposeTo (1 + d) d A fun _ _ => 0)) A)
    else some A
  A'.map fun A =>
    let U := forRange 0 d (fun i U => forRange 0 d (fun j U => setEntry U i j (A j (i + 1))) U)
      fun _ _ => 0
    let L := matprodIn 1 d U L
    let p := forRange 1 d (fun i (p : Int × Nat) => if (zabs (L i 0)) < p.1 then ((zabs (L i 0)), i) else p)
      ((zabs (L 0 0)), 0)
    (0, forRange 0 d (fun j C => setEntry C j 0 (A p.2 (1 + j))) C0)

end HPLLL
