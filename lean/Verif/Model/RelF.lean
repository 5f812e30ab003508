import Verif.Model.Relations
import Verif.Model.FloatInt
/-!
# Model of the integer relation search with elementary lifts, `FPTuple_f` (src/relations_f.cc)

`M j i` is C++ `M(i,j)`.  One row of input (`m = 1`, relations_f.cc:185).

The matrices of type `ZZ_mat<FT>` (`double` numbers with integer values) and `ZZ_mat<ZT>` (`long`) hold
integers in the model; the conversions `mpz_t -> FT` and `FT -> ZT` are arbitrary functions, and the
reductions run on `FT` integers (`Verif.Model.FloatInt`): the result of each operation on an entry is rounded.
-/

namespace HPLLL

variable {F G : Type}

/-- What the search uses besides its arguments. -/
structure RelFEnv (F G : Type) where
  /-- arithmetic of the reductions, content of fresh storage -/
  o : FPOps F
  junk : F
  /-- rounding of the `FT` integers; conversion of the argument of `ldexp` (see `fEntry`) -/
  rd : Int → Int
  rdE : Int → Int
  /-- steps allowed to one reduction -/
  fuel : Nat
  /-- the value of the default argument `delta = 0.99` (relations_f.h:67, 72, 77), and the implicit
  conversion of a `double` argument to an `int` parameter -/
  d99 : F
  toInt : F → Int
  /-- `set_z` to an `FT` integer; conversion of an `FT` integer to `ZT` (`set_f`, relations_f.cc:445) -/
  setZ : Int → Int
  setF : Int → Int
  /-- `call_fplll(AfT, VfT, delta, ...)`: the two matrices afterwards (fplll is not in /repo) -/
  fplll : F → Mat Int → Mat Int × Mat Int
  /-- `Vf` when no reduction is called, and the first row of `Af` before the first lift
  (storage that is not assigned, relations_f.cc:340-341, 354-355) -/
  vf0 : Mat Int
  af0 : Nat → Int
  /-- the flag `long` of the reduction object -/
  longFlag : Bool
  /-- `mpfr` arithmetic of the gap test, and `2^k` -/
  q : FPOps G
  pow2 : Int → G

/-- One lift, as recorded by the ghost log: the matrix given to the reduction, the transformation before
conversion, the parameters used, the reduced matrix, and `new_quot` before and after; `exact` is true if no
operation on `FT` integers has been rounded or out of range in the reductions of the object used so far. -/
structure RelFCall (F G : Type) where
  T : Mat Int
  Vf : Mat Int
  sizemethod : Int
  delta : F
  Af : Mat Int
  prev : G
  quot : G
  exact : Bool

/-- State of the loop on the elementary lifts (relations_f.cc:395-514).  `log` is a ghost. -/
structure LiftState (F G : Type) where
  U : Mat Int
  L : Mat Int
  Af : Mat Int
  B : Lat F
  newDef : Int
  newQuot : G
  log : List (RelFCall F G)
  /-- ghost: the pairs `(U, V)` multiplied by `matprod_in(U, V)` -/
  prods : List (Mat Int × Mat Int)

/-- `Af` with the lifted and truncated first row (relations_f.cc:407-415). -/
def liftRowF (e : RelFEnv F G) (d : Nat) (newDef : Int) (L Af : Mat Int) : Mat Int :=
  forRange 0 d (fun j M => setEntry M 0 j (e.setZ (mul2si (L j 0) newDef))) Af

/-- The call of a reduction (relations_f.cc:418-440): the new object, `Af` and `Vf`. -/
def liftReduce (e : RelFEnv F G) (d : Nat) (lllmethod : Int) (delta : F) (T : Mat Int) (B : Lat F) :
    Option (Lat F × Mat Int × Mat Int) :=
  if lllmethod = methodHLLL then
    match fHlll e.o e.rd e.rdE e.fuel delta true (B.assign T) with
    | none => none
    | some (_, B) => some (B, B.getbase.M, B.getU.M)
  else if lllmethod = methodFPLLL then
    let r := e.fplll delta (transposeTo (1 + d) d T fun _ _ => 0)
    some (B, transposeTo d (1 + d) r.1 T, transposeTo d d r.2 fun _ _ => 0)
  else some (B, T, e.vf0)

/-- The quotient of the gap test (relations_f.cc:471-494): `|L(0,0)|`, or 1 if it is 0, over the largest
entry of `Af(i,0)` for `i < d`.  The last row of `Af` (of index `d`) is not looked at. -/
def liftQuot (e : RelFEnv F G) (d : Nat) (L Af : Mat Int) : G :=
  let xz := if L 0 0 = 0 then 1 else zabs (L 0 0)
  let maxcol := forRange 0 d (fun i t => if t < zabs (Af 0 i) then zabs (Af 0 i) else t) (zabs (Af 0 0))
  e.q.div (e.q.ofZ xz) (e.q.ofZ maxcol)

/-- One elementary lift (relations_f.cc:405-512).  Second component: `some r` if the function
returns `r`. -/
def liftStep (e : RelFEnv F G) (d : Nat) (gapbits shift lllmethod sizemethod : Int) (delta : F)
    (s : LiftState F G) : Option (LiftState F G × Option Int) :=
  let newDef := s.newDef
  let T := liftRowF e d newDef s.L s.Af
  match liftReduce e d lllmethod delta T s.B with
  | none => none
  | some (B, Af, Vf) =>
    let V : Mat Int := forRange 0 d (fun i V => forRange 0 d (fun j V => setEntry V i j (e.setF (Vf j i))) V)
      fun _ _ => 0
    if maxbitsizeRows 0 d d s.U + maxbitsizeRows 0 d d V > 50 then
      some ({ s with B := B, Af := Af, log := s.log ++ [⟨T, Vf, sizemethod, delta, Af, s.newQuot, s.newQuot, !B.ub⟩] }, some 0)
    else
      let U := matprodIn d d V s.U
      let L := matprodIn 1 d V s.L
      let newQuot := liftQuot e d L Af
      let gap := e.q.abs (e.q.div newQuot s.newQuot)
      some ({ s with B := B, Af := Af, log := s.log ++ [⟨T, Vf, sizemethod, delta, Af, s.newQuot, newQuot, !B.ub⟩],
                     U := U, L := L, newQuot := newQuot,
                     prods := s.prods ++ [(s.U, V)] },
        if e.q.lt gap (e.pow2 (-gapbits - shift)) then some 1 else none)

/-- The loop `for (S = 0; S < shift; S += increment)` (relations_f.cc:403-514). -/
def liftLoop (e : RelFEnv F G) (d : Nat) (gapbits shift increment lllmethod sizemethod : Int) (delta : F) :
    Nat → Int → LiftState F G → Option (LiftState F G × Int)
  | 0, _, _ => none
  | fuel + 1, S, s =>
    if S < shift then
      match liftStep e d gapbits shift lllmethod sizemethod delta { s with newDef := s.newDef + increment } with
      | none => none
      | some (s', some r) => some (s', r)
      | some (s', none) => liftLoop e d gapbits shift increment lllmethod sizemethod delta fuel (S + increment) s'
    else some (s, 0)

/-- `detect_lift_f_z(U, L_in, A_in_f, new_def, def, target_def, new_quot, confidence_gap, shift,
increment, lllmethod, sizemethod, delta)` (relations_f.cc:321-520), with the default values of the last
two arguments (relations_f.h:77).  `log` and `prods` are the ghosts of the caller. -/
def detectLift (e : RelFEnv F G) (fuel d : Nat) (U L Tf : Mat Int) (def_ : Int) (newQuot : G)
    (log : List (RelFCall F G)) (prods : List (Mat Int × Mat Int))
    (gapbits shift increment lllmethod : Int) (sizemethod : Int := 0) (delta : F := e.d99) :
    Option (LiftState F G × Int) :=
  let Af : Mat Int := forRange 0 d (fun i M => forRange 0 d (fun j M => setEntry M (1 + i) j (Tf j i)) M)
    fun j i => if i = 0 then e.af0 j else 0
  let L : Mat Int := forRange 0 d (fun j M => setEntry M 0 j (L j 0)) fun _ _ => 0
  liftLoop e d gapbits shift increment lllmethod sizemethod delta fuel 0
    { U := U, L := L, Af := Af,
      B := newLattice e.o e.junk (1 + d) d Af true sizemethod e.longFlag 0,
      newDef := def_, newQuot := newQuot, log := log, prods := prods }

/-- State of the main loop of `relation_f_z` (relations_f.cc:220-264). -/
structure RelFState (F G : Type) where
  A : Mat Int
  def_ : Int
  newQuot : G
  internShift : Int
  log : List (RelFCall F G)
  prods : List (Mat Int × Mat Int)

/-- The main loop (relations_f.cc:220-264).  The call of `detect_lift_f_z` at line 244 gives its `delta` in the
position of the parameter `sizemethod`: it is converted to an `int`, and `delta` takes its default value. -/
def relFLoop (e : RelFEnv F G) (inner d : Nat) (target gapbits shift increment lllmethod : Int) (delta : F) :
    Nat → RelFState F G → Option (RelFState F G × Int)
  | 0, _ => none
  | fuel + 1, s =>
    if s.def_ < target then
      let internShift := if target - s.def_ ≤ shift then target - s.def_ else s.internShift
      let Tf : Mat Int := forRange 0 d (fun i M => forRange 0 d (fun j M => setEntry M i j (e.setZ (s.A j (1 + i)))) M)
        fun _ _ => 0
      match detectLift e inner d (setId d d fun _ _ => 0) s.A Tf s.def_ s.newQuot s.log s.prods
          gapbits internShift increment lllmethod (sizemethod := e.toInt delta) with
      | none => none
      | some (t, found) =>
        let s' : RelFState F G :=
          { A := matprodIn (1 + d) d t.U s.A, def_ := t.newDef, newQuot := t.newQuot,
            internShift := internShift, log := t.log, prods := t.prods }
        if found = 1 then some (s', 1)
        else relFLoop e inner d target gapbits shift increment lllmethod delta fuel s'
    else some (s, 0)

/-- Result: the value returned, `C` (relations_f.cc:256-258), and the final state (ghost). -/
structure RelFOut (F G : Type) where
  found : Int
  C : Mat Int
  last : RelFState F G

/-- `relation_f_z(C, A, alpha, confidence_gap, shift, increment, lllmethod, sizemethod, delta)`
(relations_f.cc:171-301), with its default arguments (relations_f.h:72).  The bound printed when
there is no relation (lines 266-294) is not modelled; `C0` is the matrix `C` before the call. -/
def relationFZ (e : RelFEnv F G) (fuel inner d : Nat) (A : Mat Int)
    (alpha gapbits shift increment lllmethod : Int) (C0 : Mat Int)
    (_sizemethod : Int := 0) (delta : F := e.d99) : Option (RelFOut F G) :=
  let bitsize : Int := maxbitsizeRows 0 1 d A
  match relFLoop e inner d (-bitsize + alpha) gapbits shift increment lllmethod delta fuel
      { A := relInit d A, def_ := -bitsize, newQuot := e.pow2 alpha, internShift := shift, log := [],
        prods := [] } with
  | none => none
  | some (s, found) =>
    some { found := found,
           C := if found = 1 then forRange 0 d (fun j C => setEntry C j 0 (s.A 0 (1 + j))) C0 else C0,
           last := s }

/-- `relation(C, alpha, confidence_gap, shift, increment, lllmethod, sizemethod, delta)`
(relations_f.cc:129-153).  The call of `relation_f_z` at line 147 gives its `delta` in the position of the
parameter `sizemethod`.  `conv x alpha` is `set_f` of `mul_2si(x, alpha)`. -/
def fRelation {X : Type} (conv : X → Int → Int) (fpv : Nat → X) (e : RelFEnv F G) (fuel inner d : Nat)
    (alpha gapbits shift increment lllmethod _sizemethod : Int) (delta : F) (C0 : Mat Int) :
    Option (RelFOut F G) :=
  relationFZ e fuel inner d (forRange 0 d (fun j L => setEntry L 0 j (conv (fpv j) alpha)) fun _ _ => 0)
    alpha gapbits shift increment lllmethod C0 (_sizemethod := e.toInt delta)

end HPLLL
