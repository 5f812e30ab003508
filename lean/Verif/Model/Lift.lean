import Verif.Model.RelF
/-!
# Model of `lift_z` and `lift_f_z` (src/lift.cc)

The functions differ from `relation_f_z` and `detect_lift_f_z` (src/relations_f.cc) by the threshold of
the gap test, by a second test on the new quotient, by the initial quotient and by the parameters given to the
reductions.  Same conventions as in `Verif.Model.RelF`: one row (`m = 1`, lift.cc:53), conversions between
integer types are arbitrary functions (`set_f` lift.cc:305; `get_d` lift.cc:103, 272).
-/

namespace HPLLL

variable {F G : Type}

/-- One elementary lift (lift.cc:264-381).  The body is that of relations_f.cc:405-512 with
`confidence = 2^(-confidence_gap)` (lift.cc:237, no shift) and the object built with `DEF_REDUCTION`
(lift.cc:245); the candidate is kept only if moreover `new_quot < 10` (lift.cc:240, 374). -/
def lzStep (e : RelFEnv F G) (d : Nat) (gapbits lllmethod : Int) (delta : F) (s : LiftState F G) :
    Option (LiftState F G × Option Int) :=
  match liftStep e d gapbits 0 lllmethod 0 delta s with
  | none => none
  | some (s', some r) =>
    if r = 1 then
      if e.q.lt s'.newQuot (e.q.ofZ 10) then some (s', some 1) else some (s', none)
    else some (s', some r)
  | some (s', none) => some (s', none)

/-- The loop `for (S = 0; S < shift; S += increment)` (lift.cc:262-383). -/
def lzLoop (e : RelFEnv F G) (d : Nat) (gapbits shift increment lllmethod : Int) (delta : F) :
    Nat → Int → LiftState F G → Option (LiftState F G × Int)
  | 0, _, _ => none
  | fuel + 1, S, s =>
    if S < shift then
      match lzStep e d gapbits lllmethod delta { s with newDef := s.newDef + increment } with
      | none => none
      | some (s', some r) => some (s', r)
      | some (s', none) => lzLoop e d gapbits shift increment lllmethod delta fuel (S + increment) s'
    else some (s, 0)

/-- `lift_f_z(U, L_in, A_in_f, new_def, def, target_def, new_quot, confidence_gap, shift, increment,
lllmethod, delta)` (lift.cc:180-389).  `target_def` is not used by the C++. -/
def lzDetect (e : RelFEnv F G) (fuel d : Nat) (U L Tf : Mat Int) (def_ : Int) (newQuot : G)
    (log : List (RelFCall F G)) (prods : List (Mat Int × Mat Int))
    (gapbits shift increment lllmethod : Int) (delta : F) : Option (LiftState F G × Int) :=
  let Af : Mat Int := forRange 0 d (fun i M => forRange 0 d (fun j M => setEntry M (1 + i) j (Tf j i)) M)
    fun j i => if i = 0 then e.af0 j else 0
  let L : Mat Int := forRange 0 d (fun j M => setEntry M 0 j (L j 0)) fun _ _ => 0
  lzLoop e d gapbits shift increment lllmethod delta fuel 0
    { U := U, L := L, Af := Af,
      B := newLattice e.o e.junk (1 + d) d Af true 0 e.longFlag 0,
      newDef := def_, newQuot := newQuot, log := log, prods := prods }

/-- The main loop (lift.cc:90-125). -/
def lzMain (e : RelFEnv F G) (inner d : Nat) (target gapbits shift increment lllmethod : Int) (delta : F) :
    Nat → RelFState F G → Option (RelFState F G × Int)
  | 0, _ => none
  | fuel + 1, s =>
    if s.def_ < target then
      let internShift := if target - s.def_ ≤ shift then target - s.def_ else s.internShift
      let Tf : Mat Int := forRange 0 d (fun i M => forRange 0 d (fun j M => setEntry M i j (e.setZ (s.A j (1 + i)))) M)
        fun _ _ => 0
      match lzDetect e inner d (setId d d fun _ _ => 0) s.A Tf s.def_ s.newQuot s.log s.prods
          gapbits internShift increment lllmethod delta with
      | none => none
      | some (t, found) =>
        let s' : RelFState F G :=
          { A := matprodIn (1 + d) d t.U s.A, def_ := t.newDef, newQuot := t.newQuot,
            internShift := internShift, log := t.log, prods := t.prods }
        if found = 1 then some (s', 1)
        else lzMain e inner d target gapbits shift increment lllmethod delta fuel s'
    else some (s, 0)

/-- `lift_z(C, A, alpha, confidence_gap, shift, increment, lllmethod, delta)` (lift.cc:40-160).  The bound
printed when there is no relation (lines 127-155) is not modelled; `C0` is the matrix `C` before the call. -/
def liftZ (e : RelFEnv F G) (fuel inner d : Nat) (A : Mat Int)
    (alpha gapbits shift increment lllmethod : Int) (delta : F) (C0 : Mat Int) : Option (RelFOut F G) :=
  let bitsize : Int := maxbitsizeRows 0 1 d A
  match lzMain e inner d (-bitsize + alpha) gapbits shift increment lllmethod delta fuel
      { A := relInit d A, def_ := -bitsize, newQuot := e.q.one, internShift := shift, log := [],
        prods := [] } with
  | none => none
  | some (s, found) =>
    some { found := found,
           C := if found = 1 then forRange 0 d (fun j C => setEntry C j 0 (s.A 0 (1 + j))) C0 else C0,
           last := s }

end HPLLL
