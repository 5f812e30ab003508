import Verif.Model.Relations
/-!
# Model of `lehmer_lll` (src/lehmer.cc)

`M j i` is C++ `M(i,j)`.  Timers and messages are not modelled; `verboseDepth` is only read to decide
on messages.
-/

namespace HPLLL

variable {F : Type}

/-- What `lehmer_lll` uses besides its arguments. -/
structure LehEnv (F : Type) where
  /-- arithmetic of the reductions, content of fresh storage, the constant `0.99` (lehmer.cc:169) -/
  o : FPOps F
  junk : F
  c99 : F
  /-- steps allowed to one reduction -/
  fuel : Nat
  /-- `lift_truncate` for the integer type `ZT` (`none`: the program exits) -/
  lift : Nat → Nat → Mat Int → Int → Int → Option (Mat Int)
  /-- argument `S`, and the outcome of `pmatprod_in_int` at each iteration -/
  S : Nat
  pprod : Nat → Mat Int → Mat Int → Mat Int
  /-- the test `fast_long_flag` of the lattice objects and `verboseDepth` -/
  longFlag : Bool
  vd : Int

/-- State of the loop on the default.  `Ts` is a ghost: the matrices given to the reductions so far. -/
structure LehState (F : Type) where
  C : Mat Int
  B : Lat F
  def_ : Int
  Ts : List (Mat Int)

/-- Body of the loop (lehmer.cc:112-192). -/
def lehStep (e : LehEnv F) (n d : Nat) (lshift : Int) (truncate : Bool) (s : LehState F) :
    Option (LehState F) :=
  let def_ := min 0 (s.def_ + lshift)
  match e.lift n d s.C def_ (if truncate then 40 else 0) with
  | none => none
  | some Ct =>
    match hlll e.o e.fuel e.c99 true (s.B.assign Ct) with
    | none => none
    | some (_, B) =>
      let C := if e.S > 1 then e.pprod s.Ts.length s.C B.getU.M else matprodIn n d B.getU.M s.C
      some { C := C, B := B, def_ := def_, Ts := s.Ts ++ [Ct] }

/-- `while (def < 0)`. -/
def lehLoop (e : LehEnv F) (n d : Nat) (lshift : Int) (truncate : Bool) :
    Nat → LehState F → Option (LehState F)
  | 0, _ => none
  | fuel + 1, s =>
    if s.def_ < 0 then
      match lehStep e n d lshift truncate s with
      | none => none
      | some s => lehLoop e n d lshift truncate fuel s
    else some s

/-- State before the loop (lehmer.cc:85-107): the object is built on a zero matrix. -/
def lehStart (e : LehEnv F) (n d : Nat) (A : Mat Int) : LehState F where
  C := A
  B := newLattice e.o e.junk n d (fun _ _ => 0) true 0 e.longFlag e.vd
  def_ := -(maxbitsize n d A : Int)
  Ts := []

/-- Result: the value returned, `C`; the ghost list of the matrices that were reduced. -/
structure LehOut where
  ret : Int
  C : ZMat
  Ts : List (Mat Int)

/-- `lehmer_lll(C, A, delta, lshift, truncate, S)` (lehmer.cc:56-203), `A` of size `n × d`. -/
def lehmerLll (e : LehEnv F) (fuel : Nat) (n d : Nat) (A : Mat Int) (delta : F) (lshift : Int)
    (truncate : Bool) : Option LehOut :=
  if lshift = 0 then
    match hlll e.o e.fuel delta true (newLattice e.o e.junk n d A false 0 e.longFlag e.vd) with
    | none => none
    | some (_, B) => some ⟨0, B.getbase, [A]⟩
  else
    match lehLoop e n d lshift truncate fuel (lehStart e n d A) with
    | none => none
    | some s => some ⟨0, ⟨n, d, s.C⟩, s.Ts⟩

end HPLLL
