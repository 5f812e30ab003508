import Verif.Model.Trunc
/-!
# Model of the `hlll` wrappers (src/wrappers.h:38-582), of the `hplll` program (src/hplll.cc) and of
`command_line_basis` up to its matrix

The wrappers reduce the first columns at a low precision, then the whole matrix at a higher one.  The
arithmetic of each phase is arbitrary (`FPOps`).  Integers are unbounded also for `long` and
`__int128_t`: an overflow inside a reduction is not modelled, the conversions are.
-/

namespace HPLLL

variable {F G H : Type}

/-- `DIM_PREC_1` (defs.h:80). -/
def dimPrec1 : Nat := 330
/-- `DIM_PREC_2` (defs.h:81). -/
def dimPrec2 : Nat := 430

/-- A `Lattice` is built on a copy of `T` (`NO_TRANSFORM`, given reduction method, default long flag),
`hlll(delta)` is called (the value returned is ignored), and `getbase()` is read
(e.g. wrappers.h:444-448).  Result: the basis and `verboseDepth`. -/
def reducePhase (o : FPOps F) (junk : F) (fuel : Nat) (delta : F) (method : Int) (n d : Nat)
    (T : Mat Int) (vd : Int) : Option (Mat Int × Int) :=
  match hlll o fuel delta true (newLattice o junk n d T false method true vd) with
  | none => none
  | some (_, s) => some (s.getbase.M, s.verboseDepth)

/-- `T(i,j) = A(i,j)` for `j = a .. b-1` (wrappers.h:481-483, 522-524, 547-549). -/
def copyCols (n a b : Nat) (A T : Mat Int) : Mat Int :=
  forRange 0 n (fun i T => forRange a b (fun j T => setEntry T i j (A j i)) T) T

/-- The three cases of the `mpz_t` wrappers (wrappers.h:434-560): `P k d T vd` is the reduction
number `k` (0: base, 1: Seysen, 2: Seysen at higher precision) of the `d` columns of `T`. -/
def threePhases (d1 d2 n d : Nat) (P : Nat → Nat → Mat Int → Int → Option (Mat Int × Int))
    (A : Mat Int) (vd : Int) : Option (Mat Int × Int) :=
  if d ≤ d1 then P 0 d A vd
  else if d ≤ d2 then
    match P 0 d1 (setMat n d1 A fun _ _ => 0) vd with
    | none => none
    | some (C, vd) =>
      P 1 d (copyCols n d1 d A (setMat n d1 C fun _ _ => 0)) vd
  else
    match P 0 d1 (setMat n d1 A fun _ _ => 0) vd with
    | none => none
    | some (C, vd) =>
      match P 1 d2 (copyCols n d1 d2 A (setMat n d1 C fun _ _ => 0)) vd with
      | none => none
      | some (C, vd) =>
        P 2 d (copyCols n d2 d A (setMat n d2 C fun _ _ => 0)) vd

/-- The same for the `long` and `__int128_t` wrappers (wrappers.h:75-185, 255-365): `B` is the
converted matrix and is overwritten. -/
def threePhasesIn (d1 d2 n d : Nat) (P : Nat → Nat → Mat Int → Int → Option (Mat Int × Int))
    (B : Mat Int) (vd : Int) : Option (Mat Int × Int) :=
  if d ≤ d1 then P 0 d B vd
  else if d ≤ d2 then
    match P 0 d1 (setMat n d1 B fun _ _ => 0) vd with
    | none => none
    | some (C, vd) => P 1 d (setMat n d1 C B) vd
  else
    match P 0 d1 (setMat n d1 B fun _ _ => 0) vd with
    | none => none
    | some (C, vd) =>
      let B := setMat n d1 C B
      match P 1 d2 (setMat n d2 B fun _ _ => 0) vd with
      | none => none
      | some (C, vd) => P 2 d (setMat n d2 C B) vd

/-- Phase `k` of the wrappers: `DEF_REDUCTION` with the first arithmetic, `SEYSEN_REDUCTION` with the
first arithmetic, `SEYSEN_REDUCTION` with the second one. -/
def wrapPhase (o : FPOps F) (junk delta : F) (o2 : FPOps G) (junk2 delta2 : G) (fuel n : Nat)
    (k d : Nat) (T : Mat Int) (vd : Int) : Option (Mat Int × Int) :=
  if k = 0 then reducePhase o junk fuel delta 0 n d T vd
  else if k = 1 then reducePhase o junk fuel delta 1 n d T vd
  else reducePhase o2 junk2 fuel delta2 1 n d T vd

/-- Reduction check (wrappers.h:567-575): `isreduced(delta - 0.1)` on a copy of `C`; only
`verboseDepth` survives. -/
def wrapCheck (o3 : FPOps H) (junk3 delta3 : H) (fuel n d : Nat) (C : Mat Int) (check : Bool)
    (vd : Int) : Option Int :=
  if check then
    match (newLattice o3 junk3 n d C false 0 true (vd - 1)).isreduced o3 junk3 fuel delta3 with
    | none => none
    | some (_, s) => some (s.verboseDepth + 1)
  else some vd

/-- Parameters of a wrapper that the result may depend on: the three arithmetics, the content of
fresh storage, and `delta` (resp. `delta - 0.1`) in each of them. -/
structure WrapArith (F G H : Type) where
  o : FPOps F
  junk : F
  delta : F
  o2 : FPOps G
  junk2 : G
  delta2 : G
  o3 : FPOps H
  junk3 : H
  delta3 : H

/-- `hlll<mpz_t>(C, A, delta, check, comput_cond)` (wrappers.h:409-582), with `d1`, `d2` the constants
`DIM_PREC_1`, `DIM_PREC_2`: `C` and the global `verboseDepth`.  `ratio` (called with `comput_cond`) has
no effect on either. -/
def hlllMpz (w : WrapArith F G H) (d1 d2 fuel n d : Nat) (check : Bool) (A : Mat Int) (vd : Int) :
    Option (Mat Int × Int) :=
  match threePhases d1 d2 n d (wrapPhase w.o w.junk w.delta w.o2 w.junk2 w.delta2 fuel n) A
      (vd - 1) with
  | none => none
  | some (C, vd) =>
    match wrapCheck w.o3 w.junk3 w.delta3 fuel n d C check vd with
    | none => none
    | some vd => some (C, vd + 1)

/-- `hlll<long>` (wrappers.h:48-221): conversion, reductions, conversion back (exact,
mat.h:2801-2814). -/
def hlllLong (w : WrapArith F G H) (d1 d2 fuel n d : Nat) (check : Bool) (A : Mat Int) (vd : Int) :
    Option (Mat Int × Int) :=
  match threePhasesIn d1 d2 n d (wrapPhase w.o w.junk w.delta w.o2 w.junk2 w.delta2 fuel n)
      (matrixCastLong n d A).2 (vd - 1) with
  | none => none
  | some (C, vd) =>
    match wrapCheck w.o3 w.junk3 w.delta3 fuel n d C check vd with
    | none => none
    | some vd => some (C, vd + 1)

/-- `hlll<__int128_t>` (wrappers.h:228-401). -/
def hlll128 (w : WrapArith F G H) (d1 d2 fuel n d : Nat) (check : Bool) (A : Mat Int) (vd : Int) :
    Option (Mat Int × Int) :=
  match threePhasesIn d1 d2 n d (wrapPhase w.o w.junk w.delta w.o2 w.junk2 w.delta2 fuel n)
      (matrixCast128 n d A).2 (vd - 1) with
  | none => none
  | some (C, vd) =>
    let C := matrixCastFrom128 n d C
    match wrapCheck w.o3 w.junk3 w.delta3 fuel n d C check vd with
    | none => none
    | some vd => some (C, vd + 1)

/-- `command_line_basis` with `-type cin` (matgen.cc:350-362): `AT` is the `d × n` matrix read (fplll
format, a vector per row); `A` is resized to `n × d` (new entries are 0) and transposed into. -/
def commandLineCin (d n : Nat) (AT : Mat Int) : Mat Int := transposeTo d n AT fun _ _ => 0

/-- The program `hplll` (src/hplll.cc:36-60), from the matrix built by `command_line_basis` on: the
transposed matrix that is printed, `d × n`. -/
def hplllMain (o : FPOps F) (junk : F) (fuel : Nat) (delta : F) (n d : Nat) (A : Mat Int) :
    Option ZMat :=
  match reducePhase o junk fuel delta 0 n d A 0 with
  | none => none
  | some (B, _) => some ⟨d, n, transposeTo n d B fun _ _ => 0⟩

end HPLLL
