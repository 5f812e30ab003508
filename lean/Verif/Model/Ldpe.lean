import Mathlib.Data.Rat.Floor
import Mathlib.Data.Int.Log
import Mathlib.Logic.Function.Basic

/-!
# Model of `ldpe_t` (`src/ldpe.h`) and of its conversions (`src/nr-ld.cpp`)

A number is a pair (mantissa, exponent).  The mantissa is a C `long double`, represented by
the rational number it stands for; a C operation on `long double`s is the exact operation
followed by `rnd 64`, the rounding to nearest even on 64 bits (x86 extended format).  All
mantissas the code handles lie between `2^-66` and `2`, so the range limits of the format
play no role and are left out; so are NaN and infinities.  The exponent is a C `int`:
a computation which leaves the range of `int` is undefined behaviour and is the outcome `none`.

The functions get pointers which may be equal (`x.add(x, y)` is `ldpe_add(x, x, y)`), so they
are modelled on a memory `Mem`, statement by statement.
-/

namespace HPLLL.Ldpe

/-- `2^e`. -/
def pow2 : Int → Rat
  | Int.ofNat n => ((2 ^ n : Nat) : Rat)
  | Int.negSucc n => 1 / ((2 ^ (n + 1) : Nat) : Rat)

/-- The exponent given by C `frexp`: the `k` with `2^(k-1) ≤ |q| < 2^k` (`q ≠ 0`). -/
def bexp (q : Rat) : Int :=
  let k : Int := (Nat.log2 q.num.natAbs : Int) - (Nat.log2 q.den : Int)
  if pow2 k ≤ |q| then k + 1 else k

/-- Nearest integer, ties to even (the default rounding of the FPU). -/
def rne (q : Rat) : Int :=
  let f := ⌊q⌋
  let r := q - f
  if r < 1 / 2 then f else if 1 / 2 < r then f + 1 else if f % 2 = 0 then f else f + 1

/-- Rounding of a rational to `p` significant bits, to nearest, ties to even. -/
def rnd (p : Int) (q : Rat) : Rat :=
  if q = 0 then 0 else
    let u := pow2 (bexp q - p)
    (rne (q / u) : Rat) * u

/-- Nearest integer, ties away from zero: C `roundl`, `round`. -/
def roundAway (q : Rat) : Int :=
  if 0 ≤ q then ⌊q + 1 / 2⌋ else -⌊-q + 1 / 2⌋

/-- C `truncl` and casts of floating point numbers to integers: towards zero. -/
def truncZ (q : Rat) : Int := if 0 ≤ q then ⌊q⌋ else -⌊-q⌋

/-- Square root on 64 bits of a rational of `[1/4, 1)` which is a multiple of `2^-128`
(`std::sqrt` on `long double`, which is correctly rounded; the result is in `[1/2, 1]`, hence a
multiple of `2^-64`, and a tie is not possible). -/
def sqrtRnd (q : Rat) : Rat :=
  let n := (q * pow2 128).num.toNat
  let r := Nat.sqrt n
  ((if n ≤ r * r + r then r else r + 1 : Nat) : Rat) * pow2 (-64)

/-- `ldpe_struct` (`ldpe.h:85-89`). -/
structure Num where
  mant : Rat
  exp : Int
deriving DecidableEq, Repr

/-- `INT_MIN`, which is `LDPE_EXPMIN` (`ldpe.h:76`). -/
def intMin : Int := -2147483648
/-- `INT_MAX`. -/
def intMax : Int := 2147483647

/-- Result of an `int` computation: undefined when out of range. -/
def chk (e : Int) : Option Int := if intMin ≤ e ∧ e ≤ intMax then some e else none

/-- The cells designated by the pointers. -/
abbrev Mem := Nat → Num

/-- `LDPE_MANT(x) = v`. -/
def setMant (m : Mem) (x : Nat) (v : Rat) : Mem := Function.update m x { m x with mant := v }
/-- `LDPE_EXP(x) = e`. -/
def setExp (m : Mem) (x : Nat) (e : Int) : Mem := Function.update m x { m x with exp := e }

/-- `LDPE_SIGN` (`ldpe.h:95`). -/
def sign (q : Rat) : Int := if q < 0 then -1 else if 0 < q then 1 else 0

/-- `ldpe_set` (`ldpe.h:112-117`). -/
def set (m : Mem) (x y : Nat) : Mem :=
  let m := setMant m x (m y).mant
  setExp m x (m y).exp

/-- `ldpe_neg` (`ldpe.h:120-125`). -/
def neg (m : Mem) (x y : Nat) : Mem :=
  let m := setMant m x (-(m y).mant)
  setExp m x (m y).exp

/-- `ldpe_abs` (`ldpe.h:128-133`). -/
def abs (m : Mem) (x y : Nat) : Mem :=
  let m := setMant m x (if 0 ≤ (m y).mant then (m y).mant else -(m y).mant)
  setExp m x (m y).exp

/-- `ldpe_normalize` (`ldpe.h:137-157`), for finite mantissas. -/
def normalize (m : Mem) (x : Nat) : Option Mem :=
  if (m x).mant = 0 then some (setExp m x intMin)
  else do
    let e := bexp (m x).mant
    let m := setMant m x ((m x).mant * pow2 (-e))
    let e' ← chk ((m x).exp + e)
    some (setExp m x e')

/-- `ldpe_scale` (`ldpe.h:159-166`): `ldexp`, exact. -/
def scale (d : Rat) (s : Int) : Rat := d * pow2 s

/-- `ldpe_set_ld` (`ldpe.h:178-184`); `y` is a `long double`. -/
def setLd (m : Mem) (x : Nat) (y : Rat) : Option Mem :=
  let m := setMant m x y
  let m := setExp m x 0
  normalize m x

/-- `ldpe_set_d` (`ldpe.h:169-175`).  The parameter is a `double`: a `long double` argument is
first rounded to 53 bits. -/
def setD (m : Mem) (x : Nat) (y : Rat) : Option Mem :=
  let m := setMant m x (rnd 53 y)
  let m := setExp m x 0
  normalize m x

/-- `ldpe_set_ui`, `ldpe_set_si` (`ldpe.h:187-202`): an integer of at most 64 bits, which a
`long double` holds exactly. -/
def setSi (m : Mem) (x : Nat) (y : Int) : Option Mem :=
  let m := setMant m x (rnd 64 y)
  let m := setExp m x 0
  normalize m x

/-- `ldpe_add` (`ldpe.h:275-299`). -/
def add (m : Mem) (x y z : Nat) : Option Mem := do
  let t ← chk ((m z).exp + 64)
  if (m y).exp > t then some (set m x y)
  else do
    let t ← chk ((m y).exp + 64)
    if (m z).exp > t then some (set m x z)
    else do
      let d ← chk ((m y).exp - (m z).exp)
      if d ≥ 0 then
        let m := setMant m x (rnd 64 ((m y).mant + scale (m z).mant (-d)))
        let m := setExp m x (m y).exp
        normalize m x
      else
        let m := setMant m x (rnd 64 ((m z).mant + scale (m y).mant d))
        let m := setExp m x (m z).exp
        normalize m x

/-- `ldpe_sub` (`ldpe.h:302-326`). -/
def sub (m : Mem) (x y z : Nat) : Option Mem := do
  let t ← chk ((m z).exp + 64)
  if (m y).exp > t then some (set m x y)
  else do
    let t ← chk ((m y).exp + 64)
    if (m z).exp > t then some (neg m x z)
    else do
      let d ← chk ((m y).exp - (m z).exp)
      if d ≥ 0 then
        let m := setMant m x (rnd 64 ((m y).mant - scale (m z).mant (-d)))
        let m := setExp m x (m y).exp
        normalize m x
      else
        let m := setMant m x (rnd 64 (scale (m y).mant d - (m z).mant))
        let m := setExp m x (m z).exp
        normalize m x

/-- `ldpe_mul` (`ldpe.h:329-335`). -/
def mul (m : Mem) (x y z : Nat) : Option Mem := do
  let m := setMant m x (rnd 64 ((m y).mant * (m z).mant))
  let e ← chk ((m y).exp + (m z).exp)
  let m := setExp m x e
  normalize m x

/-- `ldpe_sqrt` (`ldpe.h:338-353`), for a mantissa which is not negative.  C's `%` and `/` are
`Int.tmod` and `Int.tdiv`. -/
def sqrt (m : Mem) (x y : Nat) : Option Mem := do
  let ey := (m y).exp
  if Int.tmod ey 2 ≠ 0 then
    let m := setMant m x (if (m y).mant = 0 then 0 else sqrtRnd (rnd 64 (1 / 2 * (m y).mant)))
    let e ← chk (ey + 1)
    some (setExp m x (Int.tdiv e 2))
  else
    let m := setMant m x (if (m y).mant = 0 then 0 else sqrtRnd (m y).mant)
    some (setExp m x (Int.tdiv ey 2))

/-- `ldpe_div` (`ldpe.h:357-363`), for a nonzero divisor. -/
def div (m : Mem) (x y z : Nat) : Option Mem := do
  let m := setMant m x (rnd 64 ((m y).mant / (m z).mant))
  let e ← chk ((m y).exp - (m z).exp)
  let m := setExp m x e
  normalize m x

/-- `ldpe_mul_2si` (`ldpe.h:384-389`); `e` fits an `int`. -/
def mul2si (m : Mem) (x y : Nat) (e : Int) : Option Mem := do
  let m := setMant m x (m y).mant
  let t ← chk ((m y).exp + e)
  some (setExp m x t)

/-- `ldpe_cmp` (`ldpe.h:525-539`). -/
def cmp (x y : Num) : Int :=
  let sx := sign x.mant
  let d := sx - sign y.mant
  if d ≠ 0 then d
  else if x.exp > y.exp then (if sx > 0 then 1 else -1)
  else if y.exp > x.exp then (if sx > 0 then -1 else 1)
  else if x.mant < y.mant then -1 else if x.mant > y.mant then 1 else 0

/-- `ldpe_cmp_d` (`ldpe.h:541-547`): the comparison of `operator<=(double)`, and of
`FP_NR<ldpe_t>::sgn` which is `cmp(0.0)` (`nr-ld.cpp:629-632`). -/
def cmpD (x : Num) (d : Rat) : Option Int := do
  let m ← setD (fun _ => ⟨0, 0⟩) 0 d
  some (cmp x (m 0))

/-- `ldpe_round` (`ldpe.h:566-579`): `FP_NR<ldpe_t>::rnd` (`nr-ld.cpp:659-662`). -/
def round (m : Mem) (x y : Nat) : Option Mem :=
  if (m y).exp < 0 then setSi m x 0
  else if (m y).exp ≥ 64 then some (set m x y)
  else
    let d := scale (m y).mant (m y).exp
    setD m x (roundAway d)

/-- `ldpe_frac` (`ldpe.h:583-597`); the subtraction of `long double`s is exact. -/
def frac (m : Mem) (x y : Nat) : Option Mem :=
  if (m y).exp ≤ 0 then some (set m x y)
  else if (m y).exp ≥ 64 then setSi m x 0
  else
    let d := scale (m y).mant (m y).exp
    setD m x (rnd 64 (d - truncZ d))

/-- `ldpe_floor` (`ldpe.h:600-618`). -/
def floor (m : Mem) (x y : Nat) : Option Mem :=
  if (m y).exp ≤ 0 then
    if sign (m y).mant ≥ 0 then setSi m x 0 else setSi m x (-1)
  else if (m y).exp ≥ 64 then some (set m x y)
  else
    let d := scale (m y).mant (m y).exp
    setD m x ⌊d⌋

/-- `ldpe_ceil` (`ldpe.h:621-639`). -/
def ceil (m : Mem) (x y : Nat) : Option Mem :=
  if (m y).exp ≤ 0 then
    if sign (m y).mant > 0 then setSi m x 1 else setSi m x 0
  else if (m y).exp ≥ 64 then some (set m x y)
  else
    let d := scale (m y).mant (m y).exp
    setD m x (-⌊-d⌋)

/-- `ldpe_swap` (`ldpe.h:641-650`). -/
def swap (m : Mem) (x y : Nat) : Mem :=
  let i := (m x).exp
  let d := (m x).mant
  let m := setExp m x (m y).exp
  let m := setMant m x (m y).mant
  let m := setExp m y i
  setMant m y d

/-- `mpfr_get_ld_2exp` on an 80-bit number (MPFR manual): mantissa of 64 bits in `[1/2, 1)`
in absolute value and exponent; a zero has exponent 0. -/
def getLd2exp (q : Rat) : Rat × Int :=
  if q = 0 then (0, 0)
  else
    let r := rnd 64 q
    (r * pow2 (-bexp r), bexp r)

/-- `set_z(FP_NR<ldpe_t>&, Z_NR<mpz_t>)` (`nr-ld.cpp:251-268`): through an `mpfr_t` of 80 bits.
The exponent (a `long`) is stored in an `int`; numbers of more than `2^31` bits are outside the
model.  No normalisation. -/
def setZ (m : Mem) (x : Nat) (z : Int) : Mem :=
  let xzf := rnd 80 z
  let m := setMant m x (getLd2exp xzf).1
  setExp m x (getLd2exp xzf).2

/-- `ldpe_get_si_exp` (`ldpe.h:409-427`), 64-bit `long`. -/
def getSiExp0 (y : Num) : Int × Int := (truncZ (rnd 64 (y.mant * pow2 63)), y.exp - 63)

/-- `FP_NR<ldpe_t>::get_si_exp` (`nr-ld.cpp:548-561`): the pair (result, expo). -/
def getSiExp (y : Num) : Int × Int :=
  let (result, expo) := getSiExp0 y
  if y.mant = 0 then (result, 0)
  else if expo < 0 then (truncZ (scale result expo), 0)
  else (result, expo)

/-- Outcome of a conversion to `mpz_t`. -/
inductive Conv where
  /-- the value given -/
  | ok (v : Int)
  /-- `sprintf` writes more bytes than the array has: undefined behaviour -/
  | overrun
  /-- `lround` out of the range of `long`: the C standard leaves the result unspecified -/
  | lroundRange
deriving DecidableEq, Repr

/-- Number of characters of an integer in decimal, sign included (`sprintf("%.0Lf")`). -/
def decLen (v : Int) : Nat := (Nat.toDigits 10 v.natAbs).length + (if v < 0 then 1 else 0)

/-- The array `xc[l]`, `l = ilogbl(|x|) + 2` (2 for `x = 0`), `sprintf` and `mpz_set_str`
(`nr-ld.cpp:172-183`, `200-209`, `220-229`): the string and its final NUL must fit. -/
def viaString (v : Int) : Conv :=
  let l : Nat := if v = 0 then 2 else Nat.log2 v.natAbs + 2
  if decLen v + 1 ≤ l then Conv.ok v else Conv.overrun

/-- `lround`. -/
def lround (q : Rat) : Option Int :=
  let v := roundAway q
  if -(2 ^ 63 : Int) ≤ v ∧ v < 2 ^ 63 then some v else none

/-- `set_f(Z_NR<mpz_t>&, FP_NR<ldpe_t>)` (`nr-ld.cpp:188-231`). -/
def setF (y : Num) : Conv :=
  if y.exp ≥ 64 then
    match viaString (truncZ (y.mant * pow2 64)) with
    | Conv.ok v => Conv.ok (v * 2 ^ (y.exp - 64).toNat)
    | c => c
  else
    match lround (scale y.mant y.exp) with
    | none => Conv.lroundRange
    | some v => viaString v

/-- `set_f(Z_NR<mpz_t>&, FP_NR<long double>)` (`nr-ld.cpp:167-184`). -/
def setFld (x : Rat) : Conv :=
  match lround x with
  | none => Conv.lroundRange
  | some v => viaString v

/-- `ldpe_get_z_exp` (`ldpe.h:266-271`): `mpz_set_d` takes a `double`. -/
def getZExp (y : Num) : Int × Int :=
  (truncZ (rnd 53 (rnd 64 (y.mant * pow2 64))), y.exp - 64)

/-- `ldpe_get_z` (`ldpe.h:243-263`). -/
def getZ (y : Num) : Int :=
  if y.exp ≥ 64 then truncZ (rnd 53 (rnd 64 (y.mant * pow2 64))) * 2 ^ (y.exp - 64).toNat
  else if y.exp < 0 then 0
  else truncZ (rnd 53 (roundAway (scale y.mant y.exp)))

/-- `size_in_bits(Z_NR<long>)`, `size_in_bits(Z_NR<__int128_t>)` (`nr-ld.cpp:291-318`); `labs` is
out of range for the least integer, which is not treated here. -/
def sizeInBits (v : Int) : Nat := if v.natAbs = 0 then 1 else go v.natAbs
where
  /-- the loop `while (y > 1)` -/
  go (y : Nat) : Nat := if h : y > 1 then go (y >>> 1) + 1 else 0
  termination_by y
  decreasing_by simp [Nat.shiftRight_one]; omega

/-- `size_in_bits(Z_NR<mpz_t>)` (`nr-ld.cpp:320-325`): `mpz_sizeinbase(·, 2)`. -/
def sizeInBitsMpz (v : Int) : Nat := if v = 0 then 1 else Nat.log2 v.natAbs + 1

end HPLLL.Ldpe
