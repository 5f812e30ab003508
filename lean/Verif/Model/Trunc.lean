import Verif.Model.MatH
import Verif.Model.History
/-!
# Model of the truncations, bit sizes and casts of src/mat.h:2180-2895 and of src/nr_Z_l128.h
-/

namespace HPLLL

/-- `mpz_sizeinbase(a, 2)` (1 for `a = 0`), also fplll's `size_in_bits`. -/
def sizeInBits (a : Int) : Nat := Nat.log2 a.natAbs + 1

/-- `maxbitsize(B)` (mat.h:2698-2711, 2729-2742), `n × d`. -/
def maxbitsize (n d : Nat) (B : Mat Int) : Nat :=
  forRange 0 n (fun i l => forRange 0 d (fun j l => max l (sizeInBits (B j i))) l) 0

/-- `maxbitsize(B, d0, d, n)` (mat.h:2714-2725): rows `d0 .. d-1`, columns `0 .. n-1`. -/
def maxbitsizeRows (d0 d n : Nat) (B : Mat Int) : Nat :=
  forRange d0 d (fun i l => forRange 0 n (fun j l => max l (sizeInBits (B j i))) l) 0

/-! ## 64 and 128 bit integers -/

/-- `mpz_get_si` (GMP): the value if it fits, otherwise the 63 low bits "with the sign"
(`zl & LONG_MAX`, or `-1 - ((zl-1) & LONG_MAX)`). -/
def getSi (a : Int) : Int :=
  if 0 ≤ a then ((a.natAbs % 2 ^ 63 : Nat) : Int) else -1 - (((a.natAbs - 1) % 2 ^ 63 : Nat) : Int)

/-- Signed 128 bit arithmetic (two's complement, as gcc does). -/
def wrap128 (x : Int) : Int := Int.bmod x (2 ^ 128)

/-- `mpz_set_128int(r, a)` (nr_Z_l128.h:18-30): `r = (a div 2^64) << 64 + (a mod 2^64)`. -/
def mpzSet128int (a : Int) : Int :=
  let ump := a / 2 ^ 64
  let lmp := a % 2 ^ 64
  let r := getSi ump
  let r := wrap128 (r * 2 ^ 64)
  wrap128 (r + lmp)

/-- `mpz_get_128int(a, r)` (nr_Z_l128.h:34-47): `(r >> 64) * 2^64 + (unsigned long) ((r << 64) >> 64)`. -/
def mpzGet128int (r : Int) : Int :=
  let data := r / 2 ^ 64
  let data := data * 2 ^ 64
  data + (wrap128 (r * 2 ^ 64) / 2 ^ 64) % 2 ^ 64

/-- The digit loop of `operator<<` (nr_Z_l128.h:490-496): `do { *--d = "0123456789"[tmp%10]; tmp /= 10 }
while (tmp != 0)`; `acc` is the text from `d` on. -/
def digitLoop (tmp : Nat) (acc : List Char) : List Char :=
  let acc := "0123456789".toList[tmp % 10]! :: acc
  if h : tmp / 10 = 0 then acc else
    have : tmp / 10 < tmp := Nat.div_lt_self (by omega) (by decide)
    digitLoop (tmp / 10) acc

/-- Text printed by `operator<<` for a 128 bit integer (nr_Z_l128.h:482-508).  `-value` wraps for the
smallest integer, and is then converted to `__uint128_t`. -/
def print128 (value : Int) : List Char :=
  let tmp := ((if value < 0 then wrap128 (-value) else value) % 2 ^ 128).toNat
  let text := digitLoop tmp []
  if value < 0 then '-' :: text else text

/-- `FP_NR<dd_real>::set_z(Z_NR<__int128_t>)` (nr_Z_l128.h:215-229): the pair of doubles, `rd` the
conversion of an integer to double (whose value is an integer). -/
def ddSetZ (rd : Int → Int) (a : Int) : Int × Int :=
  let hi := rd a
  let tz := hi
  let tz := tz - a
  (hi, rd tz)

/-! ## Casts (mat.h:2754-2895) -/

/-- `matrix_cast(ZZ_mat<long>& B, ZZ_mat<mpz_t> A)` (mat.h:2783-2798, 2878-2893): the first component is
"an error message was printed"; the conversion is done in all cases. -/
def matrixCastLong (n d : Nat) (A : Mat Int) : Bool × Mat Int :=
  (decide (maxbitsize n d A > 8 * 8 - 1),
    forRange 0 n (fun i B => forRange 0 d (fun j B => setEntry B i j (getSi (A j i))) B) fun _ _ => 0)

/-- `matrix_cast` to 128 bits (mat.h:2815-2853). -/
def matrixCast128 (n d : Nat) (A : Mat Int) : Bool × Mat Int :=
  (decide (maxbitsize n d A > 8 * 16 - 1),
    forRange 0 n (fun i B => forRange 0 d (fun j B => setEntry B i j (mpzSet128int (A j i))) B)
      fun _ _ => 0)

/-- `matrix_cast` from 128 bits (mat.h:2857-2875). -/
def matrixCastFrom128 (n d : Nat) (A : Mat Int) : Mat Int :=
  forRange 0 n (fun i B => forRange 0 d (fun j B => setEntry B i j (mpzGet128int (A j i))) B)
    fun _ _ => 0

/-! ## `lift_truncate` (mat.h:2199-2452) -/

/-- Loop on the rows: maximum size of column `j` (mat.h:2227-2231 and following). -/
def colBits (n : Nat) (C : Mat Int) (j : Nat) : Nat :=
  forRange 0 n (fun i m => max m (sizeInBits ((C j i).natAbs : Int))) 0

/-- `mmin`: minimum over the columns (mat.h:2226-2242). -/
def minColBits (n d : Nat) (C : Mat Int) : Nat :=
  forRange 1 d (fun j m => min m (colBits n C j)) (colBits n C 0)

/-- `mmax` of the long and 128 bit versions (mat.h:2290-2307). -/
def maxColBits (n d : Nat) (C : Mat Int) : Nat :=
  forRange 1 d (fun j m => max m (colBits n C j)) (colBits n C 0)

/-- First row multiplied by `2^def`, the other rows copied (mat.h:2207-2215). -/
def liftRow (n d : Nat) (A : Mat Int) (def_ : Int) (C : Mat Int) : Mat Int :=
  forRange 1 n (fun i C => forRange 0 d (fun j C => setEntry C i j (A j i)) C)
    (forRange 0 d (fun j C => setEntry C 0 j (mul2si (A j 0) def_)) C)

/-- Multiplication of all the entries by `2^s` (mat.h:2251-2253). -/
def shiftAll (n d : Nat) (s : Int) (C : Mat Int) : Mat Int :=
  forRange 0 n (fun i C => forRange 0 d (fun j C => setEntry C i j (mul2si (C j i) s)) C) C

/-- `lift_truncate(ZZ_mat<mpz_t>& C, A, def, bits)` (mat.h:2199-2258). -/
def liftTruncate (n d : Nat) (A : Mat Int) (def_ bits : Int) (C : Mat Int) : Mat Int :=
  let C := liftRow n d A def_ C
  if bits > 0 then
    let mmin : Int := minColBits n d C
    if mmin - 2 ≥ bits then shiftAll n d (bits - mmin + 2) C else C
  else C

/-- The integer matrix before conversion in the long and 128 bit versions (mat.h:2262-2340,
2356-2432; note the strict comparison), and `bbc`, its number of bits. -/
def liftTruncateFixed (n d : Nat) (A : Mat Int) (def_ bits : Int) (C : Mat Int) : Mat Int × Int :=
  let C := liftRow n d A def_ C
  if bits > 0 then
    let mmin : Int := minColBits n d C
    let mmax : Int := maxColBits n d C
    if mmin - 2 > bits then (shiftAll n d (bits - mmin + 2) C, mmax + (bits - mmin + 2)) else (C, mmax)
  else (C, 0)

/-- `lift_truncate(ZZ_mat<long>& C_out, ...)` (mat.h:2262-2352): warnings only, then `mpz_get_si`. -/
def liftTruncateLong (n d : Nat) (A : Mat Int) (def_ bits : Int) : Mat Int :=
  fun j i => getSi ((liftTruncateFixed n d A def_ bits fun _ _ => 0).1 j i)

/-- `lift_truncate(ZZ_mat<__int128_t>& C_out, ...)` (mat.h:2356-2452): `none` is `exit(EXIT_FAILURE)`
when more than 127 bits are found *and* `bits > 0`. -/
def liftTruncate128 (n d : Nat) (A : Mat Int) (def_ bits : Int) : Option (Mat Int) :=
  let (C, bbc) := liftTruncateFixed n d A def_ bits fun _ _ => 0
  if bits > 0 ∧ bbc > 127 then none else some fun j i => mpzSet128int (C j i)

/-! ## `trunc` (mat.h:2482-2576) -/

/-- `trunc(B, A, d, n, m, t, tau)`: upper part of `d` rows, `m` rows in all, `n` columns.  `ex x` is the
number `(long) (x * 0.301029995)` computed in double precision. -/
def trunc (ex : Int → Nat) (A : Mat Int) (d n m : Nat) (t tau : Int) (B : Mat Int) : Mat Int :=
  -- upper part, and max2
  let B := if tau > 0 then
      forRange 0 d (fun i B => forRange 0 n (fun j B =>
        setEntry B i j ((A j i).tdiv (10 ^ ex tau))) B) B
    else forRange 0 d (fun i B => forRange 0 n (fun j B => setEntry B i j (A j i)) B) B
  let max2 : Nat := forRange 0 d (fun i l => forRange 0 n (fun j l => max l (sizeInBits (B j i))) l) 0
  let max2 : Nat := if t > 0 then
      forRange d m (fun i l => forRange 0 n (fun j l => max l (sizeInBits (A j i))) l) max2
    else max2
  if t < 0 then
    forRange d m (fun i B => setEntry B i (i - d) 1)
      (forRange d m (fun i B => forRange 0 n (fun j B => setEntry B i j 0) B) B)
  else if t = 0 ∨ t ≥ max2 then
    forRange d m (fun i B => forRange 0 n (fun j B => setEntry B i j (A j i)) B) B
  else
    let e := ex (max2 - t)
    let B := forRange 0 d (fun i B => forRange 0 n (fun j B =>
      setEntry B i j ((B j i).tdiv (10 ^ e))) B) B
    forRange d m (fun i B => forRange 0 n (fun j B => setEntry B i j ((A j i).tdiv (10 ^ e))) B) B

end HPLLL
