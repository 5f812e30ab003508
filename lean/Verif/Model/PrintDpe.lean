import Mathlib.Data.Rat.Defs
import Mathlib.Data.Rat.Floor
/-!
# `hplllprint` for `dpe_t` and `ldpe_t` (nr-ld.cpp:338-394, 398-454)

`rd` is the rounding of a division by ten and of a product by ten; products and divisions by two are exact.
-/

namespace HPLLL

/-- `while (e2 > 0)` (nr-ld.cpp:363-372, 423-432), `k = e2`; state `(d, e10)`. -/
def printUp (rd : ℚ → ℚ) : Nat → ℚ × Int → ℚ × Int
  | 0, q => q
  | k + 1, q =>
    let d := q.1 * 2
    printUp rd k (if d ≥ 10 then (rd (d / 10), q.2 + 1) else (d, q.2))

/-- `while (e2 < 0)` (nr-ld.cpp:376-385, 436-445), `k = -e2`. -/
def printDown (rd : ℚ → ℚ) : Nat → ℚ × Int → ℚ × Int
  | 0, q => q
  | k + 1, q =>
    let d := q.1 / 2
    printDown rd k (if d < 1 then (rd (d * 10), q.2 - 1) else (d, q.2))

/-- What is printed: `none` for zero, otherwise the sign (`true` for minus), the significand given to
`fprintf`, the exponent of ten. -/
def hplllprint (rd : ℚ → ℚ) (mant : ℚ) (e2 : Int) : Option (Bool × ℚ × Int) :=
  if mant = 0 then none
  else
    let d := if mant < 0 then -mant else mant
    let sign := decide (mant < 0)
    let q := if e2 > 0 then printUp rd e2.toNat (d, 0) else printDown rd (-e2).toNat (d, 0)
    some (sign, q.1, q.2)

end HPLLL
