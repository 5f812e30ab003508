import Mathlib.Data.Int.Log
import Verif.Model.MatPE
/-!
# `MatrixPE::setcol` with significands of finite precision and range (src/matpe.h:777-1000)

`Model/MatPE` models this method with exact significands.  Here a significand is a machine number: the
numbers of the floating point type close to zero are the multiples of `2^-w` (`w = 1074` for `double`,
`16445` for `long double`), so `ldexp` with a negative shift may round.  Exponents are unbounded.
-/

namespace HPLLL
namespace PE

/-- `ldexp(m, k)` for `|m| <= 1`, `k <= 0` with smallest positive number `2^-w`; `rd` rounds to an
integer.  When the exact result is a multiple of `2^-w` it is returned. -/
def ldexpFin (w : Nat) (rd : ℚ → ℤ) (m : ℚ) (k : ℤ) : ℚ := (rd (m * 2 ^ k * 2 ^ w) : ℚ) / 2 ^ w

/-- `mpz_get_d_2exp` (matpe.h:785), which truncates: significand of `p` bits and exponent. -/
def getD2exp (p : Nat) (x : ℚ) : ℚ × ℤ :=
  if x = 0 then (0, 0)
  else
    let e := Int.log 2 |x| + 1
    let t : ℤ := ⌊|x| / 2 ^ e * 2 ^ p⌋
    ((if x < 0 then -(t : ℚ) else t) / 2 ^ p, e)

/-- `setcol(j, vec, beg, l)` on one column, given by its significands `v` and its exponent `ex`: the two
loops of matpe.h:777-795 (`mpz_t`), 800-827 (`mpz_t`, `long double`), 835-950 (`long`, `__int128_t`,
`double`), 955-1000 (`mpfr_t`).  `rep` is the splitting into significand and exponent, `e0` is
`INT_MIN`. -/
def setcolFin (w : Nat) (rd : ℚ → ℤ) (rep : ℚ → ℚ × ℤ) (e0 : ℤ) (c : (Nat → ℚ) × ℤ) (x : Nat → ℚ)
    (beg l : Nat) : (Nat → ℚ) × ℤ :=
  if l = 0 then c
  else
    let me := maxExp (fun i => (rep (x i)).2) e0 beg l
    (fun i => if beg ≤ i ∧ i < beg + l then ldexpFin w rd (rep (x i)).1 ((rep (x i)).2 - me) else c.1 i,
     me)

end PE
end HPLLL
