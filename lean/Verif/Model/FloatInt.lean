import Verif.Model.Mach
/-!
# `hlll` on integers stored in floating point numbers (`Lattice<long double, ...>`, `Lattice<double, ...>`)

`relations_f.cc` runs `hlll` on `Z_NR<long double>` and `Z_NR<double>`: every operation on an entry is the floating point
operation.  Entries are integers: sums, products and roundings of integers are integers.
-/

namespace HPLLL

variable {F : Type} (o : FPOps F)

/-- New value of the entry `a` of column `kappa`, for the entry `b` of column `i`, and whether the result is that of exact
integers: `sub`, `add`, `addmul_si`, `submul`, `mul_si`, `mul_2si`, `set_f` of nr_Z_ld.h:139-218, 285-288 (`Z_NR<double>` of
fplll is the same text), selected as in `redZ` (hlll.cc:1320-1396, mat.h:401-416).  `rd` is the rounding of the type,
`rdE` the conversion of the argument of `ldexp` (identity when the overload for the type is chosen, rounding to `double`
otherwise).  Simplified: no overflow of the exponent; `set_f` copies its argument, which is an integer for the size
reduction (`xz = x` is rounded) but not for Seysen's reduction without the long flag. -/
def fEntry (rd rdE : Int → Int) (fastLong : Bool) (x xz : F) (a b : Int) : Int × Bool :=
  let (lx, expo) := o.getSiExp x
  let long := decide (-(2 ^ 63) < lx ∧ lx < 2 ^ 63)
  let z := o.toZ xz
  let ex := fun t : Int => decide (rd t = t)
  if expo = 0 then
    if lx = 1 then (rd (a - b), ex (a - b))
    else if lx = -1 then (rd (a + b), ex (a + b))
    else if fastLong then
      (rd (a + rd (b * rd (-lx))), long && ex (-lx) && ex (b * -lx) && ex (a + b * -lx))
    else (rd (a - rd (rd z * b)), ex z && ex (z * b) && ex (a - z * b))
  else if fastLong then
    (rd (a + rdE (rd (b * rd (-lx))) * 2 ^ expo),
      long && ex (-lx) && ex (b * -lx) && decide (rdE (b * -lx) = b * -lx) && ex (a + b * -lx * 2 ^ expo))
  else (rd (a - rd (rd z * b)), ex z && ex (z * b) && ex (a - z * b))

/-- `hlll(delta, verbose)` (hlll.cc:38-277) on such entries; the flag `ub` also records an inexact operation. -/
def fHlll (rd rdE : Int → Int) (fuel : Nat) (deltab : F) (verbose : Bool) (s : Lat F) : Option (Int × Lat F) :=
  gHlll o (fEntry o rd rdE) fuel deltab verbose s

/-- Rounding of an integer to `p` significant bits, to nearest, ties to even (IEEE 754; `p = 53` for `double`, 64 for
`long double` on x86). -/
def roundZ (p : Nat) (z : Int) : Int :=
  if z.natAbs ≤ 2 ^ p then z
  else
    let u : Int := 2 ^ (z.natAbs.log2 + 1 - p)
    let f := z / u
    let r := z % u
    if 2 * r < u then f * u else if 2 * r = u then (if f % 2 = 0 then f * u else (f + 1) * u) else (f + 1) * u

end HPLLL
