import Verif.Model.SetcolFin
/-!
# `MatrixPE` columns from extended numbers, with `int` exponents (src/matpe.h)

Significands as in `Model/SetcolFin`.  Here the arithmetic of exponents is that of `int`, 32 bits, wrapping
around as gcc's code does (overflow is undefined in C++).  The versions for `long double`, `ldpe_t`
(matpe.h:367-395, 737-771, 1149-1180) have the same text.
-/

namespace HPLLL
namespace PE

/-- The result of an operation on `int`. -/
def wrap32 (z : ℤ) : ℤ := Int.bmod z (2 ^ 32)

/-- `setcol(j, vd, nmax)` (matpe.h:1005-1033) from an array of `dpe_t` given by significand and exponent;
`d` starts at `INT_MIN`. -/
def setcolDpe (w : Nat) (rd : ℚ → ℤ) (c : (Nat → ℚ) × ℤ) (vd : Nat → ℚ × ℤ) (nmax : Nat) : (Nat → ℚ) × ℤ :=
  if nmax = 0 then c
  else
    let d := maxExp (fun i => (vd i).2) (-2 ^ 31) 0 nmax
    (fun i => if i < nmax then ldexpFin w rd (vd i).1 (wrap32 ((vd i).2 - d)) else c.1 i, d)

/-- `addcol(j, k, l)` (matpe.h:334-361) on column `j`; `fl` is the rounding of additions. -/
def addcolFin (w : Nat) (rd : ℚ → ℤ) (fl : ℚ → ℚ) (cj ck : (Nat → ℚ) × ℤ) (l : Nat) : (Nat → ℚ) × ℤ :=
  if l = 0 then cj
  else
    let d := wrap32 (cj.2 - ck.2)
    if d = 0 then (fun i => if i < l then fl (cj.1 i + ck.1 i) else cj.1 i, cj.2)
    else if 0 < d then
      (fun i => if i < l then fl (cj.1 i + ldexpFin w rd (ck.1 i) (wrap32 (-d))) else cj.1 i, cj.2)
    else (fun i => if i < l then fl (ldexpFin w rd (cj.1 i) d + ck.1 i) else cj.1 i, ck.2)

/-- `frexp`: significand in `[1/2, 1)` and exponent. -/
def frexp (x : ℚ) : ℚ × ℤ :=
  if x = 0 then (0, 0) else (x / 2 ^ (Int.log 2 |x| + 1), Int.log 2 |x| + 1)

/-- `normalize(j, nmax)` (matpe.h:700-734); `d` starts at `0`. -/
def normalizeFin (w : Nat) (rd : ℚ → ℤ) (c : (Nat → ℚ) × ℤ) (nmax : Nat) : (Nat → ℚ) × ℤ :=
  if nmax = 0 then c
  else
    let tmpexp := fun i => if c.1 i = 0 then -2 ^ 31 else wrap32 (c.2 + (frexp (c.1 i)).2)
    let d := maxExp tmpexp 0 0 nmax
    (fun i => if i < nmax then ldexpFin w rd (frexp (c.1 i)).1 (wrap32 (tmpexp i - d)) else c.1 i, d)

end PE
end HPLLL
