/-!
# Floating point interface

`hplll` is generic in the floating point type `FT` (`double`, `long double`, `dpe_t`, `mpfr_t`,
`dd_real`, …); all operations on `FP_NR<FT>` come from the external library fplll.  The model is
generic in the same way: a type `F` and an *uninterpreted* record of operations.  A theorem
quantified over `o : FPOps F` holds for every floating point behaviour (every precision, every
rounding, NaN or infinities, even arbitrary wrong results).  The exact-arithmetic theorems
instantiate the record with the real numbers.
-/

namespace HPLLL

/-- The operations of fplll's `FP_NR<FT>` used by `src/hlll.cc` and `src/mat.h`
(fplll itself is not in the repository, hence uninterpreted).  Modelled contract that is *assumed*:
`get_si_exp` returns a non-negative exponent (`Nat`), as documented by fplll. -/
structure FPOps (F : Type) where
  /-- the constant `0.0` -/
  zero : F
  /-- the constant `1.0` -/
  one : F
  /-- the constant `0.1` (`approx`, hlll.cc:1134) -/
  tenth : F
  /-- the constant `0.01` (`approx`, hlll.cc:302) -/
  hundredth : F
  /-- the constant `0.00000000001` (`eps`, hlll.cc:1216) -/
  eps : F
  /-- `set_z(F, Z)` : conversion of an integer (mat.h:194-216) -/
  ofZ : Int → F
  /-- `set_f(Z, F)` : conversion to an integer -/
  toZ : F → Int
  add : F → F → F
  sub : F → F → F
  mul : F → F → F
  div : F → F → F
  /-- `r.addmul(a,b)` is `addmul r a b`, i.e. `r + a*b` -/
  addmul : F → F → F → F
  /-- `r.submul(a,b)` is `submul r a b`, i.e. `r - a*b` -/
  submul : F → F → F → F
  neg : F → F
  abs : F → F
  sqrt : F → F
  /-- rounding to an integral value -/
  rnd : F → F
  /-- `x.sgn() == 0` -/
  isZero : F → Bool
  /-- `a <= b` -/
  le : F → F → Bool
  /-- `a < b` -/
  lt : F → F → Bool
  /-- `lx = x.get_si_exp(expo)` : value `lx * 2^expo` -/
  getSiExp : F → Int × Nat

end HPLLL
