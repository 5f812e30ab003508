import Verif.Model.Householder
/-!
# Sequences of calls on one `Lattice` object
-/

namespace HPLLL

variable {F : Type} (o : FPOps F)

/-- fplll `Z_NR<mpz_t>::mul_2si(A, s)`: `mpz_mul_2exp`, or `mpz_div_2exp` (the GMP alias of
`mpz_fdiv_q_2exp`, rounding towards minus infinity) for negative `s`.  fplll is not in /repo: this is
an assumption on the library.  `Z_NR<__int128_t>` (nr_Z_l128.h:322-330) shifts, which is the same. -/
def mul2si (a : Int) (s : Int) : Int :=
  if 0 ≤ s then a * 2 ^ s.toNat else a / 2 ^ (-s).toNat

/-- `shift_assign(A, shift, sigma)` (hlll.cc:2147-2181): row `i` is multiplied by `2^shift[i]`, the
rest is the text of `assign`; `sigma` is not used. -/
def Lat.shiftAssign (A : Mat Int) (sh : Nat → Int) (s : Lat F) : Lat F :=
  s.assign fun j i => mul2si (A j i) (sh i)

/-- `put(A, upperdim, t, tau)` (hlll.cc:2193-2210); `T` is the matrix computed by `trunc` (mat.h).
Neither `structure` nor the bookkeeping vectors are recomputed ("Cf structure, colkept, kappamin"). -/
def Lat.put (T : Mat Int) (s : Lat F) : Lat F :=
  { s with B := fun j i => if j < s.d ∧ i < s.n then T j i else s.B j i
           U := if s.transf then idMat else s.U }

/-- Calls of the public interface.  Every call that computes carries its own arithmetic (the
precision may be changed between calls) and `junk`, the content of reallocated storage. -/
inductive Call (F : Type) where
  | hlll (o : FPOps F) (delta : F) (verbose : Bool)
  | assign (A : Mat Int)
  | shiftAssign (A : Mat Int) (sh : Nat → Int)
  | setNblovMax (nb : Nat)
  | setNumS (S : Nat) (thr : Int)
  | setprec (o : FPOps F) (junk : F)
  | householder (o : FPOps F)

/-- One call, when it returns. -/
inductive Does : Lat F → Call F → Lat F → Prop
  | hlll (o : FPOps F) (δ : F) (v : Bool) (s s' : Lat F) (fuel : Nat) (st : Int)
      (h : HPLLL.hlll o fuel δ v s = some (st, s')) : Does s (.hlll o δ v) s'
  | assign (A : Mat Int) (s : Lat F) : Does s (.assign A) (s.assign A)
  | shiftAssign (A : Mat Int) (sh : Nat → Int) (s : Lat F) :
      Does s (.shiftAssign A sh) (s.shiftAssign A sh)
  | setNblovMax (nb : Nat) (s : Lat F) : Does s (.setNblovMax nb) (s.setNblovMax nb)
  | setNumS (S : Nat) (thr : Int) (s : Lat F) : Does s (.setNumS S thr) (s.setNumS S thr)
  | setprec (o : FPOps F) (junk : F) (s : Lat F) : Does s (.setprec o junk) (s.setprec o junk)
  | householder (o : FPOps F) (s : Lat F) : Does s (.householder o) (s.householder o)

/-- A history of returned calls, the oldest first. -/
inductive Runs : Lat F → List (Call F) → Lat F → Prop
  | nil (s : Lat F) : Runs s [] s
  | snoc (s t u : Lat F) (cs : List (Call F)) (c : Call F) :
      Runs s cs t → Does t c u → Runs s (cs ++ [c]) u

end HPLLL
