import Verif.Model.Trunc
/-!
# Exchange with NTL (mat.h:2930-3092)

Matrices over NTL's `ZZ_p` are matrices of residues `0 .. p-1` (the modulus of `ZZ_p` is the `p` passed);
decimal texts exchanged with NTL are read back as the numbers written.  The NTL and GMP functions called
(`mpz_nextprime`, `inv`) are parameters.
-/

namespace HPLLL

/-- `next2prime(p, bits)` (mat.h:2933-2940); `np` is `mpz_nextprime`. -/
def next2prime (np : Int → Int) (bits : Nat) : Int := np (1 * 2 ^ (bits + 1))

/-- `zzmat_to_ntlp(Ap, A, p)` (mat.h:2949-2988), 0-based indices. -/
def zzmatToNtlp (n m : Nat) (A : Mat Int) (p : Int) (Ap : Mat Int) : Mat Int :=
  forRange 0 n (fun i Ap => forRange 0 m (fun j Ap =>
    if A j i = 0 then setEntry Ap i j 0
    else
      let zx := A j i % p
      if zx = 0 then setEntry Ap i j 0 else setEntry Ap i j zx) Ap) Ap

/-- `ntlp_to_zzmat(A, Ap, p, bits)` (mat.h:2995-3029). -/
def ntlpToZzmat (n m : Nat) (Ap : Mat Int) (p : Int) (bits : Nat) (A : Mat Int) : Mat Int :=
  let A := forRange 0 n (fun i A => forRange 0 m (fun j A =>
    let x := Ap j i
    if x = 0 then setEntry A i j 0 else setEntry A i j x) A) A
  let max : Int := 1 * 2 ^ bits
  forRange 0 n (fun i A => forRange 0 m (fun j A =>
    if A j i ≥ max then setEntry A i j (A j i - p) else A) A) A

/-- `size` of `NTL_inv` (mat.h:3043-3047). -/
def ntlSize (n : Nat) (U : Mat Int) : Nat :=
  forRange 0 n (fun i size => forRange 0 n (fun j size => max size (sizeInBits (U j i))) size) 0

/-- `NTL_inv(V, U)` (mat.h:3035-3092): `inv(det, Vntl, Untl)` is `inv U`, the entries of `Vntl` are
copied; `det` is not used. -/
def ntlInv (n : Nat) (inv : Mat Int → Int × Mat Int) (U V : Mat Int) : Mat Int :=
  let Untl := forRange 0 n (fun i M => forRange 0 n (fun j M => setEntry M i j (U j i)) M) fun _ _ => 0
  let Vntl := (inv Untl).2
  forRange 0 n (fun i V => forRange 0 n (fun j V => setEntry V i j (Vntl j i)) V) V

end HPLLL
