import Mathlib.Data.Real.Sqrt
import Verif.Model.Cont
/-!
# Model of class `MatrixPE<T, DPET>` (src/matpe.h)

A column is an array of significands with one common exponent: entry `(i,j)` is
`M[j][i] * 2^exp[j]`.  Significands (`double`, `long double`) are modelled by real numbers, hence
with exact arithmetic, and exponents (`int`) by unbounded integers: rounding, underflow and overflow
of the significands and overflow of the exponents are *not* modelled.  The specialisations for
`double`/`dpe_t` are cited; those for `long double`/`ldpe_t` have the same text.

A number of type `dpe_t` is a pair significand, exponent.  `rep : ℝ → ℝ × ℤ` gives the pair which
holds a value (`frexp`, `dpe_normalize`, `mpz_get_d_2exp`); nothing but `m * 2^e = x` is used of it.
-/

namespace HPLLL
namespace PE

/-- `M` and `exp` (matpe.h:38-45); the dimensions are arguments of the methods which use them. -/
structure MatPE where
  M : Nat → Nat → ℝ
  exp : Nat → ℤ

/-- `colexp<T>` (matpe.h): pointer to significands, exponent. -/
structure Col where
  col : Nat → ℝ
  exp : ℤ

/-- `ldexp(x, e)` in exact arithmetic. -/
noncomputable def ldexp (x : ℝ) (e : ℤ) : ℝ := x * (2 : ℝ) ^ e

/-- The number held by a `dpe_t`. -/
noncomputable def dval (a : ℝ × ℤ) : ℝ := ldexp a.1 a.2

/-- Replaces significands and exponent of column `j`. -/
def MatPE.put (m : MatPE) (j : Nat) (v : Nat → ℝ) (e : ℤ) : MatPE :=
  ⟨setCol m.M j v, setAt m.exp j e⟩

/-- `resize(rows, cols)` (matpe.h:72-92) on the entries which exist afterwards. -/
def zero : MatPE := ⟨fun _ _ => 0, fun _ => 0⟩

/-- `get_non_normalized(i,j)` (matpe.h:599-607). -/
def MatPE.getRaw (m : MatPE) (j i : Nat) : ℝ × ℤ := (m.M j i, m.exp j)

/-- `get(i,j)` (matpe.h:574-583), the number held by the result. -/
noncomputable def MatPE.get (m : MatPE) (j i : Nat) : ℝ := dval (m.getRaw j i)

/-- `getcol(j,i)` (matpe.h:186-194). -/
def MatPE.getcol (m : MatPE) (j i : Nat) : Col := ⟨fun r => m.M j (i + r), m.exp j⟩

open Classical in
/-- `set(i,j,x)` (matpe.h:118-138 and 517-543) with `n` rows; `a` is the significand and exponent
of `x`. -/
noncomputable def MatPE.set (n : Nat) (m : MatPE) (j i : Nat) (a : ℝ × ℤ) : MatPE :=
  if a.1 = 0 then m.put j (setAt (m.M j) i 0) (m.exp j)
  else
    let d := a.2 - m.exp j
    if 0 ≤ d then
      m.put j (fun k => if k = i then a.1 else if k < n then ldexp (m.M j k) (-d) else m.M j k) a.2
    else m.put j (setAt (m.M j) i (ldexp a.1 d)) (m.exp j)

/-- `max` over `beg <= i < beg+l` of the exponents, starting from `e0` = `INT_MIN`
(matpe.h:780-788, 1019-1023). -/
def maxExp (e : Nat → ℤ) (e0 : ℤ) (beg l : Nat) : ℤ :=
  (List.range l).foldl (fun m i => max m (e (beg + i))) e0

/-- `setcol(j, vec, beg, l)` from an array of numbers given by significand and exponent: the three
loops of matpe.h:777-795 (`mpz_t`), 835-1000 (`long`, `__int128_t`, `double`, `mpfr_t`) and, with
`beg = 0`, 1003-1033 (`dpe_t`).  `e0` is `INT_MIN`. -/
noncomputable def MatPE.setcolV (e0 : ℤ) (m : MatPE) (j : Nat) (v : Nat → ℝ × ℤ) (beg l : Nat) : MatPE :=
  if l = 0 then m
  else
    let me := maxExp (fun i => (v i).2) e0 beg l
    m.put j (fun i => if beg ≤ i ∧ i < beg + l then ldexp (v i).1 ((v i).2 - me) else m.M j i) me

/-- `setcol(j, c, beg, l)` from a column of a mixed matrix (matpe.h:1036-1082): rows `< dR` come from
the `mpfr_t` part, row `i + dR` from entry `i` of the `mpz_t` part.  The second loop always starts at
`i = 0`, whatever `beg` is: for `beg > dR` rows `dR .. beg-1` receive significands which are not
aligned with the new exponent and take part in the maximum. -/
noncomputable def MatPE.setcolMixed (e0 : ℤ) (m : MatPE) (j : Nat) (vR vZ : Nat → ℝ × ℤ)
    (dR beg l : Nat) : MatPE :=
  if l = 0 then m
  else
    let v := fun i => if i < dR then vR i else vZ (i - dR)
    -- rows written by the two conversion loops
    let w := fun i => (beg ≤ i ∧ i < beg + l ∧ i < dR) ∨ (dR ≤ i ∧ i < beg + l)
    let me := max (maxExp (fun i => (v i).2) e0 beg (min (beg + l) dR - beg))
                (maxExp (fun i => (vZ i).2) e0 0 (beg + l - dR))
    m.put j (fun i => if beg ≤ i ∧ i < beg + l then ldexp (v i).1 ((v i).2 - me)
                      else if w i then (v i).1 else m.M j i) me

/-- `setcol(j, wcol, nmax)` (matpe.h:199-211); the version with `beg` (matpe.h:214-225) has the same
text and ignores `beg`. -/
def MatPE.setcolW (m : MatPE) (j : Nat) (w : Col) (l : Nat) : MatPE :=
  if l = 0 then m else m.put j (fun i => if i < l then w.col i else m.M j i) w.exp

/-- `colswap(j,k)` (matpe.h:247-255). -/
def MatPE.colswap (m : MatPE) (j k : Nat) : MatPE :=
  ⟨HPLLL.colswap m.M j k, setAt (setAt m.exp k (m.exp j)) j (m.exp k)⟩

/-- `subcol(j,k,l)` (matpe.h:281-299). -/
noncomputable def MatPE.subcol (m : MatPE) (j k l : Nat) : MatPE :=
  if l = 0 then m
  else
    let d := m.exp j - m.exp k
    if 0 ≤ d then
      m.put j (fun i => if i < l then m.M j i - ldexp (m.M k i) (-d) else m.M j i) (m.exp j)
    else m.put j (fun i => if i < l then ldexp (m.M j i) d - m.M k i else m.M j i) (m.exp k)

/-- `addcol(j,k,l)` (matpe.h:329-364). -/
noncomputable def MatPE.addcol (m : MatPE) (j k l : Nat) : MatPE :=
  if l = 0 then m
  else
    let d := m.exp j - m.exp k
    if d = 0 then m.put j (fun i => if i < l then m.M j i + m.M k i else m.M j i) (m.exp j)
    else if 0 < d then
      m.put j (fun i => if i < l then m.M j i + ldexp (m.M k i) (-d) else m.M j i) (m.exp j)
    else m.put j (fun i => if i < l then ldexp (m.M j i) d + m.M k i else m.M j i) (m.exp k)

/-- `submulcol(j,k,a,l)` (matpe.h:623-650). -/
noncomputable def MatPE.submulcol (m : MatPE) (j k : Nat) (a : ℝ × ℤ) (l : Nat) : MatPE :=
  if l = 0 then m
  else
    let expprod := a.2 + m.exp k
    let d := m.exp j - expprod
    if 0 ≤ d then
      m.put j (fun i => if i < l then m.M j i - ldexp a.1 (-d) * m.M k i else m.M j i) (m.exp j)
    else
      m.put j (fun i => if i < l then ldexp (m.M j i) d - a.1 * m.M k i else m.M j i) expprod

open Classical in
/-- `fmasub(j,k,w,z,a,nmax)` (matpe.h:405-457): rows `k .. k+nmax-1` become `w - a*z`.  The rows
above `k` are rescaled in the last branch only. -/
noncomputable def MatPE.fmasub (m : MatPE) (j k : Nat) (w z : Col) (a : ℝ × ℤ) (l : Nat) : MatPE :=
  if l = 0 then m
  else if a.1 = 0 then
    m.put j (fun i => if k ≤ i ∧ i < k + l then w.col (i - k) else m.M j i) w.exp
  else
    let expprod := a.2 + z.exp
    let d := w.exp - expprod
    if 0 ≤ d then
      m.put j (fun i => if k ≤ i ∧ i < k + l then w.col (i - k) - ldexp a.1 (-d) * z.col (i - k)
                        else m.M j i) w.exp
    else
      m.put j (fun i => if k ≤ i ∧ i < k + l then (2 : ℝ) ^ d * w.col (i - k) - a.1 * z.col (i - k)
                        else if i < k then (2 : ℝ) ^ d * m.M j i else m.M j i) expprod

/-- `div(j,k,w,a,nmax)` (matpe.h:1170-1187). -/
noncomputable def MatPE.div (m : MatPE) (j k : Nat) (w : Col) (a : ℝ × ℤ) (l : Nat) : MatPE :=
  if l = 0 then m
  else
    m.put j (fun i => if k ≤ i ∧ i < k + l then w.col (i - k) * (1 / a.1) else m.M j i)
      (w.exp - a.2)

/-- `tmpnn = v[0]*w[0]; for (i = 1 ...) tmpnn += v[i]*w[i]` (matpe.h:1268-1272). -/
noncomputable def dotSig (v w : Nat → ℝ) (l : Nat) : ℝ :=
  (List.range (l - 1)).foldl (fun acc i => acc + v (i + 1) * w (i + 1)) (v 0 * w 0)

/-- `fp_norm_sq(nn, v, nmax)` (matpe.h:1255-1277); `nn` is untouched when `nmax = 0`. -/
noncomputable def fpNormSq (v : Col) (l : Nat) (nn : ℝ) : ℝ :=
  if l = 0 then nn else dval (dotSig v.col v.col l, 2 * v.exp)

/-- `fp_norm(nn, v, nmax)` (matpe.h:1210-1231). -/
noncomputable def fpNorm (v : Col) (l : Nat) (nn : ℝ) : ℝ :=
  if l = 0 then nn else Real.sqrt (dval (dotSig v.col v.col l, 2 * v.exp))

/-- `scalarprod(nn, v, w, nmax)` (matpe.h:1327-1349). -/
noncomputable def scalarprod (v w : Col) (l : Nat) (nn : ℝ) : ℝ :=
  if l = 0 then nn
  else dval ((List.range l).foldl (fun acc i => acc + v.col i * w.col i) 0, v.exp + w.exp)

/-- `MatrixPE` as an argument of the template `Lattice`; `n` is the number of rows, `e0` is
`INT_MIN`. -/
noncomputable def cont (n : Nat) (e0 : ℤ) (rep : ℝ → ℝ × ℤ) : Cont ℝ MatPE Col (ℝ × ℤ) where
  get := MatPE.get
  getcol := MatPE.getcol
  getRaw := MatPE.getRaw
  set m j i x := m.set n j i (rep x)
  setcolZ m j b l := m.setcolV e0 j (fun i => rep (b i)) 0 l
  setcolW := MatPE.setcolW
  setcolV m j v l := m.setcolV e0 j v 0 l
  fmasub m j k w z a l := m.fmasub j k w z (rep a) l
  div m j k w a l := m.div j k w (rep a) l
  colswap := MatPE.colswap
  addcol := MatPE.addcol
  subcol := MatPE.subcol
  submulcol m j k a l := m.submulcol j k (rep a) l
  normSq := fpNormSq
  norm := fpNorm
  scalarprod := scalarprod

/-- `init` and the constructor (hlll.cc:1991-2080) of `Lattice<ZT, FT, MatrixZT, MatrixPE>`, followed by
`set_num_S(S, thr)` and `set_nblov_max(nb)`.  `MatrixPE::resize` fills with zeros; `junk` is the
content of the other floating point members. -/
noncomputable def newLattice (junk : ℝ) (n d : Nat) (A : Mat Int) (forU : Bool) (method : Int)
    (longFlag : Bool) (verboseDepth : Int) (S : Nat) (thr : Int) (nb : Nat) : LatG ℝ MatPE :=
  { z :=
      { n := n, d := d, transf := forU, B := A, U := idMat
        kappaMax := d, nblovMax := nb
        str := matrixStructure n A
        nblov := 0, nbswaps := 0, numS := S, parThr := thr
        seysenFlag := method, fastLong := longFlag
        verboseDepth := verboseDepth
        ub := false }
    fp :=
      { R := zero, Rkept := zero, V := zero, Bfp := zero, VR := fun _ _ => junk
        normB2 := fun _ => junk, x := junk, nmaxkappa := 0
        colKept := fun _ => false, kappamin := fun _ => -1, descendu := fun _ => 0 } }

end PE

/-- `getbase()` (hlll.cc:1934-1943). -/
def LatG.getbase {F M : Type} (s : LatG F M) : ZMat := ⟨s.z.n, s.z.d, s.z.B⟩

/-- `getU()` (hlll.cc:1952-1966). -/
def LatG.getU {F M : Type} (s : LatG F M) : ZMat :=
  if s.z.transf then ⟨s.z.d, s.z.d, s.z.U⟩ else ⟨0, 0, fun _ _ => 0⟩

end HPLLL
