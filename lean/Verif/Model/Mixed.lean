import Verif.Model.Trunc
import Verif.Model.GenAlg
/-!
# Model of the mixed matrices `MatrixRZ` (src/matmixed.h, src/mixed-col.h)

A mixed matrix has `d` rows of floating point numbers above `m` rows of integers.  `MatrixT` is `matrix`.
Printing and `clear` are not modelled.
-/

namespace HPLLL

/-- Members of `MatrixRZ` (matmixed.h:38-40). -/
structure MRZ (F : Type) where
  d : Nat
  m : Nat
  n : Nat
  F : Mat F
  A : Mat Int

variable {F : Type} (o : FPOps F) (mul2 : F → Int → F)

/-- `set(i, j, ZT a)` (matmixed.h:107-109): row `i - d` of the integer part; `none`: index out of range. -/
def MRZ.setZ (M : MRZ F) (i j : Nat) (a : Int) : Option (MRZ F) :=
  if M.d ≤ i ∧ i - M.d < M.m ∧ j < M.n then some { M with A := setEntry M.A (i - M.d) j a } else none

/-- `set(i, j, RT a)`, `setRT(i, j, a)` (matmixed.h:99-105). -/
def MRZ.setRT (M : MRZ F) (i j : Nat) (a : F) : Option (MRZ F) :=
  if i < M.d ∧ j < M.n then some { M with F := setEntry M.F i j a } else none

/-- `setZT(i, j, a)` (matmixed.h:111-113). -/
def MRZ.setZT (M : MRZ F) (i j : Nat) (a : Int) : Option (MRZ F) :=
  if i < M.m ∧ j < M.n then some { M with A := setEntry M.A i j a } else none

/-- `get(i, j)`, `getZT(i, j)` (matmixed.h:93-96). -/
def MRZ.get (M : MRZ F) (i j : Nat) : Option Int :=
  if i < M.m ∧ j < M.n then some (M.A j i) else none

/-- `getRT(i, j)` (matmixed.h:91). -/
def MRZ.getRT (M : MRZ F) (i j : Nat) : Option F :=
  if i < M.d ∧ j < M.n then some (M.F j i) else none

/-- `addmulcol` at `T = FP_NR<FT>` (mat.h:438-446). -/
def faddmulcol (M : Mat F) (j k : Nat) (a : F) (l : Nat) : Mat F :=
  setCol M j fun i => if i < l then o.addmul (M j i) a (M k i) else M j i

/-- The loop of `addmulcol_si_2exp` on the real rows (matmixed.h:217-223, 226-232). -/
def faddmul2exp (M : Mat F) (j k : Nat) (x : F) (expo : Int) (l : Nat) : Mat F :=
  setCol M j fun i => if i < l then o.add (M j i) (mul2 (o.mul (M k i) x) expo) else M j i

/-- Dispatch of the column operations on the two parts (e.g. matmixed.h:130-145): `f`, `g` the operation on `l`
rows of the real and of the integer part. -/
def MRZ.col (f : Nat → Mat F → Mat F) (g : Nat → Mat Int → Mat Int) (l : Nat) (M : MRZ F) : MRZ F :=
  if M.d > 0 then
    if l ≤ M.d then { M with F := f l M.F }
    else { M with F := f M.d M.F, A := g (l - M.d) M.A }
  else { M with A := g l M.A }

/-- Column operations called by a reduction. -/
inductive MOp where
  | add (j k l : Nat)
  | sub (j k l : Nat)
  | submul (j k : Nat) (x : Int) (l : Nat)
  | addmulSi (j k : Nat) (a : Int) (l : Nat)
  | addmulSi2 (j k : Nat) (a : Int) (expo l : Nat)
  | swap (j k : Nat)

/-- `addcol` (matmixed.h:130-145), `subcol` (148-161), `submulcol` (163-179), `addmulcol_si` (182-200),
`addmulcol_si_2exp` (205-240), `colswap` (245-250). -/
def MRZ.op (M : MRZ F) : MOp → MRZ F
  | .add j k l => M.col (fun l X => faddcol o X j k l) (fun l X => addcol X j k l) l
  | .sub j k l => M.col (fun l X => fsubcol o X j k l) (fun l X => subcol X j k l) l
  | .submul j k x l => M.col (fun l X => fsubmulcol o X j k (o.ofZ x) l) (fun l X => submulcol X j k x l) l
  | .addmulSi j k a l => M.col (fun l X => faddmulcol o X j k (o.ofZ a) l) (fun l X => addmulcolSi X j k a l) l
  | .addmulSi2 j k a e l =>
    M.col (fun l X => faddmul2exp o mul2 X j k (o.ofZ a) e l) (fun l X => addmulcolSi2exp X j k a e l) l
  | .swap j k => { M with F := if M.d > 0 then colswap M.F j k else M.F, A := colswap M.A j k }

/-- `set(N)` (matmixed.h:253-263). -/
def MRZ.setM (M N : MRZ F) : MRZ F :=
  { M with
    F := forRange 0 M.d (fun i X => forRange 0 M.n (fun j X => setEntry X i j (N.F j i)) X) M.F
    A := forRange 0 M.m (fun i X => forRange 0 M.n (fun j X => setEntry X i j (N.A j i)) X) M.A }

/-- `shift(lalpha)` (matmixed.h:267-276). -/
def MRZ.shift (M : MRZ F) (lalpha : Int) : MRZ F :=
  { M with F := forRange 0 M.d (fun i X => forRange 0 M.n (fun j X => setEntry X i j (mul2 (X j i) lalpha)) X) M.F }

/-- `shift_epsilon(bits)` (matmixed.h:302-323; `get_epsilon`, matmixed.h:279-300, is `bits = 8`), `prec` the
precision of the entry `(0,0)`: the number returned, and the default precision afterwards. -/
def shiftEpsilon (e : ElemOps F) (mul : F → F → F) (bits prec : Int) : F × Int :=
  (e.exp (mul (e.ofInt (bits - prec)) (e.log (e.ofInt 2))), prec)

/-- `maxbitsizeRT()` (matmixed.h:326-339); `mpfr_get_z` is `toZ`. -/
def MRZ.maxbitsizeRT (M : MRZ F) : Nat :=
  forRange 0 M.d (fun i l => forRange 0 M.n (fun j l => max l (sizeInBits (o.toZ (M.F j i)))) l) 0

/-- `maxbitsizeZT()` (matmixed.h:341-351). -/
def MRZ.maxbitsizeZT (M : MRZ F) : Nat :=
  forRange 0 M.m (fun i l => forRange 0 M.n (fun j l => max l (sizeInBits (M.A j i))) l) 0

/-- One entry of a product of floating point matrices (mat.h:1700-1706). -/
def fprodEntry (d : Nat) (B U : Mat F) (i j : Nat) (T : Mat F) : Mat F :=
  forRange 1 d (fun k T => setEntry T i j (o.addmul (T j i) (B k i) (U j k)))
    (setEntry T i j (o.mul (B 0 i) (U j 0)))

/-- `matprod(C, B, U)` at `T = FP_NR<FT>` (mat.h:1687-1711). -/
def fmatprod (n d dres : Nat) (B U C : Mat F) : Mat F :=
  forRange 0 n (fun i C => forRange 0 dres (fun j C => fprodEntry o d B U i j C) C) C

/-- `matprod_in(MatrixRZ& B, U)` (matmixed.h:368-411), `junk` the content of the fresh matrix `F`. -/
def MRZ.matprodIn (junk : F) (U : Mat Int) (M : MRZ F) : MRZ F :=
  let P := fmatprod o M.d M.n M.n M.F (fun j i => o.ofZ (U j i)) fun _ _ => junk
  let Q := matprod M.m M.n M.n M.A U fun _ _ => 0
  { M with
    F := forRange 0 M.d (fun i X => forRange 0 M.n (fun j X => setEntry X i j (P j i)) X) M.F
    A := forRange 0 M.m (fun i X => forRange 0 M.n (fun j X => setEntry X i j (Q j i)) X) M.A }

/-- The real part after the first division (matmixed.h:456-476). -/
def mtruncUpper (ex : Int → Nat) (A : MRZ F) (tau : Int) (X : Mat F) : Mat F :=
  if tau > 0 then
    forRange 0 A.d (fun i X => forRange 0 A.n (fun j X =>
      setEntry X i j (o.div (A.F j i) (o.ofZ (10 ^ ex tau)))) X) X
  else forRange 0 A.d (fun i X => forRange 0 A.n (fun j X => setEntry X i j (A.F j i)) X) X

/-- `mixed_trunc(B, A, t, tau)` (matmixed.h:415-540), `B` of the dimensions of `A`; `ex x` is
`(long) (x * 0.301029995)` for `x >= 0` in double precision, as in `trunc`.  `none`: access out of range (`t < 0` and more
integer rows than columns). -/
def mixedTrunc (ex : Int → Nat) (A : MRZ F) (t tau : Int) (B : MRZ F) : Option (MRZ F) :=
  let B := { B with F := mtruncUpper o ex A tau B.F }
  let max2 : Nat := B.maxbitsizeRT o
  let max2 : Nat := if t > 0 then max max2 A.maxbitsizeZT else max2
  if t < 0 then
    if A.m ≤ A.n then
      some { B with A := forRange 0 A.m (fun i X => setEntry X i i 1)
                      (forRange 0 A.m (fun i X => forRange 0 A.n (fun j X => setEntry X i j 0) X) B.A) }
    else none
  else if t = 0 then
    some { B with A := forRange 0 A.m (fun i X => forRange 0 A.n (fun j X => setEntry X i j (A.A j i)) X) B.A }
  else
    let e := if (max2 : Int) - t ≤ 0 then 0 else ex (max2 - t)
    some { B with
      F := forRange 0 A.d (fun i X => forRange 0 A.n (fun j X =>
        setEntry X i j (o.div (X j i) (o.ofZ (10 ^ e)))) X) B.F
      A := forRange 0 A.m (fun i X => forRange 0 A.n (fun j X =>
        setEntry X i j ((A.A j i).tdiv (10 ^ e))) X) B.A }

/-- Last row `< m` of a column of the real part which is not zero (matmixed.h:614). -/
def flastNonzero (c : Nat → F) : Nat → Int
  | 0 => -1
  | m + 1 => if o.isZero (c m) then flastNonzero c m else (m : Int)

/-- `structure[k]` after the first loop of `matrix_structure` (matmixed.h:608-618). -/
def mrzLast (M : MRZ F) (k : Nat) : Int :=
  let i := lastNonzero (M.A k) M.m
  if i = -1 then flastNonzero o (M.F k) M.d else i + M.d

/-- `matrix_structure(structure, B, d, m, n)` (matmixed.h:602-623), with the running maximum. -/
def mrzStructure (M : MRZ F) : Nat → Int
  | 0 => mrzLast o M 0
  | k + 1 => max (mrzStructure M k) (mrzLast o M (k + 1))

/-- `setcol(j, c, beg, l)` of a floating point matrix from a column of a mixed matrix (mat.h:246-272), `conv` being
`set_mpfr`.  The second loop starts at row `d` whatever `beg` is. -/
def fsetcolMixed {G : Type} (og : FPOps G) (conv : F → G) (X : Mat G) (j : Nat) (M : MRZ F) (c beg l : Nat) : Mat G :=
  if l ≠ 0 then
    setCol X j fun i =>
      if i < M.d then (if beg ≤ i ∧ i < beg + l then conv (M.F c i) else X j i)
      else if i < beg + l then og.ofZ (M.A c (i - M.d)) else X j i
  else X

end HPLLL
