import Verif.Model.MatH
import Verif.Model.Householder
import Verif.Model.Trunc
/-!
# Model of `lcond` (src/hlll.cc:2513-2755), `ratio` (src/ratio.h:43-180), the quantities printed by
`isreduced` (src/hlll.cc:2301-2322), and of the global mpfr precision

`M j i` is C++ `M(i,j)`.
-/

namespace HPLLL

variable {F G : Type} (o : FPOps F)

/-! ## Inverse of a triangular matrix and condition number -/

/-- `aR(i,j).abs(R(i,j))` for all `i, j` (hlll.cc:2594-2596, ratio.h:70-74). -/
def absMat (d : Nat) (R A : Mat F) : Mat F :=
  forRange 0 d (fun i A => forRange 0 d (fun j A => setEntry A i j (o.abs (R j i))) A) A

/-- One iteration `j` of "Higham p263 Method 1" (hlll.cc:2611-2624, ratio.h:89-102): row `j` of `iR`. -/
def highamRow (d j : Nat) (aR R X : Mat F) : Mat F :=
  let X := setEntry X j j (o.div o.one (aR j j))
  let X := forRange (j + 1) d (fun k X => setEntry X j k (o.neg (o.mul (X j j) (R k j)))) X
  forRange (j + 1) d (fun k X =>
    let X := forRange (j + 1) k (fun i X =>
      setEntry X j k (o.sub (X k j) (o.mul (X i j) (R k i)))) X
    setEntry X j k (o.div (X k j) (R k k))) X

/-- The loop on `j`. -/
def higham (d : Nat) (aR R X : Mat F) : Mat F := forRange 0 d (fun j X => highamRow o d j aR R X) X

/-- Identity on the diagonal, the other entries of `X` unchanged (hlll.cc:2604). -/
def setDiagOne (d : Nat) (X : Mat F) : Mat F := forRange 0 d (fun i X => setEntry X i i o.one) X

/-- `prod(i,j)`: `mul` then `addmul` for `k = 1 .. d-1` (hlll.cc:2636-2641, ratio.h:114-119). -/
def prodAbs (d : Nat) (aR iR : Mat F) (i j : Nat) : F :=
  forRange 1 d (fun k t => o.addmul t (aR k i) (iR j k)) (o.mul (aR 0 i) (iR j 0))

/-- Square root of the sum of the squares (hlll.cc:2645-2652, ratio.h:123-131). -/
def frob (d : Nat) (P : Nat → Nat → F) : F :=
  o.sqrt (forRange 0 d (fun i c => forRange 0 d (fun j c => o.addmul c (P i j) (P i j)) c) o.zero)

/-- `|| |R| |R^-1| ||_F` as computed by `lcond` and `ratio` from the initial content `X` of `iR`. -/
def condOf (d : Nat) (R X : Mat F) : F :=
  let aR := absMat o d R fun _ _ => o.zero
  let iR := higham o d aR R X
  let iR := absMat o d iR iR
  frob o d (prodAbs o d aR iR)

/-! ## `lcond` -/

/-- `lcond(ANY, DEFAULT_PREC)` (hlll.cc:2584-2655): `iR` is resized and only its diagonal is
initialised (hlll.cc:2601-2604); `junk` is the content of the fresh storage.  `expo` is
`FP_NR<FT>::exponent`. -/
def Lat.lcondAny (expo : F → Int) (junk : Mat F) (s : Lat F) : Int :=
  let R := (s.householder o).fp.R
  expo (condOf o s.d R (setDiagOne o s.d junk))

/-- Size-reducedness `eta` (hlll.cc:2550-2558). -/
def triEta (d : Nat) (R : Mat F) : F :=
  forRange 1 d (fun j eta => forRange 0 j (fun i eta =>
    let tmp := o.abs (o.div (R j i) (R i i))
    if o.lt eta tmp then tmp else eta) eta) o.zero

/-- `maxquo` (hlll.cc:2562-2570). -/
def triMaxquo (d : Nat) (R : Mat F) : F :=
  forRange 0 d (fun j mq => forRange 0 d (fun i mq =>
    let tmp := o.abs (o.div (R j j) (R i i))
    if o.lt mq tmp then tmp else mq) mq) o.zero

/-- `lcond(TRIANGULAR_PROPER, DEFAULT_PREC)` (hlll.cc:2538-2581): `R` is the upper triangular part of
the basis.  `dd.exponent()` is the number of bits of `d` (fplll, `d > 0`). -/
def Lat.lcondTri (expo : F → Int) (s : Lat F) : Int :=
  let R := forRange 0 s.d (fun j R => fsetcolZ o R j (s.B j) (j + 1)) s.fp.R
  let condb := expo (triMaxquo o s.d R)
  let eta := o.add o.one (triEta o s.d R)
  let condb := condb + ((s.d : Int) - 1 + expo eta)
  condb + (1 + (sizeInBits s.d : Int))

/-- The object created at precision `prec` by the other branches of `lcond`, on `getbase()`, and its
`lcond(ANY, DEFAULT_PREC)` (hlll.cc:2683-2685, 2714-2716, 2742-2744); `mp prec` is the mpfr arithmetic
of that precision, `junk prec` its fresh storage. -/
def lcondAt (mp : Nat → FPOps G) (expo : G → Int) (junk : Nat → Mat G) (n d : Nat) (B : Mat Int)
    (prec : Nat) : Int :=
  (newLattice (mp prec) (junk prec 0 0) n d B false 0 true 0).lcondAny (mp prec) expo (junk prec)

/-- `while (found == false)` (hlll.cc:2707-2722); `at` the condition number at a precision.  Result:
the value, and the global default precision. -/
def lcondLoop (at_ : Nat → Int) (flagprec : Nat) : Nat → Nat → Int → Option (Int × Nat)
  | 0, _, _ => none
  | fuel + 1, prec, oldcond =>
    let prec := prec + flagprec
    let cond := at_ prec
    if cond = oldcond then some (cond, prec) else lcondLoop at_ flagprec fuel prec cond

/-- `lcond(tproper, flagprec, flagheur)` (hlll.cc:2529-2755): the value returned and the global default
mpfr precision afterwards.  `pr` is the default precision before, `own` is `getprec()`: the precision
of the object's own numbers (53 for `double`). -/
def Lat.lcond (expo : F → Int) (mp : Nat → FPOps G) (expoG : G → Int) (junk : Mat F)
    (junkG : Nat → Mat G) (fuel : Nat) (tproper flagprec flagheur : Int) (own pr : Nat) (s : Lat F) :
    Option (Int × Nat) :=
  if flagprec = 0 then
    if tproper = 1 then some (s.lcondTri o expo, pr) else some (s.lcondAny o expo junk, pr)
  else if flagprec ≥ 2 ∧ flagheur = 0 then
    -- the statement restoring the precision follows `return`
    some (lcondAt mp expoG junkG s.n s.d s.B flagprec.toNat, flagprec.toNat)
  else if flagprec ≥ 2 ∧ flagheur = 1 then
    match lcondLoop (lcondAt mp expoG junkG s.n s.d s.B) flagprec.toNat fuel 0 0 with
    | none => none
    | some (cond, _) => some (cond, own)
  else if flagprec = 1 then
    let prec := 2 * s.d * maxbitsize s.n s.d s.B
    some (lcondAt mp expoG junkG s.n s.d s.B prec, prec)
  else some (0, pr)

/-! ## `ratio` -/

/-- Values computed by `ratio`: `fcond` is `cc` before `mpfr_log2` (ratio.h:131), `c` and the two
diagonal ratios as returned. -/
structure RatioOut (F : Type) where
  fcond : F
  avRatio : F
  maxRatio : F
  c : F

/-- `ratio(B, lfcond, av_ratio, max_ratio, c)` (ratio.h:43-180) from `R = getR()` on; `lg` is
`mpfr_log2`, `pw` is `pow(2.0, .)`, `cd` the conversion of the dimension `d`.  Conversions to `double`
(`get_d`) are not modelled. -/
def ratioOf (lg pw : F → F) (cd : F) (d : Nat) (R : Mat F) : RatioOut F :=
  let aR := absMat o d R fun _ _ => o.zero
  let q := forRange 1 d (fun i (q : F × F) =>
    let tt := o.div (aR (i - 1) (i - 1)) (aR i i)
    (o.add q.1 tt, if o.lt q.2 tt then tt else q.2)) (o.zero, o.zero)
  let t := lg (aR 0 0)
  let v := forRange 1 d (fun i v => o.mul v (aR i i)) (aR 0 0)
  let v := o.div (lg v) cd
  { fcond := condOf o d R (setDiagOne o d fun _ _ => o.zero)
    avRatio := o.div q.1 cd
    maxRatio := q.2
    c := pw (o.div (o.sub t v) cd) }

/-- `ratio` on an integer basis: `Lattice L(B); L.householder(); R = L.getR()` (ratio.h:54-60), after
`mpfr_set_default_prec(2 * d)` (ratio.h:50): the values and the global default precision, which is not
restored. -/
def ratio (mp : Nat → FPOps G) (lg pw : G → G) (junk : G) (n d : Nat) (B : Mat Int) :
    RatioOut G × Nat :=
  let o := mp (2 * d)
  let R := ((newLattice o junk n d B false 0 true 0).householder o).getR o junk
  (ratioOf o lg pw (o.ofZ d) d R, 2 * d)

/-- `ratio0(B, lfcond, av_ratio, max_ratio, c)` (ratio.h:202-368): the text of `ratio` for a generic type `FT`,
with `log(.) / log(2.0)` (`ln`, `l2`) for `mpfr_log2`; the global precision is neither used nor changed. -/
def ratio0 (o : FPOps G) (ln pw : G → G) (l2 junk : G) (n d : Nat) (B : Mat Int) : RatioOut G :=
  ratioOf o (fun x => o.div (ln x) l2) pw (o.ofZ d) d
    (((newLattice o junk n d B false 0 true 0).householder o).getR o junk)

/-! ## The `delta` printed by `isreduced` -/

/-- `delta` (hlll.cc:2304-2322): minimum over `k` of `(R(k,k+1)^2 + R(k+1,k+1)^2) / R(k,k)^2`, the first
one being capped at 1. -/
def printedDelta (d : Nat) (R : Mat F) : F :=
  let q (k : Nat) := o.div (o.add (o.mul (R (k + 1) k) (R (k + 1) k))
    (o.mul (R (k + 1) (k + 1)) (R (k + 1) (k + 1)))) (o.mul (R k k) (R k k))
  let delta := if o.le o.one (q 0) then o.one else q 0
  forRange 1 (d - 1) (fun k delta => if o.lt (q k) delta then q k else delta) delta

end HPLLL
