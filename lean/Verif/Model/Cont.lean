import Verif.Model.Lattice
/-!
# `hlll` over an arbitrary floating point matrix class

`Lattice<ZT, FT, MatrixZT, MatrixFT>` is a template in the class `MatrixFT` of its four floating
point matrices `R`, `Rkept`, `V`, `Bfp` (hlll.h:64-73): `matrix<FP_NR<FT>>` (mat.h) or `MatrixPE`
(matpe.h).  `Verif.Model.Lattice` models the first instance.  Here the same text is modelled once
more with the matrix class as a parameter: a record `Cont` of the methods of `MatrixFT` used by
`hlll()`.  `Verif.Model.MatPE` is the second instance.

The text below follows hlll.cc in the same order as `Verif.Model.Lattice`; only the accesses to the
four matrices differ.
-/

namespace HPLLL

/-- The methods of the template argument `MatrixFT` used by `hlll` (mat.h:94-518, matpe.h:30-350).
`M` is the class, `W` the type returned by `getcol` (`FP_NR<FT>*` or `colexp<T>`), `G` the type
returned by `get_non_normalized`.  Indices are in the order column, row. -/
structure Cont (F M W G : Type) where
  /-- `get(i,j)` -/
  get : M → Nat → Nat → F
  /-- `getcol(j,i)` -/
  getcol : M → Nat → Nat → W
  /-- `get_non_normalized(i,j)` -/
  getRaw : M → Nat → Nat → G
  /-- `set(i,j,x)` : `set m j i x` -/
  set : M → Nat → Nat → F → M
  /-- `setcol(j, b, 0, l)` from integers -/
  setcolZ : M → Nat → (Nat → Int) → Nat → M
  /-- `setcol(j, w, l)` from a column -/
  setcolW : M → Nat → W → Nat → M
  /-- `setcol(j, toR, l)` from a vector -/
  setcolV : M → Nat → (Nat → G) → Nat → M
  /-- `fmasub(j, k, w, z, a, l)` -/
  fmasub : M → Nat → Nat → W → W → F → Nat → M
  /-- `div(j, k, w, a, l)` -/
  div : M → Nat → Nat → W → F → Nat → M
  colswap : M → Nat → Nat → M
  addcol : M → Nat → Nat → Nat → M
  subcol : M → Nat → Nat → Nat → M
  submulcol : M → Nat → Nat → F → Nat → M
  /-- `fp_norm_sq(nn, v, l)` : the last argument is the value of `nn` before the call -/
  normSq : W → Nat → F → F
  /-- `fp_norm(nn, v, l)` -/
  norm : W → Nat → F → F
  /-- `scalarprod(nn, v, w, l)` -/
  scalarprod : W → W → Nat → F → F

/-- The integer members of `Lattice` (hlll.h:44-160) with `verboseDepth` and `ub`. -/
structure ZPart where
  n : Nat
  d : Nat
  transf : Bool
  B : Mat Int
  U : Mat Int
  kappaMax : Nat
  nblovMax : Nat
  str : Nat → Int
  nblov : Nat
  nbswaps : Nat
  numS : Nat
  parThr : Int
  seysenFlag : Int
  fastLong : Bool
  verboseDepth : Int
  ub : Bool

/-- The floating point members (hlll.h:64-88). -/
structure FPartG (F M : Type) where
  R : M
  Rkept : M
  V : M
  Bfp : M
  /-- `matrix<FP_NR<FT>>` whatever `MatrixFT` is (hlll.h:72) -/
  VR : Mat F
  normB2 : Nat → F
  x : F
  nmaxkappa : Nat
  colKept : Nat → Bool
  kappamin : Nat → Int
  descendu : Nat → Nat

/-- `Lattice<ZT, FT, MatrixZT, MatrixFT>`. -/
structure LatG (F M : Type) where
  z : ZPart
  fp : FPartG F M

variable {F M W G : Type} (o : FPOps F) (c : Cont F M W G)

namespace Gen

/-! ## householder_r (hlll.cc:1650-1801) -/

/-- Vector the reflection number `k` is applied to (hlll.cc:1699,1704). -/
def hhSrc (κ k : Nat) (p : FPartG F M) : W :=
  if k = 0 then c.getcol p.Bfp κ 0 else c.getcol p.Rkept (k - 1) k

/-- hlll.cc:1713, 1718. -/
def hhApply (κ k : Nat) (p : FPartG F M) : FPartG F M :=
  { p with Rkept := c.fmasub p.Rkept k k (hhSrc c κ k p) (c.getcol p.V k k) (p.VR κ k) (p.nmaxkappa - k) }

/-- hlll.cc:1699-1706, 1721-1725, 1751-1765. -/
def hhCompute (κ k : Nat) (p : FPartG F M) : FPartG F M :=
  hhApply c κ k
    { p with VR := setEntry p.VR k κ
                     (c.scalarprod (c.getcol p.V k k) (hhSrc c κ k p) (p.nmaxkappa - k) (p.VR κ k)) }

/-- The loops on `k`. -/
def hhComputeRange (κ a m : Nat) (p : FPartG F M) : FPartG F M :=
  (List.range' a (m - a)).foldl (fun p k => hhCompute c κ k p) p

/-- The loops on `k` with the stored products. -/
def hhApplyRange (κ a m : Nat) (p : FPartG F M) : FPartG F M :=
  (List.range' a (m - a)).foldl (fun p k => hhApply c κ k p) p

/-- Final copy into `R` through `toR` (hlll.cc:1778-1795). -/
def hhCopyR (κ : Nat) (p : FPartG F M) : FPartG F M :=
  { p with
    R := c.setcolV p.R κ
          (fun i => if i < κ then c.getRaw p.Rkept i i
                    else if κ < p.nmaxkappa then c.getRaw p.Rkept (κ - 1) i
                    else c.getRaw p.Rkept i i)
          p.nmaxkappa
    kappamin := setAt p.kappamin κ κ }

/-- Complete recomputation (hlll.cc:1738-1771). -/
def hhFull (str : Nat → Int) (B : Mat Int) (κ : Nat) (p : FPartG F M) : FPartG F M :=
  let p := { p with colKept := setAt p.colKept κ true
                    Bfp := c.setcolZ p.Bfp κ (B κ) (nmaxOf str κ) }
  let p := { p with normB2 := setAt p.normB2 κ
                      (c.normSq (c.getcol p.Bfp κ 0) (nmaxOf str κ) (p.normB2 κ)) }
  hhComputeRange c κ 1 (min κ (nmaxOf str κ)) (hhCompute c κ 0 p)

/-- Column kept (hlll.cc:1688-1735). -/
def hhKept (κ : Nat) (p : FPartG F M) : FPartG F M :=
  if p.descendu κ < 1 ∨ κ ≤ p.descendu κ then
    if p.kappamin κ = 0 then
      hhComputeRange c κ 1 (min κ p.nmaxkappa) (hhCompute c κ 0 p)
    else
      let km := (p.kappamin κ).toNat
      hhComputeRange c κ km (min κ p.nmaxkappa)
        (hhApplyRange c κ 1 (min km p.nmaxkappa) (hhApply c κ 0 p))
  else p

/-- `householder_r(kappa)` (hlll.cc:1650-1801). -/
def householderR (str : Nat → Int) (B : Mat Int) (κ : Nat) (p : FPartG F M) : FPartG F M :=
  let p := { p with nmaxkappa := nmaxOf str κ }
  if κ = 0 then
    let p :=
      if p.colKept 0 then { p with R := c.setcolW p.R 0 (c.getcol p.Bfp 0 0) (nmaxOf str 0) }
      else
        let p := { p with colKept := setAt p.colKept 0 true
                          Bfp := c.setcolZ p.Bfp 0 (B 0) (nmaxOf str 0) }
        let p := { p with R := c.setcolW p.R 0 (c.getcol p.Bfp 0 0) (nmaxOf str 0) }
        { p with normB2 := setAt p.normB2 0
                   (c.normSq (c.getcol p.R 0 0) (nmaxOf str 0) (p.normB2 0)) }
    { p with kappamin := setAt p.kappamin 0 0 }
  else
    hhCopyR c κ (if p.colKept κ then hhKept c κ p else hhFull c str B κ p)

/-- Index ranges used by `householder_r(kappa)`, as in `HPLLL.hhRIdx`. -/
def hhRIdx (n d : Nat) (str : Nat → Int) (κ : Nat) (p : FPartG F M) : Bool :=
  κ < d && 0 < n && nmaxOf str κ ≤ n &&
    (κ = 0 || !p.colKept κ || decide (0 ≤ p.kappamin κ))

/-! ## householder_v (hlll.cc:1811-1856) -/

/-- The loop `V.set(i,kappa,0.0)` for `i = a .. a+m-1` (hlll.cc:1847). -/
def zeroRows (κ a : Nat) : Nat → M → M
  | 0, m => m
  | k + 1, m => c.set (zeroRows κ a k m) κ (a + k) o.zero

/-- `householder_v(kappa)`; `n` is the number of rows. -/
def householderV (n : Nat) (κ : Nat) (p : FPartG F M) : FPartG F M :=
  let w := c.get p.R κ κ
  let len := p.nmaxkappa - κ
  let nrm := c.norm (c.getcol p.R κ κ) len o.zero
  let ge := o.le o.zero w
  let s := if ge then nrm else o.neg nrm
  let R' := c.set p.R κ κ (if ge then o.neg nrm else nrm)
  let w := o.add w s
  let s := o.sqrt (o.mul s w)
  let V' := c.div p.V κ (κ + 1) (c.getcol R' κ (κ + 1)) s (p.nmaxkappa - κ - 1)
  let V' := zeroRows o c κ p.nmaxkappa (n - p.nmaxkappa) V'
  let V' := c.set V' κ κ (o.div w s)
  { p with R := R', V := V' }

/-- Index ranges of `householder_v(kappa)`. -/
def hhVIdx (n d κ : Nat) (p : FPartG F M) : Bool := κ < d && κ < n && p.nmaxkappa ≤ n

/-! ## size reduction (hlll.cc:1137-1640) -/

/-- Update of `R` by `x` times column `i` (hlll.cc:1325-1396 and 1440-1475). -/
def redR (κ i len : Nat) (x : F) (R : M) : M :=
  let (lx, expo) := o.getSiExp x
  if expo = 0 then
    if lx = 1 then c.subcol R κ i len
    else if lx = -1 then c.addcol R κ i len
    else c.submulcol R κ i x len
  else c.submulcol R κ i x len

/-- One iteration `i` of `size_update` (hlll.cc:1305-1402). -/
def sizeUpdateStep (κ i : Nat) (q : LatG F M × Bool) : LatG F M × Bool :=
  let s := q.1
  let x := o.rnd (o.div (c.get s.fp.R κ i) (c.get s.fp.R i i))
  let s := { s with fp := { s.fp with x := x } }
  if o.isZero x then (s, q.2)
  else
    let nmax := nmaxOf s.z.str i
    ({ z := { s.z with
         B := redZ o s.z.fastLong κ i nmax x x s.z.B
         U := if s.z.transf then redZ o s.z.fastLong κ i (min s.z.d nmax) x x s.z.U else s.z.U
         ub := s.z.ub || !(decide (κ < s.z.d ∧ i < s.z.d ∧ i < s.z.n ∧ nmax ≤ s.z.n)) }
       fp := { s.fp with R := redR o c κ i (i + 1) x s.fp.R } }, true)

/-- `size_update(kappa, m-1, 0)` (hlll.cc:1288-1411). -/
def sizeUpdateLoop (κ : Nat) : Nat → LatG F M × Bool → LatG F M × Bool
  | 0, q => q
  | m + 1, q => sizeUpdateLoop κ m (sizeUpdateStep o c κ m q)

/-- One iteration of `size_update_R` (hlll.cc:1437-1477). -/
def sizeUpdateRStep (κ i : Nat) (q : LatG F M × (Nat → F) × Bool) : LatG F M × (Nat → F) × Bool :=
  let s := q.1
  let x := o.rnd (o.div (c.get s.fp.R κ i) (c.get s.fp.R i i))
  let s := { s with fp := { s.fp with x := x } }
  let vx := setAt q.2.1 i x
  if o.isZero x then (s, vx, q.2.2)
  else
    ({ z := { s.z with ub := s.z.ub || !(decide (κ < s.z.d ∧ i < s.z.d ∧ i < s.z.n)) }
       fp := { s.fp with R := redR o c κ i (i + 1) x s.fp.R } }, vx, true)

/-- `size_update_R(vectx, kappa, m-1, 0)` (hlll.cc:1424-1483). -/
def sizeUpdateRLoop (κ : Nat) :
    Nat → LatG F M × (Nat → F) × Bool → LatG F M × (Nat → F) × Bool
  | 0, q => q
  | m + 1, q => sizeUpdateRLoop κ m (sizeUpdateRStep o c κ m q)

/-- The heuristic test of `hsizereduce` (hlll.cc:1203-1240). -/
def sizeAnomaly (κ : Nat) (p : FPartG F M) : Bool :=
  let theta := o.mul (o.sqrt (p.normB2 κ)) o.eps
  (List.range κ).any fun i =>
    o.lt (o.add (o.abs (o.div theta (c.get p.R i i))) o.one)
      (o.abs (o.div (c.get p.R κ i) (c.get p.R i i)))

/-- One pass of the reduction inside `hsizereduce` (hlll.cc:1182-1193); `psize_update_B` does not
involve `MatrixFT`. -/
def hsizePass (κ m : Nat) (s : LatG F M) : LatG F M × Bool :=
  if s.z.numS = 1 ∨ (κ : Int) - 1 < s.z.parThr then sizeUpdateLoop o c κ m (s, false)
  else
    let q := sizeUpdateRLoop o c κ m (s, fun _ => o.zero, false)
    let nmax := psizeNmax q.1.z.str m
    ({ q.1 with z := { q.1.z with
         B := psizeUpdateB o q.1.z.fastLong κ m q.1.z.str q.2.1 q.1.z.numS q.1.z.B
         ub := q.1.z.ub || !(decide (κ < q.1.z.d ∧ m < q.1.z.d ∧ nmax ≤ q.1.z.n)) } }, q.2.2)

/-- `householder_r(kappa)` as a method. -/
def hhR (κ : Nat) (s : LatG F M) : LatG F M :=
  { z := { s.z with ub := s.z.ub || !(hhRIdx s.z.n s.z.d s.z.str κ s.fp) }
    fp := householderR c s.z.str s.z.B κ s.fp }

/-- `householder_v(kappa)` as a method. -/
def hhV (κ : Nat) (s : LatG F M) : LatG F M :=
  { z := { s.z with ub := s.z.ub || !(hhVIdx s.z.n s.z.d κ s.fp) }
    fp := householderV o c s.z.n κ s.fp }

/-- `while (somedone == 1)` of `hsizereduce` (hlll.cc:1175-1275). -/
def hsizeLoop (κ m : Nat) : Nat → Bool → LatG F M → Option (Int × LatG F M)
  | 0, _, _ => none
  | fuel + 1, prevNonstop, s =>
    let q := hsizePass o c κ m s
    let s := q.1
    if q.2 then
      let s := { s with fp := { s.fp with colKept := setAt s.fp.colKept κ false } }
      let t := o.mul o.tenth (s.fp.normB2 κ)
      let s := hhR c κ s
      let nonstop := o.lt (s.fp.normB2 κ) t
      if !prevNonstop && !nonstop then
        if sizeAnomaly o c κ s.fp then some (-1, s) else some (0, s)
      else hsizeLoop κ m fuel nonstop s
    else some (0, s)

/-- `hsizereduce(kappa, fromk)` (hlll.cc:1137-1280). -/
def hsizereduce (fuel κ fromk : Nat) (s : LatG F M) : Option (Int × LatG F M) :=
  let s := hhR c κ s
  let start := if 0 < fromk then min (κ - 1) fromk else κ - 1
  hsizeLoop o c κ (start + 1) fuel true s

/-! ## Seysen reduction (hlll.cc:295-620) -/

/-- One iteration `i` of `seysen_update` (hlll.cc:524-615); as in `HPLLL.seysenUpdateStep`, the
no-long case applies `set_f` to the member `x`. -/
def seysenUpdateStep (κ restdim i : Nat) (q : LatG F M × (Nat → F) × Bool) :
    LatG F M × (Nat → F) × Bool :=
  let s := q.1
  let xf := o.rnd (q.2.1 i)
  let vx := setAt q.2.1 i xf
  if o.isZero xf then (s, vx, q.2.2)
  else
    let nmax := nmaxOf s.z.str i
    ({ z := { s.z with
         B := redZ o s.z.fastLong κ i nmax xf s.fp.x s.z.B
         U := if s.z.transf then redZ o s.z.fastLong κ i (min s.z.d nmax) xf s.fp.x s.z.U else s.z.U
         ub := s.z.ub || !(decide (κ < s.z.d ∧ i < s.z.d ∧ restdim ≤ s.z.n ∧ nmax ≤ s.z.n)) }
       fp := { s.fp with R := redR o c κ i restdim xf s.fp.R } }, vx, true)

/-- `seysen_update(vectx, kappa, restdim+m-1, restdim, ·)`. -/
def seysenUpdateLoop (κ restdim : Nat) :
    Nat → LatG F M × (Nat → F) × Bool → LatG F M × (Nat → F) × Bool
  | 0, q => q
  | m + 1, q => seysenUpdateLoop κ restdim m (seysenUpdateStep o c κ restdim (restdim + m) q)

/-- Computation of `vectx` on the block `[restdim, restdim+m)` (hlll.cc:366-380). -/
def seysenSolve (R : M) (restdim : Nat) :
    Nat → (Nat → F) × (Nat → F) → (Nat → F) × (Nat → F)
  | 0, q => q
  | m + 1, q =>
    let i := restdim + m
    let xi := o.div (q.1 i) (c.get R i i)
    seysenSolve R restdim m
      (fun k => if restdim ≤ k ∧ k < i then o.submul (q.1 k) (c.get R i k) xi else q.1 k,
       setAt q.2 i xi)

/-- State of the loop on the blocks. -/
structure SeyState (F M : Type) where
  s : LatG F M
  tmpcol : Nat → F
  vectx : Nat → F
  somedone : Bool

/-- One iteration of `while (ld <= kappa)` (hlll.cc:345-413). -/
def seysenBlock (κ ld indexdec : Nat) (q : SeyState F M) : SeyState F M :=
  let bdim := if κ / ld % 2 = 0 then 0 else ld
  let restdim := κ - indexdec - bdim
  let tmp := fun i => if restdim ≤ i ∧ i < κ - indexdec then c.get q.s.fp.R κ i else q.tmpcol i
  let tv := seysenSolve o c q.s.fp.R restdim (κ - indexdec - restdim) (tmp, q.vectx)
  if q.s.z.numS = 1 ∨ (bdim : Int) < q.s.z.parThr then
    let u := seysenUpdateLoop o c κ restdim (κ - indexdec - restdim) (q.s, tv.2, false)
    { s := u.1, tmpcol := tv.1, vectx := u.2.1, somedone := q.somedone || u.2.2 }
  else { q with tmpcol := tv.1, vectx := tv.2 }

/-- `while (ld <= kappa)`. -/
def seysenBlocks (κ : Nat) : Nat → Nat → Nat → SeyState F M → SeyState F M
  | 0, _, _, q => q
  | fuel + 1, ld, indexdec, q =>
    if ld ≤ κ then
      let bdim := if κ / ld % 2 = 0 then 0 else ld
      seysenBlocks κ fuel (ld * 2) (indexdec + bdim) (seysenBlock o c κ ld indexdec q)
    else q

/-- `while (somedone == 1)` of `seysenreduce` (hlll.cc:334-491). -/
def seysenLoop (κ : Nat) : Nat → Bool → Bool → (Nat → F) → (Nat → F) → LatG F M →
    Option (Int × LatG F M)
  | 0, _, _, _, _, _ => none
  | fuel + 1, ns0, ns1, tmp, vx, s =>
    let q := seysenBlocks o c κ (κ + 1) 1 0 { s := s, tmpcol := tmp, vectx := vx, somedone := false }
    if q.somedone then
      let s := { q.s with fp := { q.s.fp with colKept := setAt q.s.fp.colKept κ false } }
      let t := o.mul o.hundredth (s.fp.normB2 κ)
      let s := hhR c κ s
      let ns2 := o.lt (s.fp.normB2 κ) t
      if ns0 || ns1 || ns2 then seysenLoop κ fuel ns1 ns2 q.tmpcol q.vectx s
      else some (0, s)
    else some (0, q.s)

/-- `seysenreduce(kappa)` (hlll.cc:295-493). -/
def seysenreduce (fuel κ : Nat) (s : LatG F M) : Option (Int × LatG F M) :=
  seysenLoop o c κ fuel true true (fun _ => o.zero) (fun _ => o.zero) (hhR c κ s)

/-! ## hlll (hlll.cc:38-277) -/

/-- Local variables of `hlll` that survive an iteration. -/
structure HState (F M : Type) where
  s : LatG F M
  kappa : Nat
  prevkappa : Int
  prevR : Nat → F

/-- Beginning of an iteration (hlll.cc:102-110). -/
def hlllPrep (κ : Nat) (s : LatG F M) : LatG F M :=
  if κ = 1 then
    let s := { s with fp := { s.fp with
      kappamin := fun i => if i < s.z.d then min (s.fp.kappamin i) 0 else s.fp.kappamin i } }
    hhV o c 0 (hhR c 0 s)
  else
    { s with fp := { s.fp with
      kappamin := fun i =>
        if κ < i ∧ i < s.z.d then min (s.fp.kappamin i) κ else s.fp.kappamin i } }

/-- Reduction of column `kappa` (hlll.cc:113-116). -/
def hlllReduce (fuel κ : Nat) (s : LatG F M) : Option (Int × LatG F M) :=
  if s.z.seysenFlag < 1 then hsizereduce o c fuel κ 0 s else seysenreduce o c fuel κ s

/-- `lovtest` (hlll.cc:128-129). -/
def lovtest (deltab : F) (κ : Nat) (p : FPartG F M) : F :=
  o.mul deltab (o.mul (c.get p.R (κ - 1) (κ - 1)) (c.get p.R (κ - 1) (κ - 1)))

/-- `newt` (hlll.cc:133-140).  The local `s` keeps its previous value when the length is zero
(`MatrixPE`); that value is not modelled (`0.0`), the length is never zero for a basis of full
column rank. -/
def newt (str : Nat → Int) (κ : Nat) (p : FPartG F M) : F :=
  let s := c.norm (c.getcol p.R κ κ) (nmaxOf str κ - κ) o.zero
  o.add (o.mul s s) (o.mul (c.get p.R κ (κ - 1)) (c.get p.R κ (κ - 1)))

/-- DOWN branch (hlll.cc:236-259). -/
def hlllDown (κ : Nat) (s : LatG F M) : LatG F M :=
  { z := { s.z with
      nbswaps := s.z.nbswaps + 1
      B := colswap s.z.B (κ - 1) κ
      U := if s.z.transf then colswap s.z.U (κ - 1) κ else s.z.U
      str := setAt s.z.str (κ - 1) (s.z.str κ)
      ub := s.z.ub || !(decide (κ < s.z.d)) }
    fp := { s.fp with
      descendu :=
        setAt (if κ = 1 then setAt s.fp.descendu 0 0
               else setAt s.fp.descendu (κ - 1) (s.fp.descendu κ + 1)) κ 0
      Bfp := c.colswap s.fp.Bfp (κ - 1) κ
      VR := colswap s.fp.VR (κ - 1) κ
      normB2 := setAt (setAt s.fp.normB2 κ (s.fp.normB2 (κ - 1))) (κ - 1) (s.fp.normB2 κ) } }

/-- UP branch, after the anomaly test (hlll.cc:193-199). -/
def hlllUp (κ : Nat) (s : LatG F M) : LatG F M :=
  { s with fp := { s.fp with
      descendu :=
        let de := setAt s.fp.descendu κ 0
        if κ = 1 then setAt de 0 0 else de } }

/-- Outcome of one iteration of the main loop. -/
inductive HStep (F M : Type) where
  | diverge
  | fail (s : LatG F M)
  | next (h : HState F M)

/-- One iteration of the main loop (hlll.cc:96-262). -/
def hlllStep (fuel : Nat) (deltab : F) (h : HState F M) : HStep F M :=
  let κ := h.kappa
  match hlllReduce o c fuel κ (hlllPrep o c κ h.s) with
  | none => .diverge
  | some (flag, s) =>
    if flag = -1 then .fail s
    else
      let lov := lovtest o c deltab κ s.fp
      let s := { s with z := { s.z with
        nblov := s.z.nblov + 1
        ub := s.z.ub || !(decide (κ < s.z.d ∧ κ < s.z.n ∧ nmaxOf s.z.str κ ≤ s.z.n)) } }
      if o.le lov (newt o c s.z.str κ s.fp) then
        let s := hhV o c κ s
        if h.prevkappa = κ + 1 ∧ o.lt (h.prevR κ) (o.abs (c.get s.fp.R κ κ)) then .fail s
        else
          .next { s := hlllUp κ s
                  kappa := κ + 1
                  prevkappa := κ
                  prevR := setAt h.prevR κ (o.abs (c.get s.fp.R κ κ)) }
      else
        .next { s := hlllDown c κ s
                kappa := max (κ - 1) 1
                prevkappa := κ
                prevR := h.prevR }

/-- `while ((kappa < kappa_max) && (nblov < nblov_max))` (hlll.cc:95-262). -/
def hlllLoop (deltab : F) : Nat → HState F M → Option (Int × LatG F M)
  | 0, _ => none
  | fuel + 1, h =>
    if h.kappa < h.s.z.kappaMax ∧ h.s.z.nblov < h.s.z.nblovMax then
      match hlllStep o c (fuel + 1) deltab h with
      | .diverge => none
      | .fail s => some (-1, s)
      | .next h => hlllLoop deltab fuel h
    else some (0, h.s)

/-- Initialisations of `hlll` (hlll.cc:54-79). -/
def hlllInit (s : LatG F M) : HState F M :=
  { s := { s with fp := { s.fp with
             colKept := fun i => if i < s.z.d then false else s.fp.colKept i
             descendu := fun i => if i < s.z.d then 0 else s.fp.descendu i } }
    kappa := 1
    prevkappa := -1
    prevR := fun _ => o.zero }

/-- `hlll(delta, verbose)` (hlll.cc:38-277). -/
def hlll (fuel : Nat) (deltab : F) (verbose : Bool) (s : LatG F M) : Option (Int × LatG F M) :=
  let s := if verbose then { s with z := { s.z with verboseDepth := s.z.verboseDepth - 1 } } else s
  match hlllLoop o c deltab fuel (hlllInit o s) with
  | none => none
  | some (st, s) =>
    some (st, if verbose then { s with z := { s.z with verboseDepth := s.z.verboseDepth + 1 } }
              else s)

end Gen
end HPLLL
