import Verif.Model.Mat
/-!
# Model of class `Lattice` (src/hlll.h, src/hlll.cc)

Everything the class does to its data is modelled, generic in the floating point operations
`o : FPOps F`; timers and printed messages are not.  `while` loops take a fuel argument: `none`
means "still running" (no result), `some` is the value with which the C++ function returns.

The floating point members are grouped in `FPart`, the integer members in `Lat`.  The field `ub` is
set (and stays set) when an index outside the allocated size of a `matrix`/`vector` is used.
-/

namespace HPLLL

/-- Floating point and bookkeeping members of `Lattice` (hlll.h:64-88). -/
structure FPart (F : Type) where
  /-- `R`, `Rkept`, `V`, `Bfp` : n × d;  `VR` : d × d -/
  R : Mat F
  Rkept : Mat F
  V : Mat F
  Bfp : Mat F
  VR : Mat F
  normB2 : Nat → F
  /-- member `x` "For size reduction" -/
  x : F
  nmaxkappa : Nat
  colKept : Nat → Bool
  kappamin : Nat → Int
  descendu : Nat → Nat

/-- Members of `Lattice` (hlll.h:44-160), plus the global `verboseDepth` (defs.h:54) and `ub`. -/
structure Lat (F : Type) where
  n : Nat
  d : Nat
  transf : Bool
  B : Mat Int
  U : Mat Int
  kappaMax : Nat
  nblovMax : Nat
  /-- `structure` -/
  str : Nat → Int
  nblov : Nat
  nbswaps : Nat
  numS : Nat
  parThr : Int
  seysenFlag : Int
  /-- `fast_long_flag == 1` -/
  fastLong : Bool
  fp : FPart F
  verboseDepth : Int
  ub : Bool

variable {F : Type} (o : FPOps F)

/-- `structure[j] + 1` as a length (negative lengths never run a loop). -/
def nmaxOf (str : Nat → Int) (j : Nat) : Nat := (str j + 1).toNat

/-- Records an index-range check. -/
def Lat.chk (s : Lat F) (ok : Bool) : Lat F := { s with ub := s.ub || !ok }

/-! ## householder_r (hlll.cc:1650-1801) -/

/-- Vector the reflection number `k` is applied to (hlll.cc:1699,1704): column `kappa` of `Bfp` for
`k = 0`, column `k-1` of `Rkept` otherwise, both from row `k`. -/
def hhSrc (κ k : Nat) (p : FPart F) : Nat → F :=
  if k = 0 then getcol p.Bfp κ 0 else getcol p.Rkept (k - 1) k

/-- Apply reflection `k` with the stored `VR(k,kappa)` (hlll.cc:1713, 1718); the length has been
decremented `k` times. -/
def hhApply (κ k : Nat) (p : FPart F) : FPart F :=
  { p with Rkept := fmasub o p.Rkept k k (hhSrc κ k p) (getcol p.V k k) (p.VR κ k)
                      (p.nmaxkappa - k) }

/-- Recompute `VR(k,kappa)` then apply (hlll.cc:1699-1706, 1721-1725, 1751-1765). -/
def hhCompute (κ k : Nat) (p : FPart F) : FPart F :=
  hhApply o κ k
    { p with VR := setEntry p.VR k κ
                     (scalarprod o (getcol p.V k k) (hhSrc κ k p) (p.nmaxkappa - k)) }

/-- `for (k = a; k < kappa && k < nmaxkappa; k++)` of recomputations. -/
def hhComputeRange (κ a m : Nat) (p : FPart F) : FPart F :=
  (List.range' a (m - a)).foldl (fun p k => hhCompute o κ k p) p

/-- the same with the stored products. -/
def hhApplyRange (κ a m : Nat) (p : FPart F) : FPart F :=
  (List.range' a (m - a)).foldl (fun p k => hhApply o κ k p) p

/-- Final copy into `R` (hlll.cc:1778-1795). -/
def hhCopyR (κ : Nat) (p : FPart F) : FPart F :=
  { p with
    R := fsetcol p.R κ
          (fun i => if i < κ then p.Rkept i i
                    else if κ < p.nmaxkappa then p.Rkept (κ - 1) i else p.Rkept i i)
          p.nmaxkappa
    kappamin := setAt p.kappamin κ κ }

/-- `householder_r(kappa)` for `kappa > 0` and complete recomputation (hlll.cc:1738-1771). -/
def hhFull (str : Nat → Int) (B : Mat Int) (κ : Nat) (p : FPart F) : FPart F :=
  let p := { p with colKept := setAt p.colKept κ true
                    Bfp := fsetcolZ o p.Bfp κ (B κ) (nmaxOf str κ) }
  let p := { p with normB2 := setAt p.normB2 κ (fpNormSq o (p.Bfp κ) (nmaxOf str κ)) }
  hhComputeRange o κ 1 (min κ (nmaxOf str κ)) (hhCompute o κ 0 p)

/-- `householder_r(kappa)` for `kappa > 0`, column kept (hlll.cc:1688-1735). -/
def hhKept (κ : Nat) (p : FPart F) : FPart F :=
  if p.descendu κ < 1 ∨ κ ≤ p.descendu κ then
    if p.kappamin κ = 0 then
      hhComputeRange o κ 1 (min κ p.nmaxkappa) (hhCompute o κ 0 p)
    else
      let km := (p.kappamin κ).toNat
      hhComputeRange o κ km (min κ p.nmaxkappa)
        (hhApplyRange o κ 1 (min km p.nmaxkappa) (hhApply o κ 0 p))
  else p

/-- `householder_r(kappa)` (hlll.cc:1650-1801). -/
def householderR (str : Nat → Int) (B : Mat Int) (κ : Nat) (p : FPart F) : FPart F :=
  let p := { p with nmaxkappa := nmaxOf str κ }
  if κ = 0 then
    let p :=
      if p.colKept 0 then { p with R := fsetcol p.R 0 (p.Bfp 0) (nmaxOf str 0) }
      else
        let p := { p with colKept := setAt p.colKept 0 true
                          Bfp := fsetcolZ o p.Bfp 0 (B 0) (nmaxOf str 0) }
        let p := { p with R := fsetcol p.R 0 (p.Bfp 0) (nmaxOf str 0) }
        { p with normB2 := setAt p.normB2 0 (fpNormSq o (p.R 0) (nmaxOf str 0)) }
    { p with kappamin := setAt p.kappamin 0 0 }
  else
    hhCopyR κ (if p.colKept κ then hhKept o κ p else hhFull o str B κ p)

/-- Index ranges used by `householder_r(kappa)`: columns `<= kappa` and rows `< nmaxkappa` of the
n × d matrices, entry 0 of every vector is read; with a kept column `kappamin[kappa]` is the start
of a loop and must not be negative (hlll.cc:1721). -/
def hhRIdx (n d : Nat) (str : Nat → Int) (κ : Nat) (p : FPart F) : Bool :=
  κ < d && 0 < n && nmaxOf str κ ≤ n &&
    (κ = 0 || !p.colKept κ || decide (0 ≤ p.kappamin κ))

/-! ## householder_v (hlll.cc:1811-1856) -/

/-- `householder_v(kappa)`; `n` is the number of rows. -/
def householderV (n : Nat) (κ : Nat) (p : FPart F) : FPart F :=
  let w := p.R κ κ
  let len := p.nmaxkappa - κ
  let nrm := fpNorm o (getcol p.R κ κ) len
  let ge := o.le o.zero w
  let s := if ge then nrm else o.neg nrm
  let R' := setEntry p.R κ κ (if ge then o.neg nrm else nrm)
  let w := o.add w s
  let s := o.sqrt (o.mul s w)
  let V' := fdivcol o p.V κ (κ + 1) (getcol R' κ (κ + 1)) s (p.nmaxkappa - κ - 1)
  let V' := setCol V' κ fun i => if p.nmaxkappa ≤ i ∧ i < n then o.zero else V' κ i
  let V' := setEntry V' κ κ (o.div w s)
  { p with R := R', V := V' }

/-- Index ranges of `householder_v(kappa)`. -/
def hhVIdx (n d κ : Nat) (p : FPart F) : Bool := κ < d && κ < n && p.nmaxkappa ≤ n

/-! ## size reduction (hlll.cc:1137-1640) -/

/-- Update of `R` by `x` times column `i` (hlll.cc:1325-1396 and 1440-1475). -/
def redR (κ i len : Nat) (x : F) (R : Mat F) : Mat F :=
  let (lx, expo) := o.getSiExp x
  if expo = 0 then
    if lx = 1 then fsubcol o R κ i len
    else if lx = -1 then faddcol o R κ i len
    else fsubmulcol o R κ i x len
  else fsubmulcol o R κ i x len

/-- Update of an integer matrix `M` (`B` or `U`) by the rounded multiplier `x` times column `i`, on
rows `< l` (hlll.cc:1320-1396).  `xz` is what `set_f` is applied to in the no-long case. -/
def redZ (fastLong : Bool) (κ i l : Nat) (x xz : F) (M : Mat Int) : Mat Int :=
  let (lx, expo) := o.getSiExp x
  if expo = 0 then
    if lx = 1 then subcol M κ i l
    else if lx = -1 then addcol M κ i l
    else if fastLong then addmulcolSi M κ i (-lx) l
    else submulcol M κ i (o.toZ xz) l
  else if fastLong then addmulcolSi2exp M κ i (-lx) expo l
  else submulcol M κ i (o.toZ xz) l

/-- One iteration `i` of `size_update` (hlll.cc:1305-1402); `.2` is `somedone`. -/
def sizeUpdateStep (κ i : Nat) (q : Lat F × Bool) : Lat F × Bool :=
  let s := q.1
  let x := o.rnd (o.div (s.fp.R κ i) (s.fp.R i i))
  let s := { s with fp := { s.fp with x := x } }
  if o.isZero x then (s, q.2)
  else
    let nmax := nmaxOf s.str i
    ({ s with
       fp := { s.fp with R := redR o κ i (i + 1) x s.fp.R }
       B := redZ o s.fastLong κ i nmax x x s.B
       U := if s.transf then redZ o s.fastLong κ i (min s.d nmax) x x s.U else s.U
       ub := s.ub || !(decide (κ < s.d ∧ i < s.d ∧ i < s.n ∧ nmax ≤ s.n)) }, true)

/-- `size_update(kappa, m-1, 0)` (hlll.cc:1288-1411). -/
def sizeUpdateLoop (κ : Nat) : Nat → Lat F × Bool → Lat F × Bool
  | 0, q => q
  | m + 1, q => sizeUpdateLoop κ m (sizeUpdateStep o κ m q)

/-- One iteration of `size_update_R` (hlll.cc:1437-1477): only `R` and `vectx`. -/
def sizeUpdateRStep (κ i : Nat) (q : Lat F × (Nat → F) × Bool) : Lat F × (Nat → F) × Bool :=
  let s := q.1
  let x := o.rnd (o.div (s.fp.R κ i) (s.fp.R i i))
  let s := { s with fp := { s.fp with x := x } }
  let vx := setAt q.2.1 i x
  if o.isZero x then (s, vx, q.2.2)
  else
    ({ s with
       fp := { s.fp with R := redR o κ i (i + 1) x s.fp.R }
       ub := s.ub || !(decide (κ < s.d ∧ i < s.d ∧ i < s.n)) }, vx, true)

/-- `size_update_R(vectx, kappa, m-1, 0)` (hlll.cc:1424-1483). -/
def sizeUpdateRLoop (κ : Nat) :
    Nat → Lat F × (Nat → F) × Bool → Lat F × (Nat → F) × Bool
  | 0, q => q
  | m + 1, q => sizeUpdateRLoop κ m (sizeUpdateRStep o κ m q)

/-- Update of `B` on a row slice (hlll.cc:1562-1627). -/
def predZ (fastLong : Bool) (κ i ibeg nloc : Nat) (xf : F) (M : Mat Int) : Mat Int :=
  if o.isZero xf then M
  else
    let (lx, expo) := o.getSiExp xf
    if expo = 0 then
      if lx = 1 then psubcol M κ i ibeg nloc
      else if lx = -1 then paddcol M κ i ibeg nloc
      else if fastLong then paddmulcolSi M κ i (-lx) ibeg nloc
      else psubmulcol M κ i (o.toZ xf) ibeg nloc
    else if fastLong then paddmulcolSi2exp M κ i (-lx) expo ibeg nloc
    else psubmulcol M κ i (o.toZ xf) ibeg nloc

/-- Slice lengths `nloc` (hlll.cc:1539-1542). -/
def sliceLen (nmax S l : Nat) : Nat := nmax / S + if l + 1 ≤ nmax % S then 1 else 0

/-- Slice starts `ibeg` (hlll.cc:1544-1549). -/
def sliceBeg (nmax S l : Nat) : Nat := nmax / S * l + if l + 1 ≤ nmax % S then l else nmax % S

/-- Body of thread `l`: the loop `i = m-1 .. 0` on its rows (hlll.cc:1554-1631). -/
def psizeThread (fastLong : Bool) (κ : Nat) (vx : Nat → F) (ibeg nloc : Nat) :
    Nat → Mat Int → Mat Int
  | 0, M => M
  | m + 1, M => psizeThread fastLong κ vx ibeg nloc m (predZ o fastLong κ m ibeg nloc (vx m) M)

/-- `nmax` of `psize_update_B` (hlll.cc:1510-1518): maximum of `structure[0..m]` (`from_i = m-1`,
the loop starts at `from_i + 1`), plus one. -/
def psizeNmax (str : Nat → Int) (m : Nat) : Nat :=
  ((List.range (m + 1)).foldl (fun a i => max a (str i)) (str (m - 1)) + 1).toNat

/-- `psize_update_B(kappa, m-1, 0, vectx, S)` (hlll.cc:1505-1639), the threads `l = 0..S-1` run one
after the other (other schedules: `Verif.Model.Par`).  The transformation `U` is *not* updated
("A FAIRE EN PARALLELE", hlll.cc:1576-1624). -/
def psizeUpdateB (fastLong : Bool) (κ m : Nat) (str : Nat → Int) (vx : Nat → F) (S : Nat)
    (M : Mat Int) : Mat Int :=
  let nmax := psizeNmax str m
  (List.range S).foldl
    (fun M l => psizeThread o fastLong κ vx (sliceBeg nmax S l) (sliceLen nmax S l) m M) M

/-- The heuristic test of `hsizereduce` (hlll.cc:1203-1240): true when some `mu` is too large. -/
def sizeAnomaly (κ : Nat) (p : FPart F) : Bool :=
  let theta := o.mul (o.sqrt (p.normB2 κ)) o.eps
  (List.range κ).any fun i =>
    o.lt (o.add (o.abs (o.div theta (p.R i i))) o.one) (o.abs (o.div (p.R κ i) (p.R i i)))

/-- One pass of the reduction inside `hsizereduce` (hlll.cc:1182-1193). -/
def hsizePass (κ m : Nat) (s : Lat F) : Lat F × Bool :=
  if s.numS = 1 ∨ (κ : Int) - 1 < s.parThr then sizeUpdateLoop o κ m (s, false)
  else
    let q := sizeUpdateRLoop o κ m (s, fun _ => o.zero, false)
    let nmax := psizeNmax q.1.str m
    ({ q.1 with
       B := psizeUpdateB o q.1.fastLong κ m q.1.str q.2.1 q.1.numS q.1.B
       ub := q.1.ub || !(decide (κ < q.1.d ∧ m < q.1.d ∧ nmax ≤ q.1.n)) }, q.2.2)

/-- `householder_r(kappa)` as a method. -/
def Lat.hhR (κ : Nat) (s : Lat F) : Lat F :=
  { s with
    fp := householderR o s.str s.B κ s.fp
    ub := s.ub || !(hhRIdx s.n s.d s.str κ s.fp) }

/-- `householder_v(kappa)` as a method. -/
def Lat.hhV (κ : Nat) (s : Lat F) : Lat F :=
  { s with fp := householderV o s.n κ s.fp, ub := s.ub || !(hhVIdx s.n s.d κ s.fp) }

/-- `while (somedone == 1)` of `hsizereduce` (hlll.cc:1175-1275).  `m` is `startposition + 1`. -/
def hsizeLoop (κ m : Nat) : Nat → Bool → Lat F → Option (Int × Lat F)
  | 0, _, _ => none
  | fuel + 1, prevNonstop, s =>
    let q := hsizePass o κ m s
    let s := q.1
    if q.2 then
      let s := { s with fp := { s.fp with colKept := setAt s.fp.colKept κ false } }
      let t := o.mul o.tenth (s.fp.normB2 κ)
      let s := s.hhR o κ
      let nonstop := o.lt (s.fp.normB2 κ) t
      if !prevNonstop && !nonstop then
        if sizeAnomaly o κ s.fp then some (-1, s) else some (0, s)
      else hsizeLoop κ m fuel nonstop s
    else some (0, s)

/-- `hsizereduce(kappa, fromk)` (hlll.cc:1137-1280). -/
def hsizereduce (fuel κ fromk : Nat) (s : Lat F) : Option (Int × Lat F) :=
  let s := s.hhR o κ
  let start := if 0 < fromk then min (κ - 1) fromk else κ - 1
  hsizeLoop o κ (start + 1) fuel true s

/-! ## Seysen reduction (hlll.cc:295-620) -/

/-- One iteration `i` of `seysen_update` (hlll.cc:524-615).  In the no-long case `set_f` is applied
to the member `x`, not to the local `xf` (hlll.cc:578, 606). -/
def seysenUpdateStep (κ restdim i : Nat) (q : Lat F × (Nat → F) × Bool) :
    Lat F × (Nat → F) × Bool :=
  let s := q.1
  let xf := o.rnd (q.2.1 i)
  let vx := setAt q.2.1 i xf
  if o.isZero xf then (s, vx, q.2.2)
  else
    let nmax := nmaxOf s.str i
    ({ s with
       fp := { s.fp with R := redR o κ i restdim xf s.fp.R }
       B := redZ o s.fastLong κ i nmax xf s.fp.x s.B
       U := if s.transf then redZ o s.fastLong κ i (min s.d nmax) xf s.fp.x s.U else s.U
       ub := s.ub || !(decide (κ < s.d ∧ i < s.d ∧ restdim ≤ s.n ∧ nmax ≤ s.n)) }, vx, true)

/-- `seysen_update(vectx, kappa, restdim+m-1, restdim, ·)` : `i = restdim+m-1 .. restdim`. -/
def seysenUpdateLoop (κ restdim : Nat) :
    Nat → Lat F × (Nat → F) × Bool → Lat F × (Nat → F) × Bool
  | 0, q => q
  | m + 1, q => seysenUpdateLoop κ restdim m (seysenUpdateStep o κ restdim (restdim + m) q)

/-- Computation of `vectx` on the block `[restdim, restdim+m)` (hlll.cc:366-380):
`q = (tmpcolR, vectx)`. -/
def seysenSolve (R : Mat F) (restdim : Nat) :
    Nat → (Nat → F) × (Nat → F) → (Nat → F) × (Nat → F)
  | 0, q => q
  | m + 1, q =>
    let i := restdim + m
    let xi := o.div (q.1 i) (R i i)
    seysenSolve R restdim m
      (fun k => if restdim ≤ k ∧ k < i then o.submul (q.1 k) (R i k) xi else q.1 k,
       setAt q.2 i xi)

/-- State of the loop on the blocks. -/
structure SeyState (F : Type) where
  s : Lat F
  tmpcol : Nat → F
  vectx : Nat → F
  somedone : Bool

/-- One iteration of `while (ld <= kappa)` (hlll.cc:345-413). -/
def seysenBlock (κ ld indexdec : Nat) (q : SeyState F) : SeyState F :=
  let bdim := if κ / ld % 2 = 0 then 0 else ld
  let restdim := κ - indexdec - bdim
  let tmp := fun i => if restdim ≤ i ∧ i < κ - indexdec then q.s.fp.R κ i else q.tmpcol i
  let tv := seysenSolve o q.s.fp.R restdim (κ - indexdec - restdim) (tmp, q.vectx)
  if q.s.numS = 1 ∨ (bdim : Int) < q.s.parThr then
    let u := seysenUpdateLoop o κ restdim (κ - indexdec - restdim) (q.s, tv.2, false)
    { s := u.1, tmpcol := tv.1, vectx := u.2.1, somedone := q.somedone || u.2.2 }
  else { q with tmpcol := tv.1, vectx := tv.2 }

/-- `while (ld <= kappa)`; `ld` doubles, so `kappa + 1` iterations suffice (`fuel`). -/
def seysenBlocks (κ : Nat) : Nat → Nat → Nat → SeyState F → SeyState F
  | 0, _, _, q => q
  | fuel + 1, ld, indexdec, q =>
    if ld ≤ κ then
      let bdim := if κ / ld % 2 = 0 then 0 else ld
      seysenBlocks κ fuel (ld * 2) (indexdec + bdim) (seysenBlock o κ ld indexdec q)
    else q

/-- `while (somedone == 1)` of `seysenreduce` (hlll.cc:334-491); `ns0 ns1` are `nonstop[0]`,
`nonstop[1]` (`nonstop[2]` is always overwritten before it is read).  Only a warning is printed, the
function never returns -1. -/
def seysenLoop (κ : Nat) : Nat → Bool → Bool → (Nat → F) → (Nat → F) → Lat F →
    Option (Int × Lat F)
  | 0, _, _, _, _, _ => none
  | fuel + 1, ns0, ns1, tmp, vx, s =>
    let q := seysenBlocks o κ (κ + 1) 1 0 { s := s, tmpcol := tmp, vectx := vx, somedone := false }
    if q.somedone then
      let s := { q.s with fp := { q.s.fp with colKept := setAt q.s.fp.colKept κ false } }
      let t := o.mul o.hundredth (s.fp.normB2 κ)
      let s := s.hhR o κ
      let ns2 := o.lt (s.fp.normB2 κ) t
      if ns0 || ns1 || ns2 then seysenLoop κ fuel ns1 ns2 q.tmpcol q.vectx s
      else some (0, s)
    else some (0, q.s)

/-- `seysenreduce(kappa)` (hlll.cc:295-493). -/
def seysenreduce (fuel κ : Nat) (s : Lat F) : Option (Int × Lat F) :=
  seysenLoop o κ fuel true true (fun _ => o.zero) (fun _ => o.zero) (s.hhR o κ)

/-! ## hlll (hlll.cc:38-277) -/

/-- Local variables of `hlll` that survive an iteration. -/
structure HState (F : Type) where
  s : Lat F
  kappa : Nat
  prevkappa : Int
  prevR : Nat → F

/-- Beginning of an iteration (hlll.cc:102-110). -/
def hlllPrep (κ : Nat) (s : Lat F) : Lat F :=
  if κ = 1 then
    let s := { s with fp := { s.fp with
      kappamin := fun i => if i < s.d then min (s.fp.kappamin i) 0 else s.fp.kappamin i } }
    (s.hhR o 0).hhV o 0
  else
    { s with fp := { s.fp with
      kappamin := fun i =>
        if κ < i ∧ i < s.d then min (s.fp.kappamin i) κ else s.fp.kappamin i } }

/-- Reduction of column `kappa` (hlll.cc:113-116). -/
def hlllReduce (fuel κ : Nat) (s : Lat F) : Option (Int × Lat F) :=
  if s.seysenFlag < 1 then hsizereduce o fuel κ 0 s else seysenreduce o fuel κ s

/-- `lovtest` (hlll.cc:128-129). -/
def lovtest (deltab : F) (κ : Nat) (p : FPart F) : F :=
  o.mul deltab (o.mul (p.R (κ - 1) (κ - 1)) (p.R (κ - 1) (κ - 1)))

/-- `newt` (hlll.cc:133-140). -/
def newt (str : Nat → Int) (κ : Nat) (p : FPart F) : F :=
  let s := fpNorm o (getcol p.R κ κ) (nmaxOf str κ - κ)
  o.add (o.mul s s) (o.mul (p.R κ (κ - 1)) (p.R κ (κ - 1)))

/-- DOWN branch (hlll.cc:236-259): swap of columns `kappa-1` and `kappa`. -/
def hlllDown (κ : Nat) (s : Lat F) : Lat F :=
  { s with
    nbswaps := s.nbswaps + 1
    B := colswap s.B (κ - 1) κ
    U := if s.transf then colswap s.U (κ - 1) κ else s.U
    str := setAt s.str (κ - 1) (s.str κ)
    fp := { s.fp with
      descendu :=
        setAt (if κ = 1 then setAt s.fp.descendu 0 0
               else setAt s.fp.descendu (κ - 1) (s.fp.descendu κ + 1)) κ 0
      Bfp := colswap s.fp.Bfp (κ - 1) κ
      VR := colswap s.fp.VR (κ - 1) κ
      normB2 := setAt (setAt s.fp.normB2 κ (s.fp.normB2 (κ - 1))) (κ - 1) (s.fp.normB2 κ) }
    ub := s.ub || !(decide (κ < s.d)) }

/-- UP branch, after the anomaly test (hlll.cc:193-199). -/
def hlllUp (κ : Nat) (s : Lat F) : Lat F :=
  { s with fp := { s.fp with
      descendu :=
        let de := setAt s.fp.descendu κ 0
        if κ = 1 then setAt de 0 0 else de } }

/-- Outcome of one iteration of the main loop. -/
inductive HStep (F : Type) where
  /-- the reduction of the column has not returned -/
  | diverge
  /-- `return -1` -/
  | fail (s : Lat F)
  | next (h : HState F)

/-- One iteration of the main loop (hlll.cc:96-262). -/
def hlllStep (fuel : Nat) (deltab : F) (h : HState F) : HStep F :=
  let κ := h.kappa
  match hlllReduce o fuel κ (hlllPrep o κ h.s) with
  | none => .diverge
  | some (flag, s) =>
    if flag = -1 then .fail s
    else
      let lov := lovtest o deltab κ s.fp
      let s := { s with nblov := s.nblov + 1
                        ub := s.ub || !(decide (κ < s.d ∧ κ < s.n ∧ nmaxOf s.str κ ≤ s.n)) }
      if o.le lov (newt o s.str κ s.fp) then
        let s := s.hhV o κ
        if h.prevkappa = κ + 1 ∧ o.lt (h.prevR κ) (o.abs (s.fp.R κ κ)) then .fail s
        else
          .next { s := hlllUp κ s
                  kappa := κ + 1
                  prevkappa := κ
                  prevR := setAt h.prevR κ (o.abs (s.fp.R κ κ)) }
      else
        .next { s := hlllDown κ s
                kappa := max (κ - 1) 1
                prevkappa := κ
                prevR := h.prevR }

/-- `while ((kappa < kappa_max) && (nblov < nblov_max))` (hlll.cc:95-262). -/
def hlllLoop (deltab : F) : Nat → HState F → Option (Int × Lat F)
  | 0, _ => none
  | fuel + 1, h =>
    if h.kappa < h.s.kappaMax ∧ h.s.nblov < h.s.nblovMax then
      match hlllStep o (fuel + 1) deltab h with
      | .diverge => none
      | .fail s => some (-1, s)
      | .next h => hlllLoop deltab fuel h
    else some (0, h.s)

/-- Initialisations of `hlll` (hlll.cc:54-79). -/
def hlllInit (s : Lat F) : HState F :=
  { s := { s with fp := { s.fp with
             colKept := fun i => if i < s.d then false else s.fp.colKept i
             descendu := fun i => if i < s.d then 0 else s.fp.descendu i } }
    kappa := 1
    prevkappa := -1
    prevR := fun _ => o.zero }

/-- `hlll(delta, verbose)` (hlll.cc:38-277). -/
def hlll (fuel : Nat) (deltab : F) (verbose : Bool) (s : Lat F) : Option (Int × Lat F) :=
  let s := if verbose then { s with verboseDepth := s.verboseDepth - 1 } else s
  match hlllLoop o deltab fuel (hlllInit o s) with
  | none => none
  | some (st, s) =>
    some (st, if verbose then { s with verboseDepth := s.verboseDepth + 1 } else s)

/-! ## Construction and accessors -/

/-- `init` (hlll.cc:1991-2034) and the constructor (hlll.cc:2038-2080).  `junk` is the
(unspecified) content of freshly allocated floating point storage. -/
def newLattice (junk : F) (n d : Nat) (A : Mat Int) (forU : Bool) (method : Int) (longFlag : Bool)
    (verboseDepth : Int) : Lat F :=
  { n := n, d := d, transf := forU, B := A, U := idMat
    kappaMax := d, nblovMax := 4294967295
    str := matrixStructure n A
    nblov := 0, nbswaps := 0, numS := 1, parThr := 1000000
    seysenFlag := method, fastLong := longFlag
    fp :=
      { R := fun _ _ => junk, Rkept := fun _ _ => junk, V := fun _ _ => junk
        Bfp := fun _ _ => o.zero, VR := fun _ _ => junk
        normB2 := fun _ => junk, x := junk, nmaxkappa := 0
        colKept := fun _ => false, kappamin := fun _ => -1, descendu := fun _ => 0 }
    verboseDepth := verboseDepth
    ub := false }

/-- `assign(A)` (hlll.cc:2091-2117). -/
def Lat.assign (A : Mat Int) (s : Lat F) : Lat F :=
  { s with
    nblov := 0
    B := A
    str := matrixStructure s.n A
    fp := { s.fp with
      colKept := fun i => if i < s.d then false else s.fp.colKept i
      descendu := fun i => if i < s.d then 0 else s.fp.descendu i
      kappamin := fun i => if i < s.d then -1 else s.fp.kappamin i }
    U := if s.transf then idMat else s.U }

/-- fplll's `ZZ_mat<ZT>` as returned by the accessors: dimensions and content. -/
structure ZMat where
  rows : Nat
  cols : Nat
  M : Mat Int

/-- `getbase()` (hlll.cc:1934-1943). -/
def Lat.getbase (s : Lat F) : ZMat := ⟨s.n, s.d, s.B⟩

/-- `getU()` (hlll.cc:1952-1966): an empty matrix (and an error message) without `forU`. -/
def Lat.getU (s : Lat F) : ZMat := if s.transf then ⟨s.d, s.d, s.U⟩ else ⟨0, 0, fun _ _ => 0⟩

/-- `set_nblov_max(nb)` (hlll.cc:1859-1864). -/
def Lat.setNblovMax (nb : Nat) (s : Lat F) : Lat F := { s with nblovMax := nb }

/-- `set_num_S(S, dthreshold)` (hlll.cc:1867-1880). -/
def Lat.setNumS (S : Nat) (thr : Int) (s : Lat F) : Lat F := { s with numS := S, parThr := thr }

/-- `shift(A, m, lsigma)` (hlll.cc:2233-2247): only the diagonal of `U` is written. -/
def Lat.shift (A : Mat Int) (m lsigma : Nat) (s : Lat F) : Lat F :=
  { s with
    B := fun j i => if j < s.d ∧ i < m then A j i * 2 ^ lsigma else s.B j i
    U := if s.transf then fun j i => if i = j ∧ j < s.d then 1 else s.U j i else s.U }

end HPLLL
