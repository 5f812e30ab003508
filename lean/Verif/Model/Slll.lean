import Verif.Model.Householder
import Verif.Model.ParMat
/-!
# Model of class `SLattice` (src/slll.h, src/slll.cc): segment LLL

`householder_r`, `householder_v`, `size_update` are textually those of hlll.cc (slll.cc:1146-1274,
1506-1712) and are not modelled again: an `SLattice` contains a `Lat` (its `numS` is 1: the parallel
code of hlll.cc is not in this class).  The parallel `phouseholder` is in Model/PHouse.  Not modelled:
`rotate` (slll.cc:384-404) and `psize_update_B`, never called by `hlll`; timers, messages, `compteur`.

Parallel regions: a schedule `σ : Sched` gives, for each dynamic occurrence of a region (identified by
a key), the order in which the actions of its threads are executed.
-/

namespace HPLLL

/-- Order of execution in each parallel region; the key of a region is the list of the loop counters
that identify it.  `race` is the value left in the shared counter `nbswaps` by
`nbswaps += BR.nbswaps` (slll.cc:182, 289), executed by all the threads without synchronisation: a
data race (`counterRun` below; here any value). -/
structure Sched where
  acts : List Nat → List (List (Nat × PAct)) → List (Nat × PAct)
  rows : List Nat → List (List (Nat × Nat)) → List (Nat × Nat)
  race : List Nat → Nat → List Nat → Nat

/-- The actions of every thread are executed in their own order, arbitrarily interleaved. -/
structure Sched.Ok (σ : Sched) : Prop where
  acts : ∀ k Ps, Interleave Ps (σ.acts k Ps)
  rows : ∀ k Ps, Interleave Ps (σ.rows k Ps)

/-- Threads executed one after the other. -/
def Sched.seq : Sched where
  acts := fun _ Ps => Ps.flatten
  rows := fun _ Ps => Ps.flatten
  race := fun _ a l => a + l.sum

/-- Constants and conversions of slll.cc that are not in `FPOps`. -/
structure SCst (F : Type) where
  /-- `0.501` (slll.cc:571) -/
  p501 : F
  /-- `0.001` (`approx` of `hsizereduce`, slll.cc:1005) -/
  thousandth : F
  /-- `0.000000001` (slll.cc:422) -/
  eps9 : F
  /-- `set_f(RZ, R, 63)` (slll.cc:134; mat.h:2580-2632, matpe.h:1414-1547): uninterpreted -/
  setF : Mat F → Mat Int

/-- Members of `SLattice`; `lat.n`, `lat.d` are the padded dimensions. -/
structure SLat (F : Type) where
  lat : Lat F
  norigin : Nat
  dorigin : Nat
  /-- `amax`: 0 (never assigned) without padding -/
  amax : Int
  swapstab : Nat → Int
  /-- length of `swapstab` (slll.cc:2033) -/
  swapLen : Nat

/-- The two memory accesses of `nbswaps += x` (slll.cc:182, 289): read of the shared counter into a register of
the thread, write of the register plus `x`. -/
inductive CAct where
  | load
  | store (x : Nat)

/-- Accesses of thread `l`, whose blocks counted `xs` swaps. -/
def counterProg (l : Nat) (xs : List Nat) : List (Nat × CAct) :=
  xs.flatMap fun x => [(l, .load), (l, .store x)]

/-- Accesses of all the threads of the region, thread `l` working on the blocks of `Xs[l]`. -/
def counterThreads (l : Nat) : List (List Nat) → List (List (Nat × CAct))
  | [] => []
  | xs :: Xs => counterProg l xs :: counterThreads (l + 1) Xs

/-- Effect of one access on the counter and the registers. -/
def counterAct (a : Nat × CAct) (s : Nat × (Nat → Nat)) : Nat × (Nat → Nat) :=
  match a.2 with
  | .load => (s.1, setAt s.2 a.1 s.1)
  | .store x => (s.2 a.1 + x, s.2)

/-- Value of the counter after the accesses `T`; `reg` the initial content of the registers. -/
def counterRun (T : List (Nat × CAct)) (init : Nat) (reg : Nat → Nat) : Nat :=
  (execAll counterAct T (init, reg)).1

variable {F : Type} (o : FPOps F) (c : SCst F) (σ : Sched)

/-! ## Seysen reduction (slll.cc:490-983) -/

/-- Local vectors of `seysenreduce`. -/
structure SSey (F : Type) where
  s : Lat F
  tmpcol : Nat → F
  vectx : Nat → F
  bounded : Nat → Bool
  somedone : Bool

/-- Computation of `vectx`, `bounded` on the block `[restdim, restdim+m)` (slll.cc:555-590):
`i = restdim+m-1 .. restdim`. -/
def sseySolve (R : Mat F) (restdim : Nat) : Nat → SSey F → SSey F
  | 0, q => q
  | m + 1, q =>
    let i := restdim + m
    let xi := o.div (q.tmpcol i) (R i i)
    let big := o.lt c.p501 (o.abs xi)
    sseySolve R restdim m
      { q with
        tmpcol := fun k => if restdim ≤ k ∧ k < i then o.submul (q.tmpcol k) (R i k) xi else q.tmpcol k
        vectx := setAt q.vectx i xi
        bounded := setAt q.bounded i (!big)
        somedone := q.somedone || big }

/-- One iteration of `seysen_update` (slll.cc:673-762); `set_f` is applied to the member `x`. -/
def sseyUpdateStep (κ restdim : Nat) (vx : Nat → F) (bd : Nat → Bool) (i : Nat) (s : Lat F) : Lat F :=
  if bd i then s
  else
    let nmax := nmaxOf s.str i
    { s with
      fp := { s.fp with R := redR o κ i restdim (vx i) s.fp.R }
      B := redZ o s.fastLong κ i nmax (vx i) s.fp.x s.B
      U := if s.transf then redZ o s.fastLong κ i (min s.d nmax) (vx i) s.fp.x s.U else s.U
      ub := s.ub || !(decide (κ < s.d ∧ i < s.d ∧ restdim ≤ s.n ∧ nmax ≤ s.n)) }

/-- `seysen_update(kappa, restdim+m-1, restdim, vectx, bounded)` (slll.cc:657-767). -/
def sseyUpdate (κ restdim : Nat) (vx : Nat → F) (bd : Nat → Bool) : Nat → Lat F → Lat F
  | 0, s => s
  | m + 1, s => sseyUpdate κ restdim vx bd m (sseyUpdateStep o κ restdim vx bd (restdim + m) s)

/-- `seysen_update_R(kappa, restdim+m-1, restdim, vectx, bounded)` (slll.cc:775-841). -/
def sseyUpdateR (κ restdim : Nat) (vx : Nat → F) (bd : Nat → Bool) : Nat → Lat F → Lat F
  | 0, s => s
  | m + 1, s =>
    let i := restdim + m
    sseyUpdateR κ restdim vx bd m
      (if bd i then s
       else { s with fp := { s.fp with R := redR o κ i restdim (vx i) s.fp.R }
                     ub := s.ub || !(decide (κ < s.d ∧ i < s.d ∧ restdim ≤ s.n)) })

/-- Entry operation of `pseysen_update_B` (slll.cc:910-968): new value of `B(r,kappa)`, `a` its value
and `b` that of `B(r,i)`; `x` the member `x`. -/
def psseyEntry (fastLong : Bool) (xf x : F) (a b : Int) : Int :=
  let (lx, expo) := o.getSiExp xf
  if expo = 0 then
    if lx = 1 then a - b
    else if lx = -1 then a + b
    else if fastLong then a + b * (-lx)
    else a - o.toZ x * b
  else if fastLong then a + b * (-lx) * 2 ^ expo
  else a - o.toZ x * b

/-- Action of a thread of `pseysen_update_B` on row `a.2` with multiplier number `a.1`. -/
def psseyAct (fastLong : Bool) (κ : Nat) (vx : Nat → F) (x : F) (a : Nat × Nat) (M : Mat Int) :
    Mat Int :=
  setEntry M a.2 κ (psseyEntry o fastLong (vx a.1) x (M κ a.2) (M a.1 a.2))

/-- Actions of one thread (slll.cc:899-971): multipliers `restdim+m-1 .. restdim`, its rows. -/
def psseyProg (restdim : Nat) (bd : Nat → Bool) (ibeg nloc : Nat) : Nat → List (Nat × Nat)
  | 0 => []
  | m + 1 =>
    (if bd (restdim + m) then [] else (List.range' ibeg nloc).map fun r => (restdim + m, r)) ++
      psseyProg restdim bd ibeg nloc m

/-- `nmax` of `pseysen_update_B(kappa, restdim+m-1, restdim, ...)` (slll.cc:857-864): maximum of
`structure[restdim .. restdim+m]`, plus one. -/
def psseyNmax (str : Nat → Int) (restdim m : Nat) : Nat :=
  ((List.range' restdim (m + 1)).foldl (fun a i => max a (str i)) (str (restdim + m - 1)) + 1).toNat

/-- The `S` threads of `pseysen_update_B` (slll.cc:869-897). -/
def psseyThreads (nmax S restdim m : Nat) (bd : Nat → Bool) : List (List (Nat × Nat)) :=
  (List.range S).map fun l => psseyProg restdim bd (sliceBeg nmax S l) (sliceLen nmax S l) m

/-- `pseysen_update_B(kappa, restdim+m-1, restdim, vectx, bounded, S)` (slll.cc:852-983): `U` is not
updated. -/
def psseyUpdateB (key : List Nat) (κ restdim m S : Nat) (vx : Nat → F) (bd : Nat → Bool) (s : Lat F) :
    Lat F :=
  let nmax := psseyNmax s.str restdim m
  { s with
    B := execAll (psseyAct o s.fastLong κ vx s.fp.x) (σ.rows key (psseyThreads nmax S restdim m bd)) s.B
    ub := s.ub || !(decide (κ < s.d ∧ restdim + m < s.d ∧ nmax ≤ s.n)) }

/-- One iteration of `while (ld <= kappa)` (slll.cc:535-617). -/
def sseyBlock (key : List Nat) (κ ld indexdec : Nat) (q : SSey F) : SSey F :=
  let bdim := if κ / ld % 2 = 0 then 0 else ld
  let restdim := κ - indexdec - bdim
  let m := κ - indexdec - restdim
  let q := { q with
    tmpcol := fun i => if restdim ≤ i ∧ i < κ - indexdec then q.s.fp.R κ i else q.tmpcol i }
  let q := sseySolve o c q.s.fp.R restdim m q
  let q := { q with
    vectx := fun i => if restdim ≤ i ∧ i < κ - indexdec then o.rnd (q.vectx i) else q.vectx i }
  if bdim ≤ 255 then { q with s := sseyUpdate o κ restdim q.vectx q.bounded m q.s }
  else
    let s := sseyUpdateR o κ restdim q.vectx q.bounded m q.s
    { q with s := psseyUpdateB o σ (ld :: key) κ restdim m 2 q.vectx q.bounded s }

/-- `while (ld <= kappa)` (slll.cc:535-617); `ld` doubles, `kappa + 1` iterations suffice. -/
def sseyBlocks (key : List Nat) (κ : Nat) : Nat → Nat → Nat → SSey F → SSey F
  | 0, _, _, q => q
  | fuel + 1, ld, indexdec, q =>
    if ld ≤ κ then
      let bdim := if κ / ld % 2 = 0 then 0 else ld
      sseyBlocks key κ fuel (ld * 2) (indexdec + bdim) (sseyBlock o c σ key κ ld indexdec q)
    else q

/-- `while (nonstop)` of `seysenreduce` (slll.cc:520-643). -/
def sseyLoop (key : List Nat) (κ : Nat) : Nat → SSey F → Option (Lat F)
  | 0, _ => none
  | fuel + 1, q =>
    let q := sseyBlocks o c σ (fuel :: key) κ (κ + 1) 1 0 { q with somedone := false }
    if q.somedone then
      let s := { q.s with fp := { q.s.fp with colKept := setAt q.s.fp.colKept κ false } }
      sseyLoop key κ fuel { q with s := s.hhR o κ }
    else some q.s

/-- `seysenreduce(kappa)` (slll.cc:489-648); the returned value (always 0) is not used. -/
def sseysenreduce (key : List Nat) (fuel κ : Nat) (s : Lat F) : Option (Lat F) :=
  sseyLoop o c σ key κ fuel
    { s := s.hhR o κ, tmpcol := fun _ => o.zero, vectx := fun _ => o.zero
      bounded := fun _ => false, somedone := false }

/-! ## Size reduction and gap detection (slll.cc:413-477) -/

/-- Reduction of column `i` (slll.cc:443-446).  `hsizereduce` (slll.cc:998-1138) is the sequential
function of hlll.cc with `0.001` in place of `0.1`; the value returned is ignored. -/
def sreduceCol (key : List Nat) (fuel i : Nat) (s : Lat F) : Option (Lat F) :=
  if s.seysenFlag < 1 then
    (hsizereduce { o with tenth := c.thousandth } fuel i 0 s).map (·.2)
  else sseysenreduce o c σ (i :: key) fuel i s

/-- The loop `for (i = 1; i < dorigin; i++)` (slll.cc:440-472), started at `i` with `k` iterations
left; the result is the value returned and the object. -/
def gapLoop (key : List Nat) (fuel dorigin : Nat) : Nat → Nat → Lat F → Option (Nat × Lat F)
  | 0, _, s => some (0, s)
  | k + 1, i, s =>
    match sreduceCol o c σ key fuel i s with
    | none => none
    | some s =>
      let s := s.hhV o i
      if 2 ≤ i ∧ i + 1 < dorigin ∧ o.lt (o.abs (o.div (s.fp.R i i) (s.fp.R (i - 1) (i - 1)))) c.eps9
      then some (i + 1, s)
      else gapLoop key fuel dorigin k (i + 1) s

/-- `reduce_and_gap_detect(seysen_flag)` (slll.cc:413-477). -/
def reduceAndGap (key : List Nat) (fuel : Nat) (S : SLat F) : Option (Nat × SLat F) :=
  let s := S.lat
  let s := { s with fp := { s.fp with
    colKept := fun i => if i < S.dorigin then false else s.fp.colKept i
    descendu := fun i => if i < S.dorigin then 0 else s.fp.descendu i } }
  let s := (s.hhR o 0).hhV o 0
  (gapLoop o c σ key fuel S.dorigin (S.dorigin - 1) 1 s).map fun r => (r.1, { S with lat := r.2 })

/-! ## Products (slll.cc:2102-2193) -/

/-- Column shift of block `b`: `b*sdim`, or `b*sdim + sdim/2` for odd phases (slll.cc:2125, 2163). -/
def pshift (sdim b : Nat) (odd : Bool) : Nat := b * sdim + if odd then sdim / 2 else 0

/-- Body of the parallel loop of `pmatprod(S, dec)` (slll.cc:2121-2145, 2159-2183). -/
def spmatprodProg (n sdim : Nat) (odd : Bool) (b : Nat) : List PAct :=
  let sh := pshift sdim b odd
  .alloc :: progFor 0 n fun i =>
    (progFor 0 sdim fun j => .mul i j i sh sh (sh + j) ::
      progFor 1 sdim fun k => [.addmul i j i (sh + k) (sh + k) (sh + j)]) ++
    progFor 0 sdim fun j => [.store i j 0 i (sh + j)]

/-- `pmatprod(S, dec)` (slll.cc:2102-2193), `nb` the number of blocks (`S` or `S-1`). -/
def spmatprod (key : List Nat) (n sdim nb : Nat) (odd : Bool) (U B : Mat Int) : Mat Int :=
  (execAll (pact U) (σ.acts (0 :: key) (threads nb (spmatprodProg n sdim odd)))
    ⟨fun _ => B, fun _ _ _ => 0⟩).sh 0

/-! ## hlll (slll.cc:46-371) -/

/-- `RZ` (slll.cc:134-147, 255-269): conversion, zeros below the diagonal, zero diagonal entries
replaced by 1. -/
def blockRZ (d : Nat) (R : Mat F) : Mat Int := fun j i =>
  if j < d ∧ i < d then
    if j < i then 0 else if i = j ∧ c.setF R j i = 0 then 1 else c.setF R j i
  else c.setF R j i

/-- `minval` of `set_f` (matpe.h:1428-1436): the smallest of the norms of the columns of `R`, on `d` rows. -/
def setFMin (o : FPOps F) (d : Nat) (R : Mat F) : F :=
  forRange 1 d (fun j m => if o.lt (fpNorm o (R j) d) m then fpNorm o (R j) d else m) (fpNorm o (R 0) d)

/-- `set_f(B, R, condbits)` for `MatrixPE<double, dpe_t>` (matpe.h:1414-1456) with `B` of dimensions `d x d`:
`2^(condbits+1) R(i,j) / minval`, converted by `Z_NR::set_f`.  `mul_2si` is a multiplication; the norms computed in
the second loop (matpe.h:1442) are not used. -/
def setFDpe (o : FPOps F) (d condbits : Nat) (R : Mat F) : Mat Int := fun j i =>
  if i < d ∧ j < d then o.toZ (o.div (o.mul (R j i) (o.ofZ (2 ^ (condbits + 1)))) (setFMin o d R)) else 0

/-- One block (slll.cc:167-176, 282-290): a `Lattice` on the diagonal block `k` of `RZ`, reduced with
transformation; the value returned by `hlll` is ignored. -/
def blockReduce (junk : F) (fuel : Nat) (δ : F) (d S dec lovmax : Nat) (seysen : Int)
    (vdepth : Int) (RZ : Mat Int) (k : Nat) : Option (Lat F) :=
  let BR := getblockSq ⟨d, d, RZ⟩ k k S dec
  (hlll o fuel δ false
    ((newLattice o junk BR.rows BR.rows BR.M true seysen true vdepth).setNblovMax lovmax)).map (·.2)

/-- Body of the parallel loop, shared part: `putblock(U_even, BR.getU(), k, k, S, dec)`
(slll.cc:180, 295), the private matrix being `BR.getU()`. -/
def sputProg (sdim dec : Nat) (Us : Nat → Mat Int) (k : Nat) : List PAct :=
  .comp (fun _ => Us k) ::
    progFor 0 sdim fun j => progFor 0 sdim fun i => [.store i j 0 (k * sdim + i + dec) (k * sdim + j + dec)]

/-- `U_even` / `U_odd` after `setId` and the parallel loop. -/
def sput (key : List Nat) (d S dec nb : Nat) (Us : Nat → Mat Int) (U0 : Mat Int) : Mat Int :=
  (execAll (pact fun _ _ => 0) (σ.acts (1 :: key) (threads nb (sputProg (d / S) dec Us)))
    ⟨fun _ => setId d d U0, fun _ _ _ => 0⟩).sh 0

/-- `R.set(i, i, afmax)` for the padding (slll.cc:118-119, 240-241, 338-339). -/
def SLat.padR (S : SLat F) : SLat F :=
  { S with lat := { S.lat with fp := { S.lat.fp with
      R := fun j i => if i = j ∧ S.dorigin ≤ j ∧ j < S.lat.d then o.ofZ S.amax else S.lat.fp.R j i } } }

/-- All the blocks of a phase; `none` if one of them does not return. -/
def allBlocks (f : Nat → Option (Lat F)) : Nat → Option (List (Lat F))
  | 0 => some []
  | nb + 1 =>
    match allBlocks f nb, f nb with
    | some l, some b => some (l ++ [b])
    | _, _ => none

/-- `BR[k].getU()` (slll.cc:185-188, 291-294). -/
def blockUs (BRs : List (Lat F)) (k : Nat) : Mat Int :=
  match BRs[k]? with | some b => b.getU.M | none => fun _ _ => 0

/-- `swapstab[2 * k] += BR.nbswaps` or `swapstab[2 * k + 1] += BR.nbswaps` (slll.cc:182, 289). -/
def addSwaps (odd : Bool) (BRs : List (Lat F)) (sw : Nat → Int) (t : Nat) : Int :=
  match BRs[t / 2]? with
  | some b => if t % 2 = (if odd then 1 else 0) then sw t + b.nbswaps else sw t
  | none => sw t

/-- Indices used in a phase (slll.cc:175-188, 284-297, 2102-2193): `swapstab`, `lovtests`, the blocks of `RZ`, `U_even` or
`U_odd`, `B` and `U`, the diagonal of `R` for the padding; `S = 0` is a division by zero (slll.cc:80). -/
def sphaseIdx (n d S nb dec swapLen : Nat) (odd : Bool) : Bool :=
  decide (0 < S ∧ nb ≤ S ∧ (0 < nb → 2 * (nb - 1) + (if odd then 1 else 0) < swapLen) ∧ nb * (d / S) + dec ≤ d ∧
    (0 < nb → pshift (d / S) (nb - 1) odd + d / S ≤ d) ∧ d ≤ n)

/-- A phase (slll.cc:131-241 even, 246-339 odd): block reductions, transformation, product, size
reduction.  Result: `phase_tests == nb*(2*bdim-1)`, gap status, object.  `matrix_cast(U, U_even)` is
the identity (`ZT = mpz_t`).  Global `verboseDepth` is not changed by the blocks (`VERBOSE_NO`). -/
def sphase (junk : F) (key : List Nat) (fuel : Nat) (δ : F) (S lovmax : Nat) (odd : Bool)
    (L : SLat F) : Option (Bool × Nat × SLat F) :=
  let d := L.lat.d
  let bdim := d / (2 * S)
  let dec := if odd then bdim else 0
  let nb := if odd then S - 1 else S
  let RZ := blockRZ c d L.lat.fp.R
  match allBlocks (blockReduce o junk fuel δ d S dec lovmax L.lat.seysenFlag L.lat.verboseDepth RZ) nb with
  | none => none
  | some BRs =>
    let U := sput σ key d S dec nb (blockUs BRs) fun _ _ => 0
    let tests : Int := (BRs.map fun b => (b.nblov : Int)).sum
    let L := { L with
      swapstab := addSwaps odd BRs L.swapstab
      lat := { L.lat with
        nbswaps := σ.race key L.lat.nbswaps (BRs.map (·.nbswaps))
        nblov := L.lat.nblov + (BRs.map (·.nblov)).sum
        U := U
        B := spmatprod σ key L.lat.n (d / S) nb odd U L.lat.B
        ub := L.lat.ub || BRs.any (·.ub) || !sphaseIdx L.lat.n d S nb dec L.swapLen odd } }
    match reduceAndGap o c σ key fuel L with
    | none => none
    | some (gap, L) =>
      some (decide (tests = (nb : Int) * (2 * (bdim : Int) - 1)), gap, if 2 ≤ gap then L else L.padR o)

/-- `for (iter = 0; stop == 0; iter++)` (slll.cc:126-344). -/
def sphases (junk δ : F) (S lovmax : Nat) : Nat → SLat F → Option (Nat × SLat F)
  | 0, _ => none
  | fuel + 1, L =>
    match sphase o c σ junk [0, fuel] (fuel + 1) δ S lovmax false L with
    | none => none
    | some (stop0, gap, L) =>
      if 2 ≤ gap then some (gap, L)
      else
        match sphase o c σ junk [1, fuel] (fuel + 1) δ S lovmax true L with
        | none => none
        | some (stop1, gap, L) =>
          if 2 ≤ gap then some (gap, L)
          else if stop0 && stop1 then some (0, L)
          else sphases junk δ S lovmax fuel L

/-- `householder(dorigin)` (slll.cc:2044-2097). -/
def SLat.householder (L : SLat F) : SLat F :=
  let dk := if L.dorigin = 0 then L.lat.d else L.dorigin
  { L with lat := { L.lat with
      fp := (List.range dk).foldl (fun p κ => hhAllCol o L.lat.n L.lat.d L.lat.B κ p) L.lat.fp
      ub := L.lat.ub || !decide (dk ≤ L.lat.n) } }

/-- `hlll(delta, S, nbthreads, lovmax)` (slll.cc:46-371): `verboseDepth` is decremented, and
incremented before every `return`.  `nbthreads` only selects how many threads run (`σ`). -/
def SLat.hlll (junk : F) (fuel : Nat) (δ : F) (S lovmax : Nat) (L : SLat F) :
    Option (Nat × SLat F) :=
  let L := { L with lat := { L.lat with verboseDepth := L.lat.verboseDepth - 1 } }
  match sphases o c σ junk δ S lovmax fuel ((L.householder o).padR o) with
  | none => none
  | some (r, L) =>
    some (r, { L with lat := { L.lat with verboseDepth := L.lat.verboseDepth + 1 } })

/-! ## Construction and accessors -/

/-- Largest absolute value of the entries (slll.cc:1965-1977). -/
def maxAbs (n d : Nat) (A : Mat Int) : Int :=
  forRange 0 n (fun i m => forRange 0 d (fun j m =>
    if m < ((A j i).natAbs : Int) then ((A j i).natAbs : Int) else m) m) 0

/-- Number of rows and columns added (slll.cc:1943-2001). -/
def padLen (d S : Nat) : Nat := if d % (2 * S) = 0 then 0 else 2 * S - d % (2 * S)

/-- Padded basis (slll.cc:1961-2011): `amax = d * max |a|` on the diagonal. -/
def padBasis (n d S : Nat) (A : Mat Int) : Mat Int := fun j i =>
  if i < n ∧ j < d then A j i
  else if n ≤ i ∧ d ≤ j ∧ i - n = j - d ∧ j - d < padLen d S then maxAbs n d A * d
  else 0

/-- The constructor (slll.cc:1933-2037) and `init` (slll.cc:1882-1930).  All the entries of `structure`
are set to the last one (slll.cc:2026-2030). -/
def newSLattice (junk : F) (n d : Nat) (A : Mat Int) (S : Nat) (forU : Bool) (method : Int)
    (longFlag : Bool) (verboseDepth : Int) : SLat F :=
  let N := n + padLen d S
  let D := d + padLen d S
  let B := padBasis n d S A
  { lat := { newLattice o junk N D B forU method longFlag verboseDepth with
             str := fun _ => matrixStructure N B (D - 1) }
    norigin := n, dorigin := d
    amax := if d % (2 * S) = 0 then 0 else maxAbs n d A * d
    swapstab := fun _ => 0
    swapLen := 2 * S - 1 }

/-- `getbase()` (slll.cc:1828-1838). -/
def SLat.getbase (L : SLat F) : ZMat := ⟨L.norigin, L.dorigin, L.lat.B⟩

/-- `getU()` (slll.cc:1841-1857). -/
def SLat.getU (L : SLat F) : ZMat := L.lat.getU

end HPLLL
