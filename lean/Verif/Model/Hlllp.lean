import Verif.Model.Lattice
/-!
# Model of `hlllp` and of the alternative Seysen reductions (hlll.cc:621-1125, 2811-3322)

Public methods of `Lattice` next to `hlll` / `seysenreduce`.  The literal constants `0.501` and
`0.50001` are parameters `thr`.  Timers, printing, the counter `compteur` and the argument `compt`
(they only decide whether a line of dashes is printed, hlll.cc:3080-3090, 3266-3270) are not modelled.
-/

namespace HPLLL

variable {F : Type} (o : FPOps F)

/-! ## newseysenreduce (hlll.cc:2997-3318) -/

/-- Update of `R` on the block `[restdim, restdim+m)`, `i` decreasing (hlll.cc:3101-3160).  `x` is a
local variable here. -/
def nsUpdateR (κ restdim : Nat) (bounded : Nat → Bool) (vx : Nat → F) : Nat → Lat F → Lat F
  | 0, s => s
  | m + 1, s =>
    let i := restdim + m
    nsUpdateR κ restdim bounded vx m <|
      if bounded i then s
      else
        { s with
          fp := { s.fp with R := redR o κ i restdim (o.rnd (vx i)) s.fp.R }
          ub := s.ub || !(decide (κ < s.d ∧ i < s.d ∧ restdim ≤ s.n)) }

/-- Update of `B` and `U` on the block (hlll.cc:3166-3256). -/
def nsUpdateB (κ restdim : Nat) (bounded : Nat → Bool) (vx : Nat → F) : Nat → Lat F → Lat F
  | 0, s => s
  | m + 1, s =>
    let i := restdim + m
    nsUpdateB κ restdim bounded vx m <|
      if bounded i then s
      else
        let x := o.rnd (vx i)
        let nmax := nmaxOf s.str i
        { s with
          B := redZ o s.fastLong κ i nmax x x s.B
          U := if s.transf then redZ o s.fastLong κ i (min s.d nmax) x x s.U else s.U
          ub := s.ub || !(decide (κ < s.d ∧ i < s.d ∧ nmax ≤ s.n)) }

/-- One iteration of `while (ld <= kappa)` (hlll.cc:3033-3277).  `vectx[i]` is not modified after the
test that sets `bounded[i]`. -/
def nsBlock (thr : F) (κ ld indexdec : Nat) (q : SeyState F) : SeyState F :=
  let bdim := if κ / ld % 2 = 0 then 0 else ld
  let restdim := κ - indexdec - bdim
  let m := κ - indexdec - restdim
  let tmp := fun i => if restdim ≤ i ∧ i < κ - indexdec then q.s.fp.R κ i else q.tmpcol i
  let tv := seysenSolve o q.s.fp.R restdim m (tmp, q.vectx)
  let bounded := fun i => !(o.lt thr (o.abs (tv.2 i)))
  { s := nsUpdateB o κ restdim bounded tv.2 m (nsUpdateR o κ restdim bounded tv.2 m q.s)
    tmpcol := tv.1
    vectx := tv.2
    somedone := q.somedone || (List.range m).any fun j => !(bounded (restdim + j)) }

/-- `while (ld <= kappa)`. -/
def nsBlocks (thr : F) (κ : Nat) : Nat → Nat → Nat → SeyState F → SeyState F
  | 0, _, _, q => q
  | fuel + 1, ld, indexdec, q =>
    if ld ≤ κ then
      let bdim := if κ / ld % 2 = 0 then 0 else ld
      nsBlocks thr κ fuel (ld * 2) (indexdec + bdim) (nsBlock o thr κ ld indexdec q)
    else q

/-- `while (nonstop)` (hlll.cc:3022-3293); the returned `somedone` is 0. -/
def nsLoop (thr : F) (κ : Nat) : Nat → (Nat → F) → (Nat → F) → Lat F → Option (Int × Lat F)
  | 0, _, _, _ => none
  | fuel + 1, tmp, vx, s =>
    let q := nsBlocks o thr κ (κ + 1) 1 0 { s := s, tmpcol := tmp, vectx := vx, somedone := false }
    if q.somedone then
      let s := { q.s with fp := { q.s.fp with colKept := setAt q.s.fp.colKept κ false } }
      nsLoop thr κ fuel q.tmpcol q.vectx (s.hhR o κ)
    else some (0, q.s)

/-- `newseysenreduce(kappa, dthreshold, compt)` (hlll.cc:2997-3297). -/
def newseysenreduce (thr : F) (fuel κ : Nat) (s : Lat F) : Option (Int × Lat F) :=
  nsLoop o thr κ fuel (fun _ => o.zero) (fun _ => o.zero) (s.hhR o κ)

/-! ## hlllp (hlll.cc:2814-2980) -/

/-- Reduction of column `kappa` (hlll.cc:2867-2872). -/
def hlllpReduce (thr : F) (dth : Int) (fuel κ : Nat) (s : Lat F) : Option (Int × Lat F) :=
  if s.seysenFlag < 1 then hsizereduce o fuel κ 0 s
  else if dth < κ then newseysenreduce o thr fuel κ s
  else seysenreduce o fuel κ s

/-- One iteration of the main loop (hlll.cc:2849-2967). -/
def hlllpStep (thr : F) (dth : Int) (fuel : Nat) (deltab : F) (h : HState F) : HStep F :=
  let κ := h.kappa
  match hlllpReduce o thr dth fuel κ (hlllPrep o κ h.s) with
  | none => .diverge
  | some (flag, s) =>
    if flag = -1 then .fail s
    else
      let lov := lovtest o deltab κ s.fp
      let s := { s with nblov := s.nblov + 1
                        ub := s.ub || !(decide (κ < s.d ∧ κ < s.n ∧ nmaxOf s.str κ ≤ s.n)) }
      if o.le lov (newt o s.str κ s.fp) then
        let s := s.hhV o κ
        if h.prevkappa = κ + 1 ∧ o.lt (h.prevR κ) (o.abs (s.fp.R κ κ)) then .fail s
        else
          .next { s := hlllUp κ s
                  kappa := κ + 1
                  prevkappa := κ
                  prevR := setAt h.prevR κ (o.abs (s.fp.R κ κ)) }
      else
        .next { s := hlllDown κ s
                kappa := max (κ - 1) 1
                prevkappa := κ
                prevR := h.prevR }

/-- `while ((kappa < d) && (nblov < nblov_max))` (hlll.cc:2847-2967): `kappa_max` is not used. -/
def hlllpLoop (thr : F) (dth : Int) (deltab : F) : Nat → HState F → Option (Int × Lat F)
  | 0, _ => none
  | fuel + 1, h =>
    if h.kappa < h.s.d ∧ h.s.nblov < h.s.nblovMax then
      match hlllpStep o thr dth (fuel + 1) deltab h with
      | .diverge => none
      | .fail s => some (-1, s)
      | .next h => hlllpLoop thr dth deltab fuel h
    else some (0, h.s)

/-- `hlllp(delta, dthreshold, compt)` (hlll.cc:2814-2980). -/
def hlllp (thr : F) (dth : Int) (fuel : Nat) (deltab : F) (s : Lat F) : Option (Int × Lat F) :=
  hlllpLoop o thr dth deltab fuel (hlllInit o s)

/-! ## seysenreduce0 (hlll.cc:638-771) -/

/-- Computation of `vectx` and `bounded` on the block `[restdim, restdim+m)` (hlll.cc:709-734):
`q = (tmpcolR, vectx, bounded, somedone)`; the test compares
`|tmpcolR[i] / (|R(i,i)| + theta)|` with `thr` (`0.50001`). -/
def sey0Solve (thr theta : F) (R : Mat F) (restdim : Nat) :
    Nat → (Nat → F) × (Nat → F) × (Nat → Bool) × Bool →
      (Nat → F) × (Nat → F) × (Nat → Bool) × Bool
  | 0, q => q
  | m + 1, q =>
    let i := restdim + m
    let xi := o.div (q.1 i) (R i i)
    let big := o.lt thr (o.abs (o.div (q.1 i) (o.add (o.abs (R i i)) theta)))
    sey0Solve thr theta R restdim m
      (fun k => if restdim ≤ k ∧ k < i then o.submul (q.1 k) (R i k) xi else q.1 k,
       setAt q.2.1 i xi, setAt q.2.2.1 i (!big), q.2.2.2 || big)

/-- `seysen_update_R(vectx, kappa, restdim+m-1, restdim, bounded)` (hlll.cc:913-968): rounds `vectx`,
updates the rows of `R` above the block. -/
def seysenUpdateRLoop (κ restdim : Nat) (bounded : Nat → Bool) :
    Nat → Lat F × (Nat → F) → Lat F × (Nat → F)
  | 0, q => q
  | m + 1, q =>
    let i := restdim + m
    let xf := o.rnd (q.2 i)
    let s := q.1
    seysenUpdateRLoop κ restdim bounded m <|
      (if bounded i then s
       else
        { s with
          fp := { s.fp with R := redR o κ i restdim xf s.fp.R }
          ub := s.ub || !(decide (κ < s.d ∧ i < s.d ∧ restdim ≤ s.n)) },
       setAt q.2 i xf)

/-- Update of `B` on a row slice with multiplier `xf`, in the no-long case through the member `x`
(`xm`) instead of `xf` (hlll.cc:1029-1088). -/
def predZx (fastLong : Bool) (κ i ibeg nloc : Nat) (xf xm : F) (M : Mat Int) : Mat Int :=
  let (lx, expo) := o.getSiExp xf
  if expo = 0 then
    if lx = 1 then psubcol M κ i ibeg nloc
    else if lx = -1 then paddcol M κ i ibeg nloc
    else if fastLong then paddmulcolSi M κ i (-lx) ibeg nloc
    else psubmulcol M κ i (o.toZ xm) ibeg nloc
  else if fastLong then paddmulcolSi2exp M κ i (-lx) expo ibeg nloc
  else psubmulcol M κ i (o.toZ xm) ibeg nloc

/-- `nmax` of `pseysen_update_B` (hlll.cc:986-991): maximum of `structure[restdim .. from_i+1]`, plus
one; `from_i = restdim + m - 1`. -/
def pseysenNmax (str : Nat → Int) (restdim m : Nat) : Nat :=
  ((List.range' restdim (m + 1)).foldl (fun a i => max a (str i)) (str (restdim + m - 1)) + 1).toNat

/-- Body of thread `l` (hlll.cc:1024-1092): `i = restdim+m-1 .. restdim` on its rows. -/
def pseysenThread (fastLong : Bool) (κ restdim : Nat) (bounded : Nat → Bool) (vx : Nat → F) (xm : F)
    (ibeg nloc : Nat) : Nat → Mat Int → Mat Int
  | 0, M => M
  | m + 1, M =>
    let i := restdim + m
    pseysenThread fastLong κ restdim bounded vx xm ibeg nloc m
      (if bounded i then M else predZx o fastLong κ i ibeg nloc (vx i) xm M)

/-- `pseysen_update_B(kappa, restdim+m-1, restdim, vectx, bounded, S)` (hlll.cc:979-1098), threads
one after the other (other schedules: `pseysenThreads` of `Model/ParSey`).  `U` is not updated (hlll.cc:1037-1084). -/
def pseysenUpdateB (fastLong : Bool) (κ restdim m : Nat) (bounded : Nat → Bool) (str : Nat → Int)
    (vx : Nat → F) (xm : F) (S : Nat) (M : Mat Int) : Mat Int :=
  let nmax := pseysenNmax str restdim m
  (List.range S).foldl
    (fun M l => pseysenThread o fastLong κ restdim bounded vx xm (sliceBeg nmax S l)
      (sliceLen nmax S l) m M) M

/-- One iteration of `while (ld <= kappa)` (hlll.cc:687-751).  The sequential branch calls
`seysen_update`, which ignores `bounded` (not `seysen_update0`). -/
def sey0Block (thr theta : F) (κ ld indexdec : Nat) (q : SeyState F × (Nat → Bool)) :
    SeyState F × (Nat → Bool) :=
  let bdim := if κ / ld % 2 = 0 then 0 else ld
  let restdim := κ - indexdec - bdim
  let m := κ - indexdec - restdim
  let s := q.1.s
  let tmp := fun i => if restdim ≤ i ∧ i < κ - indexdec then s.fp.R κ i else q.1.tmpcol i
  let tv := sey0Solve o thr theta s.fp.R restdim m (tmp, q.1.vectx, q.2, q.1.somedone)
  if s.numS = 1 ∨ (bdim : Int) < s.parThr then
    let u := seysenUpdateLoop o κ restdim m (s, tv.2.1, false)
    ({ s := u.1, tmpcol := tv.1, vectx := u.2.1, somedone := tv.2.2.2 }, tv.2.2.1)
  else
    let u := seysenUpdateRLoop o κ restdim tv.2.2.1 m (s, tv.2.1)
    let w := u.1
    ({ s := { w with
         B := pseysenUpdateB o w.fastLong κ restdim m tv.2.2.1 w.str u.2 w.fp.x w.numS w.B
         ub := w.ub || !(decide (κ < w.d ∧ restdim + m < w.d ∧
           pseysenNmax w.str restdim m ≤ w.n)) }
       tmpcol := tv.1, vectx := u.2, somedone := tv.2.2.2 }, tv.2.2.1)

/-- `while (ld <= kappa)`. -/
def sey0Blocks (thr theta : F) (κ : Nat) : Nat → Nat → Nat → SeyState F × (Nat → Bool) →
    SeyState F × (Nat → Bool)
  | 0, _, _, q => q
  | fuel + 1, ld, indexdec, q =>
    if ld ≤ κ then
      let bdim := if κ / ld % 2 = 0 then 0 else ld
      sey0Blocks thr theta κ fuel (ld * 2) (indexdec + bdim) (sey0Block o thr theta κ ld indexdec q)
    else q

/-- `while (nonstop)` (hlll.cc:670-767). -/
def sey0Loop (thr : F) (κ : Nat) : Nat → (Nat → F) → (Nat → F) → (Nat → Bool) → Lat F →
    Option (Int × Lat F)
  | 0, _, _, _, _ => none
  | fuel + 1, tmp, vx, bd, s =>
    let theta := o.mul (o.sqrt (s.fp.normB2 κ)) o.eps
    let q := sey0Blocks o thr theta κ (κ + 1) 1 0
      ({ s := s, tmpcol := tmp, vectx := vx, somedone := false }, bd)
    if q.1.somedone then
      let s := { q.1.s with fp := { q.1.s.fp with colKept := setAt q.1.s.fp.colKept κ false } }
      sey0Loop thr κ fuel q.1.tmpcol q.1.vectx q.2 (s.hhR o κ)
    else some (0, q.1.s)

/-- `seysenreduce0(kappa)` (hlll.cc:638-771). -/
def seysenreduce0 (thr : F) (fuel κ : Nat) (s : Lat F) : Option (Int × Lat F) :=
  let s := { s with fp := { s.fp with nmaxkappa := nmaxOf s.str κ } }
  sey0Loop o thr κ fuel (fun _ => o.zero) (fun _ => o.zero) (fun _ => false) (s.hhR o κ)

end HPLLL
