import Verif.Model.Lattice
/-!
# `hlll` on machine integers (`Lattice<long, ...>`, `Lattice<__int128_t, ...>`)

`wrappers.h` runs `hlll` on entries of type `long` and `__int128_t`: every operation of
`Z_NR<long>` (fplll) and `Z_NR<__int128_t>` (nr_Z_l128.h:294-369) is the machine operation.
The functions below are those of `Verif.Model.Lattice` where the updates of `B` and `U` are done on
`w`-bit two's complement integers; the flag `ub` is also set by an undefined integer operation:

* `strict = true`: the C++ standard, every result (also intermediate) outside the type is undefined;
* `strict = false`: `gcc -fwrapv`, operations wrap; a shift by `w` bits or more, a conversion
  from floating point outside the type and the negation of the least `long` remain undefined.

Left shifts of negative numbers (`mul_2si`) are multiplications, as gcc defines them.
-/

namespace HPLLL

/-- An integer type. -/
structure Mch where
  /-- number of bits (64 for `long`, 128 for `__int128_t`) -/
  w : Nat
  strict : Bool

/-- `z` is a value of the type. -/
def Mch.inR (c : Mch) (z : Int) : Bool := -(2 ^ (c.w - 1)) ≤ z && z < 2 ^ (c.w - 1)

/-- Two's complement reduction to `w` bits. -/
def Mch.wrap (c : Mch) (z : Int) : Int := Int.bmod z (2 ^ c.w)

/-- An intermediate or final result `z` is acceptable. -/
def Mch.ok (c : Mch) (z : Int) : Bool := !c.strict || c.inR z

variable {F : Type} (o : FPOps F)

/-- The new value of the entry `a` of column `kappa`, `b` the entry of column `i` on the same row, for
the multiplier `x` (`xz` is what `set_f` is applied to), and whether everything is defined.  The
operation is selected as in `redZ` (hlll.cc:1320-1396): `sub`, `add`, `addmul_si`, `submul`
(nr_Z_l128.h:294, 304, 362, 367), and `mul_si`, `mul_2si`, `add` (mat.h:401-416).
`-lx` is computed in type `long`. -/
def mEntry (c : Mch) (fastLong : Bool) (x xz : F) (a b : Int) : Int × Bool :=
  let (lx, expo) := o.getSiExp x
  let long := decide (-(2 ^ 63) < lx ∧ lx < 2 ^ 63)
  let z := o.toZ xz
  if expo = 0 then
    if lx = 1 then (c.wrap (a - b), c.ok (a - b))
    else if lx = -1 then (c.wrap (a + b), c.ok (a + b))
    else if fastLong then
      (c.wrap (a + c.wrap (b * -lx)), long && c.ok (b * -lx) && c.ok (a + b * -lx))
    else (c.wrap (a - c.wrap (z * b)), c.inR z && c.ok (z * b) && c.ok (a - z * b))
  else if fastLong then
    (c.wrap (a + c.wrap (c.wrap (b * -lx) * 2 ^ expo)),
      long && decide (expo < c.w) && c.ok (b * -lx) && c.ok (b * -lx * 2 ^ expo) &&
        c.ok (a + b * -lx * 2 ^ expo))
  else (c.wrap (a - c.wrap (z * b)), c.inR z && c.ok (z * b) && c.ok (a - z * b))

/-- An integer type, as seen by the updates: new value of an entry as for `mEntry`, and whether the operation is
defined (exact, for floating point entries). -/
abbrev EntF (F : Type) := Bool → F → F → Int → Int → Int × Bool

/-- Update of column `kappa` of `M` on the rows `ibeg <= r < ibeg + nloc` (mat.h:301-435). -/
def mred (c : EntF F) (fastLong : Bool) (κ i ibeg nloc : Nat) (x xz : F) (M : Mat Int) : Mat Int × Bool :=
  (setCol M κ fun r =>
      if ibeg ≤ r ∧ r < nloc + ibeg then (c fastLong x xz (M κ r) (M i r)).1 else M κ r,
   (List.range' ibeg nloc).all fun r => (c fastLong x xz (M κ r) (M i r)).2)

/-! ## size reduction -/

/-- `sizeUpdateStep` (hlll.cc:1305-1402). -/
def mSizeUpdateStep (c : EntF F) (κ i : Nat) (q : Lat F × Bool) : Lat F × Bool :=
  let s := q.1
  let x := o.rnd (o.div (s.fp.R κ i) (s.fp.R i i))
  let s := { s with fp := { s.fp with x := x } }
  if o.isZero x then (s, q.2)
  else
    let nmax := nmaxOf s.str i
    let b := mred c s.fastLong κ i 0 nmax x x s.B
    let u := if s.transf then mred c s.fastLong κ i 0 (min s.d nmax) x x s.U else (s.U, true)
    ({ s with
       fp := { s.fp with R := redR o κ i (i + 1) x s.fp.R }
       B := b.1
       U := u.1
       ub := (s.ub || !(decide (κ < s.d ∧ i < s.d ∧ i < s.n ∧ nmax ≤ s.n))) || !(b.2 && u.2) }, true)

/-- `size_update(kappa, m-1, 0)` (hlll.cc:1288-1411). -/
def mSizeUpdateLoop (c : EntF F) (κ : Nat) : Nat → Lat F × Bool → Lat F × Bool
  | 0, q => q
  | m + 1, q => mSizeUpdateLoop c κ m (mSizeUpdateStep o c κ m q)

/-- Body of thread `l` of `psize_update_B` (hlll.cc:1554-1631). -/
def mPsizeThread (c : EntF F) (fastLong : Bool) (κ : Nat) (vx : Nat → F) (ibeg nloc : Nat) :
    Nat → Mat Int × Bool → Mat Int × Bool
  | 0, q => q
  | m + 1, q =>
    mPsizeThread c fastLong κ vx ibeg nloc m <|
      if o.isZero (vx m) then q
      else
        let b := mred c fastLong κ m ibeg nloc (vx m) (vx m) q.1
        (b.1, q.2 && b.2)

/-- `psize_update_B(kappa, m-1, 0, vectx, S)` (hlll.cc:1505-1639), threads one after the other. -/
def mPsizeUpdateB (c : EntF F) (fastLong : Bool) (κ m : Nat) (str : Nat → Int) (vx : Nat → F) (S : Nat)
    (q : Mat Int × Bool) : Mat Int × Bool :=
  let nmax := psizeNmax str m
  (List.range S).foldl
    (fun q l => mPsizeThread o c fastLong κ vx (sliceBeg nmax S l) (sliceLen nmax S l) m q) q

/-- One pass (hlll.cc:1182-1193); `size_update_R` does not touch integers. -/
def mHsizePass (c : EntF F) (κ m : Nat) (s : Lat F) : Lat F × Bool :=
  if s.numS = 1 ∨ (κ : Int) - 1 < s.parThr then mSizeUpdateLoop o c κ m (s, false)
  else
    let q := sizeUpdateRLoop o κ m (s, fun _ => o.zero, false)
    let nmax := psizeNmax q.1.str m
    let b := mPsizeUpdateB o c q.1.fastLong κ m q.1.str q.2.1 q.1.numS (q.1.B, true)
    ({ q.1 with
       B := b.1
       ub := (q.1.ub || !(decide (κ < q.1.d ∧ m < q.1.d ∧ nmax ≤ q.1.n))) || !b.2 }, q.2.2)

/-- `while (somedone == 1)` of `hsizereduce` (hlll.cc:1175-1275). -/
def mHsizeLoop (c : EntF F) (κ m : Nat) : Nat → Bool → Lat F → Option (Int × Lat F)
  | 0, _, _ => none
  | fuel + 1, prevNonstop, s =>
    let q := mHsizePass o c κ m s
    let s := q.1
    if q.2 then
      let s := { s with fp := { s.fp with colKept := setAt s.fp.colKept κ false } }
      let t := o.mul o.tenth (s.fp.normB2 κ)
      let s := s.hhR o κ
      let nonstop := o.lt (s.fp.normB2 κ) t
      if !prevNonstop && !nonstop then
        if sizeAnomaly o κ s.fp then some (-1, s) else some (0, s)
      else mHsizeLoop c κ m fuel nonstop s
    else some (0, s)

/-- `hsizereduce(kappa, fromk)` (hlll.cc:1137-1280). -/
def mHsizereduce (c : EntF F) (fuel κ fromk : Nat) (s : Lat F) : Option (Int × Lat F) :=
  let s := s.hhR o κ
  let start := if 0 < fromk then min (κ - 1) fromk else κ - 1
  mHsizeLoop o c κ (start + 1) fuel true s

/-! ## Seysen reduction -/

/-- One iteration `i` of `seysen_update` (hlll.cc:524-615). -/
def mSeysenUpdateStep (c : EntF F) (κ restdim i : Nat) (q : Lat F × (Nat → F) × Bool) :
    Lat F × (Nat → F) × Bool :=
  let s := q.1
  let xf := o.rnd (q.2.1 i)
  let vx := setAt q.2.1 i xf
  if o.isZero xf then (s, vx, q.2.2)
  else
    let nmax := nmaxOf s.str i
    let b := mred c s.fastLong κ i 0 nmax xf s.fp.x s.B
    let u := if s.transf then mred c s.fastLong κ i 0 (min s.d nmax) xf s.fp.x s.U else (s.U, true)
    ({ s with
       fp := { s.fp with R := redR o κ i restdim xf s.fp.R }
       B := b.1
       U := u.1
       ub := (s.ub || !(decide (κ < s.d ∧ i < s.d ∧ restdim ≤ s.n ∧ nmax ≤ s.n))) || !(b.2 && u.2) },
     vx, true)

/-- `seysen_update` (hlll.cc:495-620). -/
def mSeysenUpdateLoop (c : EntF F) (κ restdim : Nat) :
    Nat → Lat F × (Nat → F) × Bool → Lat F × (Nat → F) × Bool
  | 0, q => q
  | m + 1, q => mSeysenUpdateLoop c κ restdim m (mSeysenUpdateStep o c κ restdim (restdim + m) q)

/-- One iteration of `while (ld <= kappa)` (hlll.cc:345-413). -/
def mSeysenBlock (c : EntF F) (κ ld indexdec : Nat) (q : SeyState F) : SeyState F :=
  let bdim := if κ / ld % 2 = 0 then 0 else ld
  let restdim := κ - indexdec - bdim
  let tmp := fun i => if restdim ≤ i ∧ i < κ - indexdec then q.s.fp.R κ i else q.tmpcol i
  let tv := seysenSolve o q.s.fp.R restdim (κ - indexdec - restdim) (tmp, q.vectx)
  if q.s.numS = 1 ∨ (bdim : Int) < q.s.parThr then
    let u := mSeysenUpdateLoop o c κ restdim (κ - indexdec - restdim) (q.s, tv.2, false)
    { s := u.1, tmpcol := tv.1, vectx := u.2.1, somedone := q.somedone || u.2.2 }
  else { q with tmpcol := tv.1, vectx := tv.2 }

/-- `while (ld <= kappa)`. -/
def mSeysenBlocks (c : EntF F) (κ : Nat) : Nat → Nat → Nat → SeyState F → SeyState F
  | 0, _, _, q => q
  | fuel + 1, ld, indexdec, q =>
    if ld ≤ κ then
      let bdim := if κ / ld % 2 = 0 then 0 else ld
      mSeysenBlocks c κ fuel (ld * 2) (indexdec + bdim) (mSeysenBlock o c κ ld indexdec q)
    else q

/-- `while (somedone == 1)` of `seysenreduce` (hlll.cc:334-491). -/
def mSeysenLoop (c : EntF F) (κ : Nat) : Nat → Bool → Bool → (Nat → F) → (Nat → F) → Lat F →
    Option (Int × Lat F)
  | 0, _, _, _, _, _ => none
  | fuel + 1, ns0, ns1, tmp, vx, s =>
    let q := mSeysenBlocks o c κ (κ + 1) 1 0 { s := s, tmpcol := tmp, vectx := vx, somedone := false }
    if q.somedone then
      let s := { q.s with fp := { q.s.fp with colKept := setAt q.s.fp.colKept κ false } }
      let t := o.mul o.hundredth (s.fp.normB2 κ)
      let s := s.hhR o κ
      let ns2 := o.lt (s.fp.normB2 κ) t
      if ns0 || ns1 || ns2 then mSeysenLoop c κ fuel ns1 ns2 q.tmpcol q.vectx s
      else some (0, s)
    else some (0, q.s)

/-- `seysenreduce(kappa)` (hlll.cc:295-493). -/
def mSeysenreduce (c : EntF F) (fuel κ : Nat) (s : Lat F) : Option (Int × Lat F) :=
  mSeysenLoop o c κ fuel true true (fun _ => o.zero) (fun _ => o.zero) (s.hhR o κ)

/-! ## hlll -/

/-- Reduction of column `kappa` (hlll.cc:113-116). -/
def mHlllReduce (c : EntF F) (fuel κ : Nat) (s : Lat F) : Option (Int × Lat F) :=
  if s.seysenFlag < 1 then mHsizereduce o c fuel κ 0 s else mSeysenreduce o c fuel κ s

/-- One iteration of the main loop (hlll.cc:96-262): swaps do no arithmetic. -/
def mHlllStep (c : EntF F) (fuel : Nat) (deltab : F) (h : HState F) : HStep F :=
  let κ := h.kappa
  match mHlllReduce o c fuel κ (hlllPrep o κ h.s) with
  | none => .diverge
  | some (flag, s) =>
    if flag = -1 then .fail s
    else
      let lov := lovtest o deltab κ s.fp
      let s := { s with nblov := s.nblov + 1
                        ub := s.ub || !(decide (κ < s.d ∧ κ < s.n ∧ nmaxOf s.str κ ≤ s.n)) }
      if o.le lov (newt o s.str κ s.fp) then
        let s := s.hhV o κ
        if h.prevkappa = κ + 1 ∧ o.lt (h.prevR κ) (o.abs (s.fp.R κ κ)) then .fail s
        else
          .next { s := hlllUp κ s
                  kappa := κ + 1
                  prevkappa := κ
                  prevR := setAt h.prevR κ (o.abs (s.fp.R κ κ)) }
      else
        .next { s := hlllDown κ s
                kappa := max (κ - 1) 1
                prevkappa := κ
                prevR := h.prevR }

/-- The main loop (hlll.cc:95-262). -/
def mHlllLoop (c : EntF F) (deltab : F) : Nat → HState F → Option (Int × Lat F)
  | 0, _ => none
  | fuel + 1, h =>
    if h.kappa < h.s.kappaMax ∧ h.s.nblov < h.s.nblovMax then
      match mHlllStep o c (fuel + 1) deltab h with
      | .diverge => none
      | .fail s => some (-1, s)
      | .next h => mHlllLoop c deltab fuel h
    else some (0, h.s)

/-- `hlll(delta, verbose)` (hlll.cc:38-277) of `Lattice<ZT, ...>` with `ZT` the type `c`. -/
def gHlll (c : EntF F) (fuel : Nat) (deltab : F) (verbose : Bool) (s : Lat F) : Option (Int × Lat F) :=
  let s := if verbose then { s with verboseDepth := s.verboseDepth - 1 } else s
  match mHlllLoop o c deltab fuel (hlllInit o s) with
  | none => none
  | some (st, s) =>
    some (st, if verbose then { s with verboseDepth := s.verboseDepth + 1 } else s)

/-- `hlll(delta, verbose)` (hlll.cc:38-277) on machine integers. -/
def mHlll (c : Mch) (fuel : Nat) (deltab : F) (verbose : Bool) (s : Lat F) : Option (Int × Lat F) :=
  gHlll o (mEntry o c) fuel deltab verbose s

end HPLLL
