import Verif.Model.Householder
/-!
# Model of the FGAS decompositions (src/decomp.h, src/decomp.cc, src/decompz.h, src/decompz.cc)

`ZFgas` (integer input) and `Fgas` (floating point input of type `RT`) share the text of
`householder` and `hsizereduce` ("exactly same as in decomp.cc", decompz.cc:288, 411, 490); the model
has one object `Fg X F`, where `X` is the type of the entries of the matrix `F` that is decomposed
(`Int`, or the floating point type `RT`) and `F` the type of the entries of `R`.  All operations on
both types are uninterpreted (`FPOps F`, `XOps X F`).

`while` loops take a fuel argument (`none` = still running).  The field `ub` is set when an index
outside the allocated size of a `matrix`/`vector` is used.  Printed messages are not modelled.
-/

namespace HPLLL

/-- Operations on the entries of the matrix that is decomposed, and conversion to the type of `R`.
`cmp(a,b) < 0` is `lt a b`. -/
structure XOps (X F : Type) where
  /-- `setcol` from a column of `F` to a column of `R` (mat.h:194-299) -/
  toF : X → F
  /-- `set_z(xr, xz)` (decomp.cc:513) -/
  ofZ : Int → X
  zero : X
  one : X
  add : X → X → X
  sub : X → X → X
  div : X → X → X
  /-- `r.addmul(a,b)` is `addmul r a b` -/
  addmul : X → X → X → X
  submul : X → X → X → X
  abs : X → X
  lt : X → X → Bool

/-- The operations on `Z_NR<mpz_t>` for `ZFgas` (`div`, `abs`, `lt`, `zero`, `one` are not used by
`ZFgas`). -/
def zX {F : Type} (o : FPOps F) : XOps Int F where
  toF := o.ofZ
  ofZ := id
  zero := 0
  one := 1
  add := (· + ·)
  sub := (· - ·)
  div := (· / ·)
  addmul := fun r a b => r + a * b
  submul := fun r a b => r - a * b
  abs := fun a => if a < 0 then -a else a
  lt := fun a b => decide (a < b)

/-- Members of `ZFgas` (decompz.h:40-118) and `Fgas` (decomp.h:38-140).  Of `fp`, only `R` (d × n),
`V` (d × d) and `normB2` (n) exist in these classes.  `trU`, `trW`, `trY` say which of `U`, `W`, `Y`
the object maintains: `ZFgas` (decompz.cc:701-708) `U` with `TRANSFORM` and `W` otherwise;
`Fgas` (decomp.cc:896-923) always `W`, `U` when `transf` or `dec == 0`, `Y` when `dec > 0`. -/
structure Fg (X F : Type) where
  d : Nat
  n : Nat
  dec : Nat
  ldim : Nat
  nblov : Nat
  transf : Bool
  trU : Bool
  trW : Bool
  trY : Bool
  /-- the matrix `F`, d × n -/
  M : Mat X
  /-- the residue, d × dec -/
  Y : Mat X
  U : Mat Int
  W : Mat Int
  fp : FPart F
  ub : Bool

section
variable {X F : Type} (o : FPOps F) (q : XOps X F)

/-! ## Column and row operations on `X` -/

/-- `addcol`, `subcol`, `submulcol` on a matrix of `X` (mat.h:309-366): `col j := f (col j) (col k)`
on rows `< l`. -/
def xcol (M : Mat X) (j k l : Nat) (f : X → X → X) : Mat X :=
  setCol M j fun i => if i < l then f (M j i) (M k i) else M j i

/-- `addrow(i,k)`, `subrow(i,k)`, `addmulrow(i,k,a)` (mat.h:483-499): `row i := f (row i) (row k)` on
the `c` columns. -/
def xrow (Y : Mat X) (i k c : Nat) (f : X → X → X) : Mat X :=
  fun j => if j < c then setAt (Y j) i (f (Y j i) (Y j k)) else Y j

/-- `rowswap(i,k)` on `c` columns (mat.h:472-481). -/
def xrowswap (Y : Mat X) (i k c : Nat) : Mat X :=
  fun j => if j < c then fun r => if r = i then Y j k else if r = k then Y j i else Y j r else Y j

/-- `addmulcol(j,k,a,l)` on integers (mat.h:438-445). -/
def addmulcol (M : Mat Int) (j k : Nat) (a : Int) (l : Nat) : Mat Int :=
  setCol M j fun i => if i < l then M j i + a * M k i else M j i

/-! ## householder (decompz.cc:418-485, decomp.cc:572-640) -/

/-- `R.setcol(kappa, F.getcol(kappa), 0, d)`, `fp_norm_sq(normB2[kappa], ...)` and the reflections
`k < m` (decompz.cc:429-440 with `m = kappa`, 472-484 with `m = d - ldim`). -/
def fgCol (d : Nat) (M : Mat X) (κ m : Nat) (p : FPart F) : FPart F :=
  let p := { p with R := fsetcol p.R κ (fun i => q.toF (M κ i)) d }
  let p := { p with normB2 := setAt p.normB2 κ (fpNormSq o (p.R κ) d) }
  (List.range m).foldl (fun p k => hhAllApply o d κ k p) p

/-- `householder(kappa)`.  Lines decompz.cc:442-464 are the text of `householder_v` (hlll.cc:1811-1856)
with `d` in place of `nmaxkappa`. -/
def fgHhCol (d ldim : Nat) (M : Mat X) (κ : Nat) (p : FPart F) : FPart F :=
  if κ < d - ldim then
    let p := fgCol o q d M κ κ p
    let p := householderV o d κ { p with nmaxkappa := d }
    { p with R := setCol p.R κ fun i => if κ + 1 ≤ i ∧ i < d then o.zero else p.R κ i }
  else fgCol o q d M κ (d - ldim) p

/-- `householder(kappa)` as a method; row 0 is read whatever `d` is. -/
def Fg.hh (κ : Nat) (s : Fg X F) : Fg X F :=
  { s with fp := fgHhCol o q s.d s.ldim s.M κ s.fp
           ub := s.ub || !decide (κ < s.n ∧ 0 < s.d) }

/-- `householder()` (decompz.cc:494-563, decomp.cc:648-707): all columns with `ldim` replaced by 0;
`normB2` is not written (it is in the model). -/
def Fg.householder (s : Fg X F) : Fg X F :=
  { s with fp := (List.range (max s.d s.n)).foldl (fun p κ => fgHhCol o q s.d 0 s.M κ p) s.fp
           ub := s.ub || !decide (s.d ≤ s.n ∧ 0 < s.d) }

/-! ## hsizereduce (decompz.cc:295-406, decomp.cc:428-560) -/

/-- Body of the loop on `i` when `x` is not zero (decompz.cc:332-383, decomp.cc:473-541): the three
cases `xz == -1`, `xz == 1` and the general one. -/
def Fg.combine (κ i : Nat) (x : F) (s : Fg X F) : Fg X F :=
  let xz := o.toZ x
  let xr := q.ofZ xz
  let yes := s.trY && decide (s.dec ≤ i)
  let ok := decide (κ < s.n ∧ i < s.n ∧ i < s.d) && (!yes || decide (κ - s.dec < s.d))
  let s := { s with ub := s.ub || !ok }
  if xz = -1 then
    { s with
      fp := { s.fp with R := faddcol o s.fp.R κ i i }
      M := xcol s.M κ i s.d q.add
      W := if s.trW then subcol s.W i κ s.n else s.W
      U := if s.trU then addcol s.U κ i s.n else s.U
      Y := if yes then xrow s.Y (i - s.dec) (κ - s.dec) s.dec q.sub else s.Y }
  else if xz = 1 then
    { s with
      fp := { s.fp with R := fsubcol o s.fp.R κ i i }
      M := xcol s.M κ i s.d q.sub
      W := if s.trW then addcol s.W i κ s.n else s.W
      U := if s.trU then subcol s.U κ i s.n else s.U
      Y := if yes then xrow s.Y (i - s.dec) (κ - s.dec) s.dec q.add else s.Y }
  else
    { s with
      fp := { s.fp with R := fsubmulcol o s.fp.R κ i x i }
      M := xcol s.M κ i s.d (fun a b => q.submul a xr b)
      W := if s.trW then addmulcol s.W i κ xz s.n else s.W
      U := if s.trU then submulcol s.U κ i xz s.n else s.U
      Y := if yes then xrow s.Y (i - s.dec) (κ - s.dec) s.dec (fun a b => q.addmul a b xr)
           else s.Y }

/-- One iteration `i` (decompz.cc:325-386); `.2` is `somedone`. -/
def Fg.sizeStep (κ i : Nat) (t : Fg X F × Bool) : Fg X F × Bool :=
  let x := o.rnd (o.div (t.1.fp.R κ i) (t.1.fp.R i i))
  if o.isZero x then t else (t.1.combine o q κ i x, true)

/-- `for (i = m-1; i > -1; i--)`. -/
def Fg.sizePass (κ : Nat) : Nat → Fg X F × Bool → Fg X F × Bool
  | 0, t => t
  | m + 1, t => Fg.sizePass κ m (Fg.sizeStep o q κ m t)

/-- `while (nonstop)` (decompz.cc:315-403); `elim_index + 1 = min(kappa, d - ldim)`. -/
def Fg.sizeLoop (κ : Nat) : Nat → Fg X F → Option (Fg X F)
  | 0, _ => none
  | fuel + 1, s =>
    let t := Fg.sizePass o q κ (min κ (s.d - s.ldim)) (s, false)
    if t.2 then
      let thr := o.mul o.hundredth (t.1.fp.normB2 κ)
      let s := t.1.hh o q κ
      if o.lt (s.fp.normB2 κ) thr then Fg.sizeLoop κ fuel s else some s
    else some t.1

/-- `hsizereduce(kappa)`; it always returns 0. -/
def Fg.hsizereduce (fuel κ : Nat) (s : Fg X F) : Option (Fg X F) :=
  Fg.sizeLoop o q κ fuel (s.hh o q κ)

/-- `for (j = a; j < a + len; j++) hsizereduce(j)`. -/
def Fg.hsizeRange (fuel : Nat) : Nat → Nat → Fg X F → Option (Fg X F)
  | _, 0, s => some s
  | a, len + 1, s =>
    match s.hsizereduce o q fuel a with
    | none => none
    | some s => Fg.hsizeRange fuel (a + 1) len s

/-! ## decomp -/

/-- The column exchanges of `decomp` (decompz.cc:141-148, 219-224, 263-268; decomp.cc:210-219,
353-363, 395-403), with the rows of the residue. -/
def Fg.swap (a b : Nat) (s : Fg X F) : Fg X F :=
  { s with
    M := colswap s.M a b
    W := if s.trW then colswap s.W a b else s.W
    U := if s.trU then colswap s.U a b else s.U
    Y := if s.trY then xrowswap s.Y (a - s.dec) (b - s.dec) s.dec else s.Y
    ub := s.ub || !(decide (a < s.n ∧ b < s.n) &&
      (!s.trY || decide (s.dec ≤ a ∧ s.dec ≤ b ∧ a - s.dec < s.d ∧ b - s.dec < s.d))) }

/-- The powers `g[i]` of `gamma` (decompz.cc:75-77). -/
def gpow (gamma : F) : Nat → F
  | 0 => gamma
  | i + 1 => o.mul (gpow gamma i) gamma

/-- Minimum of `|R(i,i)|` for `i = dec` and `dec < i < hi` (decompz.cc:99-104 with `hi = d`,
170-175 with `hi = d - ldim - 1`). -/
def diagMin (R : Mat F) (dec hi : Nat) : F :=
  (List.range' (dec + 1) (hi - (dec + 1))).foldl
    (fun m i => if o.lt (o.abs (R i i)) m then o.abs (R i i) else m) (o.abs (R dec dec))

/-- Swap position in the left part (decompz.cc:181-194): `(maxh, tmp1)`; note `g[0]` for `dec`. -/
def leftPos (g : Nat → F) (R : Mat F) (dec hi : Nat) : Nat × F :=
  (List.range' (dec + 1) (hi - (dec + 1))).foldl
    (fun t j => if o.lt t.2 (o.abs (o.mul (g j) (R j j))) then (j, o.abs (o.mul (g j) (R j j)))
      else t) (dec, o.abs (o.mul (g 0) (R dec dec)))

/-- Swap position in the right part (decompz.cc:248-259), in row `r = d - ldim - 1`, columns
`a = d - ldim, ..., b - 1`. -/
def rightPos (R : Mat F) (r a b : Nat) : Nat × F :=
  (List.range' (a + 1) (b - (a + 1))).foldl
    (fun t j => if o.lt t.2 (o.abs (R j r)) then (j, o.abs (R j r)) else t) (a, o.abs (R a r))

/-- Local variables of `decomp` that survive an iteration (`maxYold` only in `Fgas`, `prevkappa`,
`prevR` only in `ZFgas`). -/
structure DSt (X F : Type) where
  s : Fg X F
  maxh : Nat
  diagold : F
  maxYold : X
  prevkappa : Int
  prevR : Nat → F

/-- End of an iteration: return, or go on. -/
inductive DStep (X F : Type) where
  | ret (code : Int) (s : Fg X F)
  | next (t : DSt X F)

/-- New dimension test passed (decompz.cc:136-155, decomp.cc:205-226). -/
def gapDo (maxh : Nat) (s : Fg X F) : Fg X F :=
  let s := if maxh < s.n - s.ldim - 1 then s.swap maxh (s.n - s.ldim - 1) else s
  { s with ldim := s.ldim + 1 }

/-- The exchange and the reductions at the end of an iteration (decompz.cc:217-275,
decomp.cc:350-409) once `maxh` has been found in the left part; gives the new `maxh`. -/
def exchange (fuel maxh : Nat) (s : Fg X F) : Option (Fg X F × Nat) :=
  let m := s.d - s.ldim
  if maxh < m - 1 then
    match (s.swap maxh (maxh + 1)).hsizeRange o q fuel maxh (m - maxh) with
    | none => none
    | some s => some (s, maxh)
  else
    match s.hsizeRange o q fuel m (s.n - s.ldim - m) with
    | none => none
    | some s =>
      let maxh := (rightPos o s.fp.R (m - 1) m (s.n - s.ldim)).1
      let s := { s with ub := s.ub || !decide (m < s.n) }
      match (s.swap (m - 1) maxh).hsizereduce o q fuel (m - 1) with
      | none => none
      | some s => some (s, maxh)

end

section Z
variable {F : Type} (o : FPOps F)

/-- One iteration of `while (true)` of `ZFgas::decomp` (decompz.cc:113-277).  `gap` is
`confidence_gap`, compared by `cmp`. -/
def zStep (fuel : Nat) (gamma gap : F) (targetdim : Int) (t : DSt Int F) : Option (DStep Int F) :=
  let s := { t.s with nblov := t.s.nblov + 1 }
  let s := { s with ub := s.ub || !decide (s.ldim < s.d ∧ s.d - s.ldim - 1 < s.n) }
  let r := s.d - s.ldim - 1
  let tmp1 := o.abs (o.div (s.fp.R r r) t.diagold)
  let s := if o.lt tmp1 gap then gapDo t.maxh s else s
  if targetdim ≤ (s.ldim : Int) then some (.ret 0 s)
  else
    let s := { s with ub := s.ub || !decide (s.dec < s.d ∧ s.dec < s.n ∧ s.ldim < s.d) }
    let m := s.d - s.ldim
    let diagold := diagMin o s.fp.R s.dec (m - 1)
    let maxh := (leftPos o (gpow o gamma) s.fp.R s.dec m).1
    if maxh < m ∧ t.prevkappa = (maxh : Int) ∧
        o.lt (t.prevR maxh) (o.abs (s.fp.R maxh maxh)) = true then some (.ret (-1) s)
    else
      let prevkappa := if maxh < m then (maxh : Int) else t.prevkappa
      let prevR := if maxh < m then setAt t.prevR maxh (o.abs (s.fp.R maxh maxh)) else t.prevR
      match exchange o (zX o) fuel maxh s with
      | none => none
      | some (s, maxh) => some (.next ⟨s, maxh, diagold, 0, prevkappa, prevR⟩)

/-- `while (true)`. -/
def zLoop (fuel : Nat) (gamma gap : F) (targetdim : Int) : Nat → DSt Int F → Option (Int × Fg Int F)
  | 0, _ => none
  | k + 1, t =>
    match zStep o fuel gamma gap targetdim t with
    | none => none
    | some (.ret c s) => some (c, s)
    | some (.next t) => zLoop fuel gamma gap targetdim k t

/-- `ZFgas::decomp(gamma, targetdim)` (decompz.cc:67-281): `(value returned, object)`.  `prevR` is not
initialised before it is written: `junk`. -/
def zDecomp (junk : F) (fuel : Nat) (gamma gap : F) (targetdim : Int) (s : Fg Int F) :
    Option (Int × Fg Int F) :=
  let s := { s with ub := s.ub || !decide (0 < s.d ∧ s.dec < s.d ∧ s.d ≤ s.n) }
  match s.hsizeRange o (zX o) fuel 0 s.n with
  | none => none
  | some s =>
    zLoop o fuel gamma gap targetdim fuel
      ⟨s, s.dec, diagMin o s.fp.R s.dec s.d, 0, -1, fun _ => junk⟩

/-- Constructor `ZFgas(Finput, forUV, dec)` (decompz.cc:683-750); `transf` is `forUV == TRANSFORM`.
The floating point storage is uninitialised (`fp`). -/
def newZFgas (fp : FPart F) (d n : Nat) (A : Mat Int) (transf : Bool) (dec : Nat) : Fg Int F where
  d := d
  n := n
  dec := dec
  ldim := 0
  nblov := 0
  transf := transf
  trU := transf
  trW := !transf
  trY := false
  M := A
  Y := fun _ _ => 0
  U := idMat
  W := idMat
  fp := fp
  ub := false

end Z

/-- `getU()` of `ZFgas` (decompz.cc:624-643): the empty matrix without `TRANSFORM`. -/
def Fg.zgetU {F : Type} (s : Fg Int F) : ZMat :=
  if s.transf then ⟨s.n, s.n, s.U⟩ else ⟨0, 0, fun _ _ => 0⟩

/-- `getV()` of `ZFgas` (decompz.cc:645-665): the empty matrix with `TRANSFORM`. -/
def Fg.zgetV {F : Type} (s : Fg Int F) : ZMat :=
  if s.transf then ⟨0, 0, fun _ _ => 0⟩ else ⟨s.n, s.n, s.W⟩

/-- `getbase()` of `ZFgas` (decompz.cc:668-677). -/
def Fg.zgetbase {F : Type} (s : Fg Int F) : ZMat := ⟨s.d, s.n, s.M⟩

/-! ## Fgas::decomp (decomp.cc:69-412) -/

section R
variable {X F : Type} (o : FPOps F) (q : XOps X F)

/-- Parameters of `Fgas::decomp`: `gamma`, `confidence_gap` (compared with numbers of both types),
`epsilon`, the targets, fplll's `size_in_bits`, `getprec_fgas() - shiftU` as an `unsigned int`, and
the constant `1.0` of type `FT`. -/
structure FgPar (X F : Type) where
  gamma : F
  gap : F
  gapX : X
  epsilon : X
  targetdim : Int
  targetsize : Int
  bits : Int → Nat
  precU : Nat

/-- Maximum of `|Y(i,j)|`, `lo ≤ i < hi`, `j < dec`, starting from `a` (decomp.cc:109-116, 137-142,
168-172, 286-292). -/
def maxYs (Y : Mat X) (lo hi dec : Nat) (a : X) : X :=
  (List.range' lo (hi - lo)).foldl (fun m i =>
    (List.range dec).foldl (fun m j => if q.lt m (q.abs (Y j i)) then q.abs (Y j i) else m) m) a

/-- Maximum of `|R(j,j)|` (decomp.cc:256-260). -/
def diagMax (R : Mat F) (dec hi : Nat) : F :=
  (List.range' (dec + 1) (hi - (dec + 1))).foldl
    (fun m i => if o.lt m (o.abs (R i i)) then o.abs (R i i) else m) (o.abs (R dec dec))

/-- `l`, the size of the first two rows of `U` (decomp.cc:311-314). -/
def maxBitsU (bits : Int → Nat) (U : Mat Int) (n : Nat) : Nat :=
  (List.range 2).foldl (fun l i => (List.range n).foldl (fun l j => max l (bits (U j i))) l) 0

/-- The three stopping tests in the middle of an iteration (decomp.cc:252-326): true = return -1. -/
def fStops (p : FgPar X F) (s : Fg X F) : Bool :=
  let bound := p.bits (o.toZ (o.div o.one (diagMax o s.fp.R s.dec (s.d - s.ldim))))
  decide (p.targetsize < (bound : Int)) ||
  (s.trY && q.lt (maxYs q s.Y 0 s.d s.dec q.zero) p.epsilon) ||
  (s.trU && decide (p.precU < maxBitsU p.bits s.U s.n))

/-- One iteration of `Fgas::decomp` (decomp.cc:161-410). -/
def fStep (fuel : Nat) (p : FgPar X F) (t : DSt X F) : Option (DStep X F) :=
  let s := { t.s with nblov := t.s.nblov + 1 }
  let s := { s with ub := s.ub || !decide (s.ldim < s.d ∧ s.d - s.ldim - 1 < s.n) }
  let r := s.d - s.ldim - 1
  let maxY := maxYs q s.Y r (r + 1) s.dec (q.abs (s.Y 0 r))
  let found :=
    if s.trY then q.lt (q.div maxY t.maxYold) p.gapX || o.lt o.one p.gap
    else q.lt q.one p.gapX || o.lt (o.abs (o.div (s.fp.R r r) t.diagold)) p.gap
  let s := if found then gapDo t.maxh s else s
  if p.targetdim ≤ (s.ldim : Int) then some (.ret 0 s)
  else
    let s := { s with ub := s.ub || !(decide (s.dec < s.d ∧ s.dec < s.n ∧ s.ldim < s.d) &&
      (!s.trU || decide (2 ≤ s.n))) }
    let m := s.d - s.ldim
    let diagold := if s.trY then t.diagold else diagMin o s.fp.R s.dec (m - 1)
    let maxYold := if s.trY then maxY else t.maxYold
    if fStops o q p s then some (.ret (-1) s)
    else
      let maxh := (leftPos o (gpow o p.gamma) s.fp.R s.dec m).1
      match exchange o q fuel maxh s with
      | none => none
      | some (s, maxh) => some (.next ⟨s, maxh, diagold, maxYold, t.prevkappa, t.prevR⟩)

def fLoop (fuel : Nat) (p : FgPar X F) : Nat → DSt X F → Option (Int × Fg X F)
  | 0, _ => none
  | k + 1, t =>
    match fStep o q fuel p t with
    | none => none
    | some (.ret c s) => some (c, s)
    | some (.next t) => fLoop fuel p k t

/-- `Fgas::decomp(gamma, targetdim, targetsize)` (decomp.cc:69-412). -/
def fDecomp (fuel : Nat) (p : FgPar X F) (s : Fg X F) : Option (Int × Fg X F) :=
  let s := { s with ub := s.ub || !decide (0 < s.d ∧ s.dec < s.d ∧ s.d ≤ s.n) }
  match s.hsizeRange o q fuel 0 s.n with
  | none => none
  | some s =>
    let maxYold := maxYs q s.Y 0 (s.d - s.ldim) s.dec (q.abs (s.Y 0 0))
    let diagold := if s.trY then o.zero else diagMin o s.fp.R s.dec s.d
    if s.trY && q.lt (maxYs q s.Y 0 s.d s.dec q.zero) p.epsilon then some (-1, s)
    else fLoop o q fuel p fuel ⟨s, s.dec, diagold, maxYold, -1, fun _ => o.zero⟩

/-- Constructors `Fgas(Finput, transform, setprec, dec)` (`Y0` = first `dec` columns of `Finput`) and
`Fgas(Finput, res, ...)` (`Y0 = res`) (decomp.cc:882-1012). -/
def newFgas (fp : FPart F) (d n : Nat) (A Y0 : Mat X) (transf : Bool) (dec : Nat) : Fg X F where
  d := d
  n := n
  dec := dec
  ldim := 0
  nblov := 0
  transf := transf
  trU := transf || decide (dec = 0)
  trW := true
  trY := decide (0 < dec)
  M := A
  Y := Y0
  U := idMat
  W := idMat
  fp := fp
  ub := false

/-- `Fgas::set(Finput)`, `Fgas::set(Finput, res)` (decomp.cc:1016-1066).  `resize` to the same size
keeps the entries (mat.h:121-136), so that only the diagonals of `U` and `W` are written; `ldim` and
`nblov` are not touched. -/
def Fg.set (A Y0 : Mat X) (s : Fg X F) : Fg X F :=
  { s with
    M := A
    Y := if s.trY then Y0 else s.Y
    U := if s.trU then fun j i => if i = j ∧ i < s.n then 1 else s.U j i else s.U
    W := fun j i => if i = j ∧ i < s.n then 1 else s.W j i }

/-- `getU()` of `Fgas` (decomp.cc:782-802): a new n × n matrix (zero) unless `transf`. -/
def Fg.fgetU (s : Fg X F) : ZMat :=
  if s.transf then ⟨s.n, s.n, s.U⟩ else ⟨s.n, s.n, fun _ _ => 0⟩

/-- `getV()` of `Fgas` (decomp.cc:805-813). -/
def Fg.fgetV (s : Fg X F) : ZMat := ⟨s.n, s.n, s.W⟩

end R

end HPLLL
