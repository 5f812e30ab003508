import Verif.Model.Par
import Verif.Model.Hlllp
import Verif.Model.History
/-!
# Threads of `pseysen_update_B`; histories with the public column reductions

The column reductions `hsizereduce`, `seysenreduce`, `seysenreduce0`, `newseysenreduce` and the method
`hlllp` are public (hlll.h:87-170): a user may call them on an object at any time.
-/

namespace HPLLL

variable {F : Type} (o : FPOps F)

/-- Value given to `B(r,kappa)`, `a` its value and `b` that of `B(r,i)`: the entry operation selected in
hlll.cc:1029-1088 for the multiplier `xf`; without long flag the converted multiplier is the member `x`
(`xm`). -/
def predZxEntry (fastLong : Bool) (xf xm : F) (a b : Int) : Int :=
  let (lx, expo) := o.getSiExp xf
  if expo = 0 then
    if lx = 1 then a - b
    else if lx = -1 then a + b
    else if fastLong then a + b * (-lx)
    else a - o.toZ xm * b
  else if fastLong then a + b * (-lx) * 2 ^ expo
  else a - o.toZ xm * b

/-- The action on row `a.2` with column `a.1`. -/
def pseysenAct (fastLong : Bool) (κ : Nat) (vx : Nat → F) (xm : F) (a : Nat × Nat) (M : Mat Int) :
    Mat Int :=
  setEntry M a.2 κ (predZxEntry o fastLong (vx a.1) xm (M κ a.2) (M a.1 a.2))

/-- Actions of a thread: columns `restdim+m-1 .. restdim` except the bounded ones, rows
`ibeg .. ibeg+nloc-1` (hlll.cc:1024-1092). -/
def pseysenProg (restdim : Nat) (bounded : Nat → Bool) (ibeg nloc : Nat) : Nat → List (Nat × Nat)
  | 0 => []
  | m + 1 => (if bounded (restdim + m) then []
      else (List.range' ibeg nloc).map (fun r => (restdim + m, r))) ++
        pseysenProg restdim bounded ibeg nloc m

/-- The `S` threads of `pseysen_update_B` (hlll.cc:996-1022). -/
def pseysenThreads (nmax S restdim : Nat) (bounded : Nat → Bool) (m : Nat) : List (List (Nat × Nat)) :=
  (List.range S).map fun l =>
    pseysenProg restdim bounded (sliceBeg nmax S l) (sliceLen nmax S l) m

/-! ## Histories -/

/-- A public call on a `Lattice` object: those of `Call`, the column reductions (columns
`kappa ≥ 1`), `householder_r` and `hlllp`.  `thr` stands for the literal constants `0.501` and
`0.50001`. -/
inductive XCall (F : Type) where
  | base (c : Call F)
  | householderR (o : FPOps F) (κ : Nat)
  | hsizereduce (o : FPOps F) (κ fromk : Nat)
  | seysenreduce (o : FPOps F) (κ : Nat)
  | seysenreduce0 (o : FPOps F) (thr : F) (κ : Nat)
  | newseysenreduce (o : FPOps F) (thr : F) (κ : Nat)
  | hlllp (o : FPOps F) (thr : F) (dth : Int) (delta : F)

/-- One call, when it returns. -/
inductive XDoes : Lat F → XCall F → Lat F → Prop
  | base (c : Call F) (s s' : Lat F) (h : Does s c s') : XDoes s (.base c) s'
  | householderR (o : FPOps F) (κ : Nat) (s : Lat F) (hκ : κ < s.d) :
      XDoes s (.householderR o κ) (s.hhR o κ)
  | hsizereduce (o : FPOps F) (κ fromk : Nat) (s s' : Lat F) (hκ : 0 < κ ∧ κ < s.d) (fuel : Nat)
      (st : Int) (h : HPLLL.hsizereduce o fuel κ fromk s = some (st, s')) :
      XDoes s (.hsizereduce o κ fromk) s'
  | seysenreduce (o : FPOps F) (κ : Nat) (s s' : Lat F) (hκ : 0 < κ ∧ κ < s.d) (fuel : Nat)
      (st : Int) (h : HPLLL.seysenreduce o fuel κ s = some (st, s')) : XDoes s (.seysenreduce o κ) s'
  | seysenreduce0 (o : FPOps F) (thr : F) (κ : Nat) (s s' : Lat F) (hκ : 0 < κ ∧ κ < s.d) (fuel : Nat)
      (st : Int) (h : HPLLL.seysenreduce0 o thr fuel κ s = some (st, s')) :
      XDoes s (.seysenreduce0 o thr κ) s'
  | newseysenreduce (o : FPOps F) (thr : F) (κ : Nat) (s s' : Lat F) (hκ : 0 < κ ∧ κ < s.d) (fuel : Nat)
      (st : Int) (h : HPLLL.newseysenreduce o thr fuel κ s = some (st, s')) :
      XDoes s (.newseysenreduce o thr κ) s'
  | hlllp (o : FPOps F) (thr : F) (dth : Int) (δ : F) (s s' : Lat F) (fuel : Nat) (st : Int)
      (h : HPLLL.hlllp o thr dth fuel δ s = some (st, s')) : XDoes s (.hlllp o thr dth δ) s'

/-- A history of returned calls, the oldest first. -/
inductive XRuns : Lat F → List (XCall F) → Lat F → Prop
  | nil (s : Lat F) : XRuns s [] s
  | snoc (s t u : Lat F) (cs : List (XCall F)) (c : XCall F) :
      XRuns s cs t → XDoes t c u → XRuns s (cs ++ [c]) u

end HPLLL
