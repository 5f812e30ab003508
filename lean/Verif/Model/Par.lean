import Verif.Model.Lattice
/-!
# Thread interleavings

`#pragma omp parallel for` (hlll.cc:1522-1524, mat.h) runs the iterations as threads in an arbitrary
order, their memory operations arbitrarily interleaved.  A thread is the list of its atomic actions;
the model's atomic action is the update of one matrix entry (each entry is only ever accessed through
one arithmetic operation on `Z_NR<ZT>`).  Weak memory effects are not modelled.
-/

namespace HPLLL

/-- `T` is a possible order of execution of the actions of the threads `Ps` (each in its own order). -/
inductive Interleave {α : Type} : List (List α) → List α → Prop
  | done (Ps : List (List α)) : (∀ P ∈ Ps, P = []) → Interleave Ps []
  | step (L R : List (List α)) (a : α) (P T : List α) :
      Interleave (L ++ P :: R) T → Interleave (L ++ (a :: P) :: R) (a :: T)

/-- Execution of a list of actions. -/
def execAll {α σ : Type} (f : α → σ → σ) (T : List α) (s : σ) : σ := T.foldl (fun s a => f a s) s

variable {F : Type} (o : FPOps F)

/-- Value given to `B(r,kappa)`, `a` its value and `b` that of `B(r,i)`, for the multiplier `xf`:
the entry operation of `psubcol`, `paddcol`, `paddmulcol_si`, `psubmulcol`, `paddmulcol_si_2exp`
as selected in hlll.cc:1562-1627. -/
def predEntry (fastLong : Bool) (xf : F) (a b : Int) : Int :=
  if o.isZero xf then a
  else
    let (lx, expo) := o.getSiExp xf
    if expo = 0 then
      if lx = 1 then a - b
      else if lx = -1 then a + b
      else if fastLong then a + b * (-lx)
      else a - o.toZ xf * b
    else if fastLong then a + b * (-lx) * 2 ^ expo
    else a - o.toZ xf * b

/-- The action on row `a.2` with multiplier number `a.1`. -/
def psizeAct (fastLong : Bool) (κ : Nat) (vx : Nat → F) (a : Nat × Nat) (M : Mat Int) : Mat Int :=
  setEntry M a.2 κ (predEntry o fastLong (vx a.1) (M κ a.2) (M a.1 a.2))

/-- Actions of a thread: multipliers `m-1 .. 0`, rows `ibeg .. ibeg+nloc-1` (hlll.cc:1554-1631). -/
def psizeProg (ibeg nloc : Nat) : Nat → List (Nat × Nat)
  | 0 => []
  | m + 1 => (List.range' ibeg nloc).map (fun r => (m, r)) ++ psizeProg ibeg nloc m

/-- The `S` threads of `psize_update_B` (hlll.cc:1529-1549). -/
def psizeThreads (nmax S m : Nat) : List (List (Nat × Nat)) :=
  (List.range S).map fun l => psizeProg (sliceBeg nmax S l) (sliceLen nmax S l) m

end HPLLL
