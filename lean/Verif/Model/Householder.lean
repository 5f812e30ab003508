import Verif.Model.Lattice
/-!
# Model of `householder`, `getR`, `setprec`, `isreduced` (src/hlll.cc)
-/

namespace HPLLL

variable {F : Type} (o : FPOps F)

/-- Inner loop of `householder()` (hlll.cc:2779-2782): reflection `k` applied to column `kappa`. -/
def hhAllApply (n κ k : Nat) (p : FPart F) : FPart F :=
  let nrtmp := scalarprod o (getcol p.V k k) (getcol p.R κ k) (n - k)
  { p with R := fmasub o p.R κ k (getcol p.R κ k) (getcol p.V k k) nrtmp (n - k) }

/-- One iteration `kappa` of `householder()` (hlll.cc:2775-2806); lines 2785-2804 are the text of
`householder_v` with `n` in place of `nmaxkappa` (the member `nmaxkappa` itself is not touched). -/
def hhAllCol (n d : Nat) (B : Mat Int) (κ : Nat) (p : FPart F) : FPart F :=
  let p := { p with R := fsetcolZ o p.R κ (B κ) n }
  let p := (List.range κ).foldl (fun p k => hhAllApply o n κ k p) p
  let p := { householderV o n κ { p with nmaxkappa := n } with nmaxkappa := p.nmaxkappa }
  { p with R := setCol p.R κ fun i => if κ + 1 ≤ i ∧ i < d then o.zero else p.R κ i }

/-- `householder()` (hlll.cc:2761-2810).  Columns `kappa >= n` would index outside of `R`. -/
def Lat.householder (s : Lat F) : Lat F :=
  { s with fp := (List.range s.d).foldl (fun p κ => hhAllCol o s.n s.d s.B κ p) s.fp
           ub := s.ub || !decide (s.d ≤ s.n) }

/-- `getR()` (hlll.cc:1969-1986): d × d; rows `>= n` above the diagonal are never written (`junk`). -/
def Lat.getR (junk : F) (s : Lat F) : Mat F := fun j i =>
  if i ≤ j then (if i < min s.n s.d then s.fp.R j i else junk) else o.zero

/-- `setprec(prec)` (hlll.cc:1882-1925): all floating point storage is reallocated, `Bfp` is zeroed,
the rest is unspecified (`junk`).  The precision itself is part of `o`. -/
def Lat.setprec (junk : F) (s : Lat F) : Lat F :=
  { s with fp := { s.fp with
      R := fun _ _ => junk, Rkept := fun _ _ => junk, V := fun _ _ => junk, VR := fun _ _ => junk
      Bfp := fun _ _ => o.zero, normB2 := fun _ => junk } }

/-- Beginning of `isreduced` (hlll.cc:2287-2304, 2398): change of precision, `householder()`, test
counter reset.  `R(0,1)` is read whatever `d` is (hlll.cc:2304). -/
def Lat.isreducedPrep (junk : F) (s : Lat F) : Lat F :=
  let s := (s.setprec o junk).householder o
  { s with nblov := 0, ub := s.ub || !decide (2 ≤ s.d) }

/-- `isreduced(delta)` (hlll.cc:2274-2430) with `o` the arithmetic after the change of precision:
the value returned and the object afterwards.  The value returned by `hlll` is ignored.  The printed
quantities are not modelled.  The final `setprec(oldprec)` reallocates again. -/
def Lat.isreduced (junk : F) (fuel : Nat) (deltab : F) (s : Lat F) : Option (Int × Lat F) :=
  match hlll o fuel deltab true (s.isreducedPrep o junk) with
  | none => none
  | some (_, s) =>
    some (if s.nblov = s.d - 1 then 0 else -1, s.setprec o junk)

end HPLLL
