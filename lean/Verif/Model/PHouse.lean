import Verif.Model.Par
import Verif.Model.Householder
/-!
# Model of the parallel Householder factorisation (src/slll.cc:1717-1817)

`M j i` is C++ `M(i,j)`.  Every iteration of the `#pragma omp parallel for` loop is a thread, whose atomic actions
are the accesses to one entry of `R`; `V`, `B`, `l`, `S` are only read in the parallel loop, `kk`, `pkappa` and
`pnrtmp` are private.
-/

namespace HPLLL

variable {F : Type} (o : FPOps F)

/-- The matrices `R` and `V`, and the private variable `pnrtmp` of each thread. -/
structure PhSt (F : Type) where
  R : Mat F
  V : Mat F
  loc : Nat → F

/-- `R.setcol(kappa, B.getcol(kappa), 0, n)` (slll.cc:1741-1742). -/
def phLoad (n : Nat) (B : Mat Int) (κ : Nat) (s : PhSt F) : PhSt F :=
  { s with R := fsetcolZ o s.R κ (B κ) n }

/-- Reflection `k` applied to column `kappa` (slll.cc:1745-1746). -/
def phApply (n κ k : Nat) (s : PhSt F) : PhSt F :=
  let nrtmp := scalarprod o (getcol s.V k k) (getcol s.R κ k) (n - k)
  { s with R := fmasub o s.R κ k (getcol s.R κ k) (getcol s.V k k) nrtmp (n - k) }

/-- Column `kappa` of `V`, diagonal entry of `R`, zeros below it (slll.cc:1749-1777).  When `s` is not positive only
`V(kappa,kappa)` is written. -/
def phFin (n d κ : Nat) (p : PhSt F) : PhSt F :=
  let w := p.R κ κ
  let nrm := fpNorm o (getcol p.R κ κ) (n - κ)
  let ge := o.le o.zero w
  let s := if ge then nrm else o.neg nrm
  let R := setEntry p.R κ κ (if ge then o.neg nrm else nrm)
  let w := o.add w s
  let s := o.sqrt (o.mul s w)
  let V := if o.lt o.zero s then
      setEntry (fdivcol o p.V κ (κ + 1) (getcol R κ (κ + 1)) s (n - κ - 1)) κ κ (o.div w s)
    else setEntry p.V κ κ o.one
  { p with R := setCol R κ fun i => if κ + 1 ≤ i ∧ i < d then o.zero else R κ i, V := V }

/-- One column of the diagonal block `l` (slll.cc:1739-1779). -/
def phDiagCol (n d : Nat) (B : Mat Int) (Sdim l κ : Nat) (s : PhSt F) : PhSt F :=
  let s := if l = 0 then phLoad o n B κ s else s
  let s := (List.range' (l * Sdim) (κ - l * Sdim)).foldl (fun s k => phApply o n κ k s) s
  phFin o n d κ s

/-- Atomic actions of a thread in the parallel loop. -/
inductive PhAct
  /-- `R(r,c) = B(r,c)` -/
  | load (c r : Nat)
  /-- `pnrtmp = V(k,k) * R(k,c)` -/
  | dot0 (k c : Nat)
  /-- `pnrtmp += V(k+i,k) * R(k+i,c)` -/
  | dot (k c i : Nat)
  /-- `R(k+i,c) -= V(k+i,k) * pnrtmp` -/
  | sub (k c i : Nat)

/-- Effect of action `a.2` of thread `a.1`. -/
def phAct (B : Mat Int) (a : Nat × PhAct) (s : PhSt F) : PhSt F :=
  match a.2 with
  | .load c r => { s with R := setEntry s.R r c (o.ofZ (B c r)) }
  | .dot0 k c => { s with loc := setAt s.loc a.1 (o.mul (s.V k (k + 0)) (s.R c (k + 0))) }
  | .dot k c i => { s with loc := setAt s.loc a.1 (o.addmul (s.loc a.1) (s.V k (k + i)) (s.R c (k + i))) }
  | .sub k c i => { s with R := setEntry s.R (k + i) c (o.submul (s.R c (k + i)) (s.V k (k + i)) (s.loc a.1)) }

/-- `scalarprod` and `fmasub` for reflection `k` and column `c`, of lengths `n - k` (slll.cc:1803-1804). -/
def phReflProg (n k c : Nat) : List PhAct :=
  .dot0 k c :: ((List.range (n - k - 1)).map fun i => .dot k c (i + 1)) ++
    (List.range (n - k)).map fun i => .sub k c i

/-- Column `c` of a block, at step `l` (slll.cc:1797-1805). -/
def phColProg (n Sdim l c : Nat) : List PhAct :=
  (if l = 0 then (List.range n).map fun r => .load c r else []) ++
    (List.range' (l * Sdim) Sdim).flatMap fun k => phReflProg n k c

/-- Body of the parallel loop, block `lb` (slll.cc:1791-1807). -/
def phProg (n Sdim l lb : Nat) : List (Nat × PhAct) :=
  ((List.range' (lb * Sdim) Sdim).flatMap fun c => phColProg n Sdim l c).map fun a => (lb, a)

/-- The threads `lb = l+1 .. S-1` (slll.cc:1787-1790). -/
def phThreads (n Sdim S l : Nat) : List (List (Nat × PhAct)) :=
  (List.range' (l + 1) (S - (l + 1))).map fun lb => phProg n Sdim l lb

/-- Step `l`: diagonal block, then the parallel loop executed in the order `T l` (slll.cc:1734-1810). -/
def phStep (n d : Nat) (B : Mat Int) (Sdim : Nat) (T : Nat → List (Nat × PhAct)) (l : Nat)
    (s : PhSt F) : PhSt F :=
  execAll (phAct o B) (T l)
    ((List.range' (l * Sdim) Sdim).foldl (fun s κ => phDiagCol o n d B Sdim l κ s) s)

/-- `phouseholder(S)` (slll.cc:1722-1814) for an `n × d` basis; `none` is the division by 0 of `d / S`. -/
def phouseholder (n d : Nat) (B : Mat Int) (S : Nat) (T : Nat → List (Nat × PhAct)) (s : PhSt F) :
    Option (PhSt F) :=
  if S = 0 then none
  else some ((List.range S).foldl (fun s l => phStep o n d B (d / S) T l s) s)

end HPLLL
