import Verif.Model.Nullspace
/-!
# Model of the floating point relation finders `relations_hjls`, `restarting_hjls` (src/hjls.cc)

`M j i` is C++ `M(i,j)`.  `X` is the type of `FP_NR<RT>`, `F` the type of `FP_NR<FT>`; all operations are
uninterpreted.  Timers, printed messages and the counter `nblov` (only printed) are not modelled; the
default precision is a property of the operations.  The transformations of type `long` of the low
precision object are integers without overflow.
-/

namespace HPLLL

section
variable {X F : Type}

/-- Matrix `B` (hjls.cc:73-84, 205-214), `n × (n+d)`: `[Aᵀ | I]`, where only the diagonal of the second
block is written; the other entries are those of a new `matrix<FP_NR<RT>>` (`junkX`). -/
def hjlsFp (one junkX : X) (d : Nat) (A : Mat X) : Mat X :=
  fun j i => if j < d then A i j else if j = d + i then one else junkX

/-- `matprod(ZM, A, Cfp)` on floating point matrices (mat.h:1687-1709), `A` with `n` columns, with
`set_z(Cfp(i,j), C(i,j))`. -/
def fpProd (oX : FPOps X) (n : Nat) (A : Mat X) (C : Mat Int) : Mat X :=
  fun j i => scalarprod oX (fun k => A k i) (fun k => oX.ofZ (C j k)) n

/-- `zeroedcol` (hjls.cc:145-153, 533-541): no entry of the column is larger than `epsilon`; `cmp`
with a NaN is 0. -/
def fpZeroCol (oX : FPOps X) (d : Nat) (eps : X) (ZM : Mat X) (j : Nat) : Bool :=
  (List.range d).all fun i => !oX.lt eps (oX.abs (ZM j i))

/-- `nullity` (hjls.cc:139-157, 527-545). -/
def fpNullity (oX : FPOps X) (d n nbrel : Nat) (eps : X) (A : Mat X) (C : Mat Int) : Nat :=
  ((List.range nbrel).filter (fpZeroCol oX d eps (fpProd oX n A C))).length

/-- `relations_hjls(C, A, nbrel, setprec)` (hjls.cc:62-167), `A` of size `d × n`.  `p.targetdim` is
`nbrel`, `p.epsilon` is `F.epsilon`. -/
def relationsHjls (o : FPOps F) (q : XOps X F) (oX : FPOps X) (fp : FPart F) (junkX : X) (fuel : Nat)
    (p : FgPar X F) (d n nbrel : Nat) (A : Mat X) (C : ZMat) : Option NullRes :=
  let B := hjlsFp q.one junkX d A
  match fDecomp o q fuel { p with targetdim := nbrel } (newFgas fp n (n + d) B B false d) with
  | none => none
  | some (flag, s) =>
    if flag = -1 then some ⟨-1, C, s.ub⟩
    else
      let C : ZMat := ⟨n, nbrel, fun j i => s.fgetV.M (n + d - nbrel + j) (d + i)⟩
      if fpNullity oX d n nbrel p.epsilon A C.M ≠ nbrel then some ⟨-1, C, s.ub⟩
      else some ⟨nbrel, C, s.ub⟩

/-! ## restarting_hjls -/

/-- What `restarting_hjls` uses besides its arguments: the arithmetic of `RT` (`oX`, and `qX` for matrix
entries), of `FT` (`o`, `q`), the conversion `setcol` from `RT` to `FT`, the parameters of the low precision
decomposition (`shift_epsilon(16)`, `shift_testU(4)`), the threshold `G.epsilon`, uninitialised contents. -/
structure RestEnv (X F : Type) where
  oX : FPOps X
  qX : XOps X X
  o : FPOps F
  q : XOps F F
  conv : X → F
  p : FgPar F F
  eps : X
  fpG : FPart X
  fpF : FPart F
  junkX : X
  /-- steps allowed to one `decomp` or size reduction -/
  fuel : Nat

/-- Residue (hjls.cc:303-313, 425-435): `Res(i,j) = sum_k V(d+k,d+i) A(j,k)`, `n × d`. -/
def restRes (e : RestEnv X F) (d n : Nat) (A : Mat X) (V : Mat Int) : Mat X :=
  fun j i => (List.range n).foldl
    (fun acc k => e.oX.add acc (e.oX.mul (e.oX.ofZ (V (d + i) (d + k))) (A k j))) e.oX.zero

/-- Normalization (hjls.cc:316-325, 455-464): division by the largest absolute value, and conversion. -/
def restNorm (e : RestEnv X F) (d n : Nat) (Res : Mat X) : Mat F :=
  let acc := (List.range n).foldl (fun m i => (List.range d).foldl
    (fun m j => if e.oX.lt m (e.oX.abs (Res j i)) then e.oX.abs (Res j i) else m) m) e.oX.zero
  fun j i => e.conv (e.oX.div (Res j i) acc)

/-- `matprod_in(B, FUr)` (mat.h:1713-1735), with `set_z(tr,FU(i,j))` (hjls.cc:393-402). -/
def restB (e : RestEnv X F) (N : Nat) (B : Mat X) (FU : Mat Int) : Mat X := fpProd e.oX N B FU

/-- Early zero detection (hjls.cc:440-449): `epsilon` larger than every entry of row `n-1`. -/
def restZero (e : RestEnv X F) (d n : Nat) (Res : Mat X) : Bool :=
  let r1 := (List.range d).foldl
    (fun m j => if e.oX.lt m (e.oX.abs (Res j (n - 1))) then e.oX.abs (Res j (n - 1)) else m) e.oX.zero
  e.oX.lt r1 e.eps

/-- State of the main loop; `restarts` is a ghost: the number of decompositions that did not end with 0. -/
structure RestState (X F : Type) where
  V : Mat Int
  G : Fg X X
  F' : Fg F F
  Bft : Mat F
  Resft : Mat F
  notfound : Bool
  restarts : Nat

/-- `Bft.setcol(j,H.getcol(j),0,n)` with `H = G.getR()` (hjls.cc:293-297, 417-420). -/
def restBft (e : RestEnv X F) (G : Fg X X) : Mat F := fun j i => e.conv (G.fgetR e.oX.zero j i)

/-- Before the loop (hjls.cc:264-350). -/
def restStart (e : RestEnv X F) (d n : Nat) (A : Mat X) : Option (RestState X F) :=
  let B := hjlsFp e.qX.one e.junkX d A
  match (newFgas e.fpG n (n + d) B B false 0).hsizeRange e.oX e.qX e.fuel 0 (n + d) with
  | none => none
  | some G =>
    let V := matprodIn (n + d) (n + d) G.fgetV.M idMat
    let Bft := restBft e G
    let Resft := restNorm e d n (restRes e d n A V)
    some ⟨V, G, newFgas e.fpF n (n + d) Bft Resft true d, Bft, Resft, true, 0⟩

/-- Body of `while (notfound)` (hjls.cc:357-470). -/
def restStep (e : RestEnv X F) (d n nbrel : Nat) (A : Mat X) (s : RestState X F) :
    Option (RestState X F) :=
  let N := n + d
  match fDecomp e.o e.q e.fuel { e.p with targetdim := nbrel } (s.F'.set s.Bft s.Resft) with
  | none => none
  | some (flag, F') =>
    let V := matprodIn N N F'.fgetV.M s.V
    if flag = 0 then
      some { s with V := V, F' := F', notfound := false }
    else
      let B := restB e N s.G.M F'.fgetU.M
      match (s.G.set B B).hsizeRange e.oX e.qX e.fuel 0 N with
      | none => none
      | some G =>
        let V := matprodIn N N G.fgetV.M V
        let Res := restRes e d n A V
        some ⟨V, G, F', restBft e G, restNorm e d n Res, !restZero e d n Res, s.restarts + 1⟩

def restLoop (e : RestEnv X F) (d n nbrel : Nat) (A : Mat X) : Nat → RestState X F → Option (RestState X F)
  | 0, _ => none
  | fuel + 1, s =>
    if s.notfound then
      match restStep e d n nbrel A s with
      | none => none
      | some s => restLoop e d n nbrel A fuel s
    else some s

/-- Result of `restarting_hjls`: value, `C`, out of range index; ghost: number of restarts. -/
structure RestOut where
  ret : Int
  C : ZMat
  ub : Bool
  restarts : Nat

/-- `restarting_hjls(C, A, nbrel, setprec)` (hjls.cc:188-567).  The last test compares `nullity` with 1
(hjls.cc:548). -/
def restartingHjls (e : RestEnv X F) (fuel d n nbrel : Nat) (A : Mat X) : Option RestOut :=
  match restStart e d n A with
  | none => none
  | some s =>
    match restLoop e d n nbrel A fuel s with
    | none => none
    | some s =>
      let C : ZMat := ⟨n, nbrel, fun j i => s.V (n + d - nbrel + j) (d + i)⟩
      if fpNullity e.oX d n nbrel e.eps A C.M ≠ 1 then some ⟨-1, C, s.G.ub || s.F'.ub, s.restarts⟩
      else some ⟨nbrel, C, s.G.ub || s.F'.ub, s.restarts⟩

end

end HPLLL
