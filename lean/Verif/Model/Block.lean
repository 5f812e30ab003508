import Verif.Model.Lattice
/-!
# Model of the blockwise reduction `blevel` (src/block.h)

`M j i` is C++ `M(i,j)`.  The floating point matrices of type `MatrixPE<double,dpe_t>` are those of a `Lat` with
uninterpreted operations, as everywhere (see C43).  The names `getRows`, `getCols` of an older fplll are read as the
current ones; `lllmethod` is not used by the code.
-/

namespace HPLLL

variable {F : Type}

/-- Columns `k bs .. k bs + bs - 1` of `A` (block.h:58-60). -/
def blockOf (bs k : Nat) (A : Mat Int) : Mat Int := fun j i => A (k * bs + j) i

/-- `B(i, k bs + j) = A(i, j)` for `i < n`, `j < bs` (block.h:70-74). -/
def blockWrite (n bs k : Nat) (A B : Mat Int) : Mat Int :=
  fun j i => if k * bs ≤ j ∧ j < k * bs + bs ∧ i < n then A (j - k * bs) i else B j i

/-- The reduction object, the output, and a ghost: the number of tests of each reduction. -/
structure BlockState (F : Type) where
  L : Lat F
  B : Mat Int
  tests : List Nat

/-- Body of the loop over the blocks (block.h:56-77); the status of `hlll` is not looked at. -/
def blockStep (o : FPOps F) (fuel : Nat) (delta : F) (n bs : Nat) (dec : Int) (Ain : Mat Int) (k : Nat)
    (s : BlockState F) : Option (BlockState F) :=
  if dec ≤ k then
    match hlll o fuel delta true (s.L.assign (blockOf bs k Ain)) with
    | none => none
    | some (_, L) => some ⟨L, blockWrite n bs k L.getbase.M s.B, s.tests ++ [L.nblov]⟩
  else some { s with B := blockWrite n bs k (blockOf bs k Ain) s.B }

/-- Blocks `k, k+1, ..` (`m` of them). -/
def blockLoop (o : FPOps F) (fuel : Nat) (delta : F) (n bs : Nat) (dec : Int) (Ain : Mat Int) :
    Nat → Nat → BlockState F → Option (BlockState F)
  | 0, _, s => some s
  | m + 1, k, s =>
    match blockStep o fuel delta n bs dec Ain k s with
    | none => none
    | some s => blockLoop o fuel delta n bs dec Ain m (k + 1) s

/-- The object before the loop (block.h:41-50): the constructor is given a block of ones. -/
def blockStart (o : FPOps F) (junk : F) (vd : Int) (n bs : Nat) (B : Mat Int) : BlockState F :=
  ⟨newLattice o junk n bs (fun _ _ => 1) false 0 true vd, B, []⟩

/-- Outcome of `blevel`. -/
inductive BlockOut (F : Type)
  /-- `d / bs` with `bs = 0` -/
  | undefined
  /-- a reduction does not return within its number of steps -/
  | diverges
  | done (s : BlockState F)

/-- `blevel(B, Ain, bs, dec)` (block.h:33-80) on an `n × d` matrix; `delta` is 0.99, `B` the output matrix before
the call. -/
def blevel (o : FPOps F) (junk : F) (vd : Int) (fuel : Nat) (delta : F) (n d bs : Nat) (dec : Int)
    (Ain B : Mat Int) : BlockOut F :=
  if bs = 0 then .undefined
  else match blockLoop o fuel delta n bs dec Ain (d / bs) 0 (blockStart o junk vd n bs B) with
    | none => .diverges
    | some s => .done s

end HPLLL
