import Verif.Model.History
import Verif.Model.Trunc
import Verif.Model.MatH
import Verif.Model.Relations
/-!
# Model of the recursive L1 reduction (src/l1.h)

`M j i` is C++ `M(i,j)`.  `l1.h` calls `getRows`, `getCols` and `lllReduction`, names of an older version of
fplll; they are read as `get_rows`, `get_cols`, `lll_reduction`.
-/

namespace HPLLL

variable {F : Type}

/-- What the recursion uses besides its arguments: arithmetic of the reductions (`MatrixPE<double, dpe_t>`), the
number 0.99, steps allowed to one reduction, the external reducer (`lllReduction(AT, V, ...)`: the matrix `V` for
a given `AT`), and the number `(long) (x * 0.301029995)` of `trunc`. -/
structure L1Env (F : Type) where
  o : FPOps F
  d99 : F
  fuel : Nat
  fplll : Mat Int → Mat Int
  ex : Int → Nat

/-- `rec(U, B, L, leafbits, l, level, lllmethod)` (l1.h:33-119) on an object `L` that is kept from one call to the
next; result: `U` and `L` afterwards.  The first argument bounds the depth of the recursion. -/
def l1Rec (e : L1Env F) (n d : Nat) (leafbits lllmethod : Int) :
    Nat → Mat Int → Mat Int → Lat F → Int → Int → Option (Mat Int × Lat F)
  | 0, _, _, _, _, _ => none
  | depth + 1, U, B, L, l, level =>
    if l ≤ leafbits then
      if lllmethod = methodHLLL then
        match hlll e.o e.fuel e.d99 true (L.put (trunc e.ex B 1 d n 0 0 L.B)) with
        | none => none
        | some (_, L) => some (L.getU.M, L)
      else if lllmethod = methodFPLLL then
        let V := e.fplll (transposeTo n d B fun _ _ => 0)
        some (transposeTo d d V U, L)
      else some (U, L)
    else
      let l2 := l.tdiv 2
      let C1 := trunc e.ex B 1 d n (l2 + d + 2 * (level + 1)) l2 fun _ _ => 0
      match l1Rec e n d leafbits lllmethod depth U C1 L l2 (level + 1) with
      | none => none
      | some (U, L) =>
        let C1 := matprod n d d B U C1
        let C2 := trunc e.ex C1 1 d n (l2 + d + 2 * (level + 1)) 0 fun _ _ => 0
        match l1Rec e n d leafbits lllmethod depth (fun _ _ => 0) C2 L l2 (level + 1) with
        | none => none
        | some (U2, L) => some ((matprodRows d d U2 (U, fun _ _ => 0)).1, L)

/-- `l1(B, A, leafbits, lllmethod)` (l1.h:122-147): the matrix `B`. -/
def l1 (e : L1Env F) (junk : F) (depth n d : Nat) (A : Mat Int) (leafbits lllmethod : Int) : Option (Mat Int) :=
  match l1Rec e n d leafbits lllmethod depth (fun _ _ => 0) A (newLattice e.o junk n d A true 0 true 0)
      (maxbitsize n d A) 0 with
  | none => none
  | some (U, _) => some (matprod n d d A U fun _ _ => 0)

end HPLLL
