import Verif.Model.Fp
/-!
# Model of class `matrix<T>` (src/mat.h:94-518)

"Comme un tableau linéaire de colonnes": a matrix is an array of columns and `M(i,j)` is `M[j][i]`
(mat.h:94-97, 145-150).  We keep the same order: `M j i` is row `i` of column `j`.  Arrays are total
functions; the dimensions live in the objects that own the matrices and index ranges are checked
separately (field `ub` of the models).  Integers (`Z_NR<mpz_t>`) are unbounded.
-/

namespace HPLLL

/-- `vector<vector<T>> M` of `matrix<T>` (mat.h:96-97): `M j i` = C++ `M[j][i]` = `M(i,j)`. -/
abbrev Mat (α : Type) := Nat → Nat → α

/-- Replacing one column. -/
def setCol {α : Type} (M : Mat α) (j : Nat) (c : Nat → α) : Mat α :=
  fun j' => if j' = j then c else M j'

/-- Replacing one entry of an array (`v[i] = a`). -/
def setAt {α : Type} (v : Nat → α) (i : Nat) (a : α) : Nat → α :=
  fun i' => if i' = i then a else v i'

/-- `set(i,j,a)` (mat.h:162). -/
def setEntry {α : Type} (M : Mat α) (i j : Nat) (a : α) : Mat α :=
  setCol M j (setAt (M j) i a)

/-- `colswap(j,k)` (mat.h:301-305). -/
def colswap {α : Type} (M : Mat α) (j k : Nat) : Mat α :=
  fun j' => if j' = j then M k else if j' = k then M j else M j'

/-! ## Integer column operations -/

/-- `addcol(j,k,l)` (mat.h:309-318): `col j += col k` on rows `< l`. -/
def addcol (M : Mat Int) (j k l : Nat) : Mat Int :=
  setCol M j fun i => if i < l then M j i + M k i else M j i

/-- `subcol(j,k,l)` (mat.h:333-343). -/
def subcol (M : Mat Int) (j k l : Nat) : Mat Int :=
  setCol M j fun i => if i < l then M j i - M k i else M j i

/-- `submulcol(j,k,a,l)` (mat.h:358-366). -/
def submulcol (M : Mat Int) (j k : Nat) (a : Int) (l : Nat) : Mat Int :=
  setCol M j fun i => if i < l then M j i - a * M k i else M j i

/-- `addmulcol_si(j,k,a,l)` (mat.h:379-387); `long` overflow of `a` is not modelled. -/
def addmulcolSi (M : Mat Int) (j k : Nat) (a : Int) (l : Nat) : Mat Int :=
  setCol M j fun i => if i < l then M j i + M k i * a else M j i

/-- `addmulcol_si_2exp(j,k,a,expo,l)` (mat.h:401-417). -/
def addmulcolSi2exp (M : Mat Int) (j k : Nat) (a : Int) (expo l : Nat) : Mat Int :=
  setCol M j fun i => if i < l then M j i + M k i * a * 2 ^ expo else M j i

/-- `paddcol(j,k,ibeg,l)` (mat.h:320-329). -/
def paddcol (M : Mat Int) (j k ibeg l : Nat) : Mat Int :=
  setCol M j fun i => if ibeg ≤ i ∧ i < l + ibeg then M j i + M k i else M j i

/-- `psubcol(j,k,ibeg,l)` (mat.h:345-355). -/
def psubcol (M : Mat Int) (j k ibeg l : Nat) : Mat Int :=
  setCol M j fun i => if ibeg ≤ i ∧ i < l + ibeg then M j i - M k i else M j i

/-- `psubmulcol(j,k,a,ibeg,l)` (mat.h:368-376). -/
def psubmulcol (M : Mat Int) (j k : Nat) (a : Int) (ibeg l : Nat) : Mat Int :=
  setCol M j fun i => if ibeg ≤ i ∧ i < l + ibeg then M j i - a * M k i else M j i

/-- `paddmulcol_si(j,k,a,ibeg,l)` (mat.h:389-397). -/
def paddmulcolSi (M : Mat Int) (j k : Nat) (a : Int) (ibeg l : Nat) : Mat Int :=
  setCol M j fun i => if ibeg ≤ i ∧ i < l + ibeg then M j i + M k i * a else M j i

/-- `paddmulcol_si_2exp(j,k,a,expo,ibeg,l)` (mat.h:419-435). -/
def paddmulcolSi2exp (M : Mat Int) (j k : Nat) (a : Int) (expo ibeg l : Nat) : Mat Int :=
  setCol M j fun i =>
    if ibeg ≤ i ∧ i < l + ibeg then M j i + M k i * a * 2 ^ expo else M j i

/-! ## Floating point column operations and vector helpers -/

section fp
variable {F : Type} (o : FPOps F)

/-- `addcol` at `T = FP_NR<FT>` (mat.h:309-318). -/
def faddcol (M : Mat F) (j k l : Nat) : Mat F :=
  setCol M j fun i => if i < l then o.add (M j i) (M k i) else M j i

/-- `subcol` at `T = FP_NR<FT>` (mat.h:333-343). -/
def fsubcol (M : Mat F) (j k l : Nat) : Mat F :=
  setCol M j fun i => if i < l then o.sub (M j i) (M k i) else M j i

/-- `submulcol` at `T = FP_NR<FT>` (mat.h:358-366). -/
def fsubmulcol (M : Mat F) (j k : Nat) (a : F) (l : Nat) : Mat F :=
  setCol M j fun i => if i < l then o.submul (M j i) a (M k i) else M j i

/-- `fmasub(j,k,w,z,a,l)` (mat.h:449-459): entries `k..k+l-1` of column `j` become `w - z*a`;
`w` and `z` are pointers (functions starting at offset 0). -/
def fmasub (M : Mat F) (j k : Nat) (w z : Nat → F) (a : F) (l : Nat) : Mat F :=
  setCol M j fun i =>
    if k ≤ i ∧ i < k + l then o.submul (w (i - k)) (z (i - k)) a else M j i

/-- `div(j,k,w,a,l)` (mat.h:463-469). -/
def fdivcol (M : Mat F) (j k : Nat) (w : Nat → F) (a : F) (l : Nat) : Mat F :=
  setCol M j fun i => if k ≤ i ∧ i < k + l then o.div (w (i - k)) a else M j i

/-- `setcol(j,w,l)` from floating point data (mat.h:179-184). -/
def fsetcol (M : Mat F) (j : Nat) (w : Nat → F) (l : Nat) : Mat F :=
  setCol M j fun i => if i < l then w i else M j i

/-- `setcol(j,b,0,l)` from an integer column (mat.h:194-216). -/
def fsetcolZ (M : Mat F) (j : Nat) (b : Nat → Int) (l : Nat) : Mat F :=
  setCol M j fun i => if i < l then o.ofZ (b i) else M j i

/-- `scalarprod(nn,v,w,n)` (mat.h:987-994); note that index 0 is read for every `n`. -/
def scalarprod (v w : Nat → F) (n : Nat) : F :=
  (List.range (n - 1)).foldl (fun acc i => o.addmul acc (v (i + 1)) (w (i + 1)))
    (o.mul (v 0) (w 0))

/-- `fp_norm_sq(nn,v,n)` (mat.h:978-984). -/
def fpNormSq (v : Nat → F) (n : Nat) : F :=
  (List.range (n - 1)).foldl (fun acc i => o.addmul acc (v (i + 1)) (v (i + 1)))
    (o.mul (v 0) (v 0))

/-- `fp_norm(nn,v,n)` (mat.h:965-974). -/
def fpNorm (v : Nat → F) (n : Nat) : F := o.sqrt (fpNormSq o v n)

/-- `getcol(j,i)` (mat.h:174-176): pointer to row `i` of column `j`. -/
def getcol {α : Type} (M : Mat α) (j i : Nat) : Nat → α := fun r => M j (i + r)

end fp

/-! ## `matrix_structure` (mat.h:2913-2929) -/

/-- First loop (mat.h:2922-2926): index of the last nonzero entry among rows `< m`, `-1` if none. -/
def lastNonzero (c : Nat → Int) : Nat → Int
  | 0 => -1
  | m + 1 => if c m = 0 then lastNonzero c m else (m : Int)

/-- Second loop (mat.h:2928): running maximum.  `matrixStructure n B k = structure[k]`. -/
def matrixStructure (n : Nat) (B : Mat Int) : Nat → Int
  | 0 => lastNonzero (B 0) n
  | k + 1 => max (matrixStructure n B k) (lastNonzero (B (k + 1)) n)

/-- Identity matrix as written by the constructors (hlll.cc:2056-2062). -/
def idMat : Mat Int := fun j i => if i = j then 1 else 0

end HPLLL
