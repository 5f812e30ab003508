import Verif.Model.Lattice
/-!
# Model of the matrix functions of src/mat.h:520-2002 (transposition, identity, products, blocks,
comparison)

Storage: as for `Mat`, `M j i` is C++ `M(i,j)`; for fplll's `Matrix`/`ZZ_mat` (stored by rows) only
`operator()(i,j)` is used, so that the same type serves for both.  Dimensions are explicit arguments.
Loops are folds over the index ranges in program order; integers are unbounded (`Z_NR<mpz_t>`).
-/

namespace HPLLL

/-- `for (i = a; i < b; i++) body`. -/
def forRange {σ : Type} (a b : Nat) (f : Nat → σ → σ) (s : σ) : σ :=
  (List.range' a (b - a)).foldl (fun s i => f i s) s

/-- `transpose(B, A)`, `A` of size `m × n` (mat.h:523-536). -/
def transposeTo (m n : Nat) (A B : Mat Int) : Mat Int :=
  forRange 0 m (fun i B => forRange 0 n (fun j B => setEntry B j i (A j i)) B) B

/-- `transpose(A)` returning a matrix (mat.h:538-554). -/
def transposeOf (A : ZMat) : ZMat :=
  ⟨A.cols, A.rows, transposeTo A.rows A.cols A.M fun _ _ => 0⟩

/-- `setId(A)` (mat.h:1084-1122, both versions). -/
def setId (m n : Nat) (A : Mat Int) : Mat Int :=
  forRange 0 m (fun i A => setEntry A i i 1)
    (forRange 0 m (fun i A => forRange 0 n (fun j A => setEntry A i j 0) A) A)

/-- `isId(A)` (mat.h:1125-1152). -/
def isId (m n : Nat) (A : Mat Int) : Bool :=
  forRange 0 m (fun i b => forRange 0 n (fun j b =>
    if i = j then (if A j i ≠ 1 then false else b) else (if A j i ≠ 0 then false else b)) b) true

/-- `set(B, A)` (mat.h:1155-1208, the four versions have the same body), and `set(B, A, n, d)`
(mat.h:1212-1221). -/
def setMat (m n : Nat) (A B : Mat Int) : Mat Int :=
  forRange 0 m (fun i B => forRange 0 n (fun j B => setEntry B i j (A j i)) B) B

/-- `set(B, A, n, d1, d2)` (mat.h:1224-1233), "after d1 columns, for d2 columns": the loop is
`for (j = d1 + 1; j < d2; j++)`. -/
def setMatCols (n d1 d2 : Nat) (A B : Mat Int) : Mat Int :=
  forRange 0 n (fun i B => forRange (d1 + 1) d2 (fun j B => setEntry B i j (A j i)) B) B

/-- One entry of a product, computed in place in `T(i,j)`: `mul` then `addmul` for `k = 1 .. d-1`
(e.g. mat.h:1252-1256); row index `r` of the left factor. -/
def prodEntry (d : Nat) (B U : Mat Int) (r i j : Nat) (T : Mat Int) : Mat Int :=
  forRange 1 d (fun k T => setEntry T i j (T j i + B k r * U j k)) (setEntry T i j (B 0 r * U j 0))

/-- `matprod(C, B, U)`, `B` of size `n × d`, `U` of size `d × dres` (mat.h:1239-1260, 1687-1709). -/
def matprod (n d dres : Nat) (B U C : Mat Int) : Mat Int :=
  forRange 0 n (fun i C => forRange 0 dres (fun j C => prodEntry d B U i i j C) C) C

/-- `matprod_in(C, U)`, `C` of size `m × n` (mat.h:1263-1285, 1287-1309, 1366-1390, 1518-1540,
1610-1680, 1713-1735; `matprod_in_int`, `matprod_in_si` have the same body up to the type of `U`):
the product is computed in `tmat`, then copied. -/
def matprodIn (m n : Nat) (U C : Mat Int) : Mat Int :=
  setMat m n (matprod m n n C U fun _ _ => 0) C

/-- `matprod_in(matrix& C, Matrix U)` (mat.h:1882-1907): `C` becomes `m × nU`.  `resize` keeps the
entries in range; the other ones do not exist any more and are 0 in the model. -/
def matprodInRect (m n nU : Nat) (U C : Mat Int) : Mat Int :=
  setMat m nU (matprod m n nU C U fun _ _ => 0) fun _ _ => 0

/-- `matprod(B, U)` in place row by row (mat.h:1910-1936): row `i` of the product is computed in `C`
then written in `B`. State: `(B, C)`. -/
def matprodRows (n d : Nat) (U : Mat Int) (BC : Mat Int × Mat Int) : Mat Int × Mat Int :=
  forRange 0 n (fun i s =>
    let C := forRange 0 d (fun j C => prodEntry d s.1 U i i j C) s.2
    (forRange 0 d (fun j B => setEntry B i j (C j i)) s.1, C)) BC

/-- `shift_in(B, lalpha, nrows)` (mat.h:1054-1060), `lalpha ≥ 0`. -/
def shiftIn (cols nrows lalpha : Nat) (B : Mat Int) : Mat Int :=
  forRange 0 cols (fun j B =>
    forRange 0 nrows (fun i B => setEntry B i j (B j i * 2 ^ lalpha)) B) B

/-! ## Blocks -/

/-- `dr`: dimension of block `i` of `nb` blocks of a dimension `m` (mat.h:693-716; the same text for
columns and in the other `getblock`/`putblock`). -/
def blockDim (m nb i : Nat) : Nat :=
  if m % nb = 0 then m / nb
  else if i < m - m / nb * nb then m / nb + 1 else m / nb

/-- `decr`: first index of block `i` (mat.h:693-716). -/
def blockBeg (m nb i : Nat) : Nat :=
  if m % nb = 0 then i * (m / nb)
  else
    let rem := m - m / nb * nb
    if i < rem then i * (m / nb + 1) else rem * (m / nb + 1) + m / nb * (i - rem)

/-- `getblock(A, ii, jj, nbr, nbc, diagdec)` (mat.h:683-815, both versions; `diagdec` is not used). -/
def getblock (A : ZMat) (ii jj nbr nbc : Nat) : ZMat :=
  let dr := blockDim A.rows nbr ii
  let dc := blockDim A.cols nbc jj
  ⟨dr, dc, forRange 0 dr (fun i B => forRange 0 dc (fun j B =>
    setEntry B i j (A.M (blockBeg A.cols nbc jj + j) (blockBeg A.rows nbr ii + i))) B) fun _ _ => 0⟩

/-- `putblock(B, A, ii, jj, nbr, nbc, diagdec)` (mat.h:822-885). -/
def putblock (B : ZMat) (A : Mat Int) (ii jj nbr nbc : Nat) : ZMat :=
  { B with M := forRange 0 (blockDim B.rows nbr ii) (fun i M =>
      forRange 0 (blockDim B.cols nbc jj) (fun j M =>
        setEntry M (blockBeg B.rows nbr ii + i) (blockBeg B.cols nbc jj + j) (A j i)) M) B.M }

/-- Square `getblock(A, ii, jj, nbb, diagdec)` (mat.h:626-675): `bdim = n/nbb`, `n` the number of
*rows*; block corner shifted by `diagdec` on the diagonal. -/
def getblockSq (A : ZMat) (ii jj nbb diagdec : Nat) : ZMat :=
  let bdim := A.rows / nbb
  ⟨bdim, bdim, forRange 0 bdim (fun j B => forRange 0 bdim (fun i B =>
    setEntry B i j (A.M (jj * bdim + j + diagdec) (ii * bdim + i + diagdec))) B) fun _ _ => 0⟩

/-- Square `putblock(A, B, ii, jj, nbb, diagdec)` (mat.h:893-957, three versions). -/
def putblockSq (A : ZMat) (B : Mat Int) (ii jj nbb diagdec : Nat) : ZMat :=
  let bdim := A.rows / nbb
  { A with M := forRange 0 bdim (fun j M => forRange 0 bdim (fun i M =>
      setEntry M (ii * bdim + i + diagdec) (jj * bdim + j + diagdec) (B j i)) M) A.M }

/-- `setblock(B, kk, ll, A, ii, jj, nbb, diagdec)` (mat.h:564-619): block `(ii,jj)` of `A` copied on
block `(kk,ll)` of `B`; the sizes are those of `A`. -/
def setblock (B : ZMat) (kk ll : Nat) (A : ZMat) (ii jj nbb diagdec : Nat) : ZMat :=
  let bdim := A.rows / nbb
  { B with M := forRange 0 bdim (fun j M => forRange 0 bdim (fun i M =>
      setEntry M (kk * bdim + i) (ll * bdim + j)
        (A.M (jj * bdim + j + diagdec) (ii * bdim + i + diagdec))) M) B.M }

/-! ## `matcmp` (mat.h:1964-2002) -/

/-- `matcmp(B1, B2, c, r)`: `r` rows and `c` columns; the first entries give the sign of the row. -/
def matcmp (B1 B2 : Mat Int) (c r : Nat) : Int :=
  forRange 0 r (fun i test =>
    let a1 : Int := ((B1 0 i).natAbs : Int)
    let a2 : Int := ((B2 0 i).natAbs : Int)
    let test := if a1 ≠ a2 then 0 else test
    let sg : Int := 1
    let sg := if a1 ≠ B1 0 i then sg * (-1) else sg
    let sg := if a1 ≠ B2 0 i then sg * (-1) else sg
    if sg = 1 then
      forRange 1 c (fun j test => if B1 j i ≠ B2 j i then 0 else test) test
    else
      forRange 1 c (fun j test => if B1 j i * (-1) ≠ B2 j i then 0 else test) test) 1

end HPLLL
