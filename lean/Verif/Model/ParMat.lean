import Verif.Model.MatH
import Verif.Model.Par
/-!
# Model of the parallel products of src/mat.h:1313-1880

Every iteration of the `#pragma omp parallel for` loop is a thread: the list of its atomic actions on
the shared matrices and on its private temporary matrix.  The threads are interleaved arbitrarily
(`Interleave`, Model/Par.lean).  `U` and the dimensions are only read.
-/

namespace HPLLL

/-- Shared matrices (number 0: `C`; number 1: `L` in `pmatprod`, `C_in` in `tpmatprod_in_int`) and the
private matrix of each thread. -/
structure PState where
  sh : Nat → Mat Int
  loc : Nat → Mat Int

/-- Atomic actions of a thread; `T` is its private matrix, `C` is shared matrix 0. -/
inductive PAct
  /-- declaration and `resize` of the private matrix -/
  | alloc
  /-- `T(i,j).mul(C(r,k), U(u,v))` -/
  | mul (i j r k u v : Nat)
  /-- `T(i,j).addmul(C(r,k), U(u,v))` -/
  | addmul (i j r k u v : Nat)
  /-- `T(i,j) = C(r,c)` -/
  | load (i j r c : Nat)
  /-- computation on private data only -/
  | comp (g : Mat Int → Mat Int)
  /-- `M(r,c) = T(i,j)`, `M` shared matrix number `q` -/
  | store (i j q r c : Nat)

/-- Effect of action `a.2` of thread `a.1`. -/
def pact (U : Mat Int) (a : Nat × PAct) (s : PState) : PState :=
  match a.2 with
  | .alloc => { s with loc := setAt s.loc a.1 fun _ _ => 0 }
  | .mul i j r k u v =>
    { s with loc := setAt s.loc a.1 (setEntry (s.loc a.1) i j (s.sh 0 k r * U v u)) }
  | .addmul i j r k u v =>
    let x := s.loc a.1 j i + s.sh 0 k r * U v u
    { s with loc := setAt s.loc a.1 (setEntry (s.loc a.1) i j x) }
  | .load i j r c => { s with loc := setAt s.loc a.1 (setEntry (s.loc a.1) i j (s.sh 0 c r)) }
  | .comp g => { s with loc := setAt s.loc a.1 (g (s.loc a.1)) }
  | .store i j q r c => { s with sh := setAt s.sh q (setEntry (s.sh q) r c (s.loc a.1 j i)) }

/-- `for (i = a; i < b; i++)` in a thread program. -/
def progFor (a b : Nat) (P : Nat → List PAct) : List PAct := (List.range' a (b - a)).flatMap P

/-- The iterations `l = 0 .. t-1` as threads. -/
def threads (t : Nat) (P : Nat → List PAct) : List (List (Nat × PAct)) :=
  (List.range t).map fun l => (P l).map fun a => (l, a)

/-- Body of the loop of `pmatprod_in_int(C, U, S)` (mat.h:1326-1358, 1405-1441, 1554-1600): `mloc`
and `ibeg` are those of the row slices of `psize_update_B`. -/
def pmatprodInIntProg (m n S l : Nat) : List PAct :=
  let mloc := m / S + if l + 1 ≤ m % S then 1 else 0
  let ibeg := m / S * l + if l + 1 ≤ m % S then l else m % S
  .alloc ::
  (progFor 0 mloc fun i => progFor 0 n fun j =>
    .mul i j (i + ibeg) 0 0 j :: progFor 1 n fun k => [.addmul i j (i + ibeg) k k j]) ++
  progFor 0 mloc fun i => progFor 0 n fun j => [.store i j 0 (i + ibeg) j]

/-- Body of the loop of `tpmatprod_in_int(C_in, U_in, S)` (mat.h:1473-1507).  `C` (shared 0) is the
transpose of `C_in`, `U` the transpose of `U_in` (mat.h:1456-1464); the result is stored in `C_in`
(shared 1). -/
def tpmatprodInIntProg (m n S l : Nat) : List PAct :=
  let nloc := n / S + if l + 1 ≤ n % S then 1 else 0
  let ibeg := n / S * l + if l + 1 ≤ n % S then l else n % S
  .alloc ::
  (progFor 0 nloc fun i => progFor 0 m fun j =>
    .mul i j 0 j (i + ibeg) 0 :: progFor 1 n fun k => [.addmul i j k j (i + ibeg) k]) ++
  progFor 0 nloc fun i => progFor 0 m fun j => [.store i j 1 j (i + ibeg)]

/-- A block of `C` copied, transformed privately, and stored: `getblock`, `matprod_in`, `putblock`. -/
def blockProg (r0 c0 h w : Nat) (g : Mat Int → Mat Int) (q r1 c1 h1 w1 : Nat) : List PAct :=
  .alloc ::
  (progFor 0 h fun i => progFor 0 w fun j => [.load i j (r0 + i) (c0 + j)]) ++
  .comp g ::
  progFor 0 h1 fun i => progFor 0 w1 fun j => [.store i j q (r1 + i) (c1 + j)]

/-- Body of the loop of `pmatprod_in(C, U, S)` (mat.h:1755-1774): the slices have `Sm = m/S` rows. -/
def pmatprodInProg (m n S : Nat) (U : Mat Int) (l : Nat) : List PAct :=
  blockProg (l * (m / S)) 0 (m / S) n (matprodIn (m / S) n U) 0 (l * (m / S)) 0 (m / S) n

/-- Body of the loop of `pmaprod_diag_even(C, U, S, t)` (mat.h:1794-1807): block `(k/S, k%S)` of `C`
(`t/S` by `S` blocks) is multiplied by the diagonal block `k%S` of `U`. -/
def pmaprodDiagProg (m n S t : Nat) (U : Mat Int) (k : Nat) : List PAct :=
  let I := k / S
  let J := k % S
  let Ub := getblock ⟨n, n, U⟩ J J S S
  blockProg (blockBeg m (t / S) I) (blockBeg n S J) (blockDim m (t / S) I) (blockDim n S J)
    (matprodInRect (blockDim m (t / S) I) (blockDim n S J) Ub.cols Ub.M)
    0 (blockBeg m (t / S) I) (blockBeg n S J) (blockDim m (t / S) I) (blockDim n S J)

/-- Body of the parallel loop of `pmatprod(C, U, S, t)` (mat.h:1833-1859): block `(I,J)` of `C` times
the row slice `J` of `U`, stored in block `(I,J)` of `L`, which is `m × (n*S)`. -/
def pmatprodProg (m n S t : Nat) (U : Mat Int) (k : Nat) : List PAct :=
  let I := k / S
  let J := k % S
  let Ub := getblock ⟨n, n, U⟩ J 0 S 1
  blockProg (blockBeg m (t / S) I) (blockBeg n S J) (blockDim m (t / S) I) (blockDim n S J)
    (matprodInRect (blockDim m (t / S) I) (blockDim n S J) Ub.cols Ub.M)
    1 (blockBeg m (t / S) I) (blockBeg (n * S) S J) (blockDim m (t / S) I) (blockDim (n * S) S J)

/-- End of `pmatprod` (mat.h:1867-1876): sum of the `S` copies in `L`. -/
def pmatprodSum (m n S : Nat) (L C : Mat Int) : Mat Int :=
  forRange 1 S (fun k C => forRange 0 m (fun i C => forRange 0 n (fun j C =>
    setEntry C i j (C j i + L (j + k * n) i)) C) C) (setMat m n L C)

end HPLLL
