/-!
# Printing in Maple's format: `print2maple`, `printcol`

`e i j` is the text which `print`, `operator<<` or `hplllprint` writes for the entry of row `i`, column `j`.
-/

namespace HPLLL

/-- The inner loop: columns `beg .. beg+k-1`, each followed by `", "`, then column `beg+k`
(mat.h:1068-1072, 1947-1953, 2013-2017, 2030-2034, matpe.h:1380-1386, 1400-1404). -/
def mapleRow (e : Nat → List Char) (beg k : Nat) : List Char :=
  ((List.range k).flatMap fun j => e (beg + j) ++ [',', ' ']) ++ e (beg + k)

/-- The outer loop over `n` rows; the last one has no comma (mat.h:1066-1074, 2011-2019, 2028-2036). -/
def mapleRows (e : Nat → Nat → List Char) (n beg k : Nat) : List Char :=
  (List.range n).flatMap fun i =>
    '[' :: (mapleRow (e i) beg k ++ (if i + 1 < n then [' ', ' ', ']', ',', '\n'] else [' ', ' ', ']', '\n']))

/-- `printcol(B, n, beg, k)` (mat.h:2024-2056, matpe.h:1394-1411): columns `beg .. beg+k`. -/
def printcol (e : Nat → Nat → List Char) (n beg k : Nat) : List Char :=
  "Matrix([".toList ++ mapleRows e n beg k ++ [']', ')', ';', '\n']

/-- `print2maple(B, n, d)` (mat.h:1062-1077, 1941-1958, 2007-2021, matpe.h:1374-1391), `d >= 1`. -/
def print2maple (e : Nat → Nat → List Char) (n d : Nat) : List Char := printcol e n 0 (d - 1)

/-- `print2maple(B, k, l)` for a mixed matrix with `d` real rows (matmixed.h:544-596); `eR`, `eZ` are the
texts of the entries of the two parts, `l >= 1`. -/
def print2mapleRZ (d : Nat) (eR eZ : Nat → Nat → List Char) (k l : Nat) : List Char :=
  if k < d then "Matrix([".toList ++ mapleRows eR k 0 (l - 1) ++ [']', ')', ';', '\n']
  else
    "Matrix([".toList ++
      ((List.range d).flatMap fun i => '[' :: (mapleRow (eR i) 0 (l - 1) ++ [' ', ' ', ']', ',', '\n'])) ++
      mapleRows eZ (k - d) 0 (l - 1) ++ [']', ')', ';', '\n']

end HPLLL
