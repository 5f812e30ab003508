import Verif.Model.Wrap
/-!
# Model of the generators of `command_line_basis` (src/matgen.cc)

Every random number is an arbitrary integer: `rnd l i j` is the value drawn at iteration `(i, j)` of
the loop number `l` of the function (a draw is never used twice, so that naming the draws by their
place is no restriction).  The bases generated by fplll (`gen_intrel`, `gen_trg`, `gen_ntrulike*`) and
the matrix read on the standard input are parameters.
-/

namespace HPLLL

/-- What `command_line_basis` leaves in `A`, `n`, `d`.  `ub`: an index is out of range, or an
uninitialised variable is used. -/
structure GenOut where
  A : Mat Int
  n : Nat
  d : Nat
  ub : Bool

/-- The argument `-type` (matgen.cc:119-131). -/
inductive GenType
  | knapsack | block | unif | dec | ajtai | copp | ntru | al | cin | other
deriving DecidableEq

/-- The arguments of the command line (matgen.cc:133-163).  `h` (like `sN`, `sX`) has no default value:
`none` when the argument is not given. -/
structure GenArgs where
  type : GenType := .knapsack
  d : Nat := 8
  m : Nat := 1
  h : Option Nat := none
  sNX : Option (Nat × Nat) := none

/-- Block knapsack (matgen.cc:179-196): `m` random rows, then ones on the diagonal. -/
def genBlock (rnd : Nat → Nat → Nat → Int) (d m : Nat) : GenOut :=
  let A := forRange 0 m (fun i A => forRange 0 d (fun j A => setEntry A i j (rnd 0 i j)) A)
    (fun _ _ => 0)
  { A := forRange m d (fun i A => setEntry A i i 1) A
    n := d, d := d
    ub := !decide (m ≤ d ∨ d = 0) }

/-- Rectangular uniform (matgen.cc:198-209). -/
def genUnif (rnd : Nat → Nat → Nat → Int) (d m : Nat) : GenOut :=
  { A := forRange 0 m (fun i A => forRange 0 d (fun j A => setEntry A i j (rnd 0 i j)) A)
      (fun _ _ => 0)
    n := m, d := d, ub := false }

/-- Upper part shifted (matgen.cc:211-227): rows `1 …`, then rows `0 … m-1` with larger numbers. -/
def genDec (rnd : Nat → Nat → Nat → Int) (d m : Nat) : GenOut :=
  let A := forRange 1 d (fun i A => forRange 0 d (fun j A => setEntry A i j (rnd 0 i j)) A)
    (fun _ _ => 0)
  { A := forRange 0 m (fun i A => forRange 0 d (fun j A => setEntry A i j (rnd 1 i j)) A) A
    n := d, d := d
    ub := !decide (m ≤ d ∨ d = 0) }

/-- First loop of the Coppersmith generator (matgen.cc:262-269): `q` is the number of blocks already
done, `i = h - 1 - q`; the diagonal blocks of size 3 are powers of `N`. -/
def coppN (N : Int) (h : Nat) (AT : Mat Int) : Mat Int × Int :=
  forRange 0 h (fun q s =>
    (forRange 0 3 (fun k AT => setEntry AT ((h - 1 - q) * 3 + k) ((h - 1 - q) * 3 + k) s.2) s.1,
      s.2 * N)) (AT, 1)

/-- Second loop (matgen.cc:271-276): the diagonal entry `i` is multiplied by `X^i`. -/
def coppX (X : Int) (n : Nat) (AT : Mat Int) : Mat Int × Int :=
  forRange 0 n (fun i s => (setEntry s.1 i i (s.1 i i * s.2), s.2 * X)) (AT, 1)

/-- Third loop (matgen.cc:278-286): random entries below the diagonal. -/
def coppRnd (rnd : Nat → Nat → Nat → Int) (n : Nat) (AT : Mat Int) : Mat Int :=
  forRange 0 n (fun i AT => forRange (i + 1) n (fun j AT => setEntry AT j i (rnd 1 i j)) AT) AT

/-- Coppersmith (matgen.cc:240-290), `N = rnd 0 0 0`, `X = rnd 0 0 1`. -/
def genCopp (rnd : Nat → Nat → Nat → Int) (h : Nat) (ub : Bool) : GenOut :=
  let n := 3 * h
  let AT := (coppN (rnd 0 0 0) h fun _ _ => 0).1
  let AT := (coppX (rnd 0 0 1) n AT).1
  let AT := coppRnd rnd n AT
  { A := transposeTo n n AT fun _ _ => 0
    n := n, d := n, ub := ub }

/-- `genalpha` (matgen.cc:43-100): `dg i` is the conversion of `alpha^(n-i) * 100` (double) to an
integer, `off i j` the conversion of `(rnd - 2^19) / 2^20 * B(i,i)` (mpfr). -/
def genAlpha (dg : Nat → Int) (off : Nat → Nat → Int) (n : Nat) (B : Mat Int) : Mat Int :=
  let B := forRange 0 n (fun q B => setEntry B (n - 1 - q) (n - 1 - q) (dg (n - 1 - q))) B
  let B := forRange 0 n (fun i B => forRange (i + 1) n (fun j B => setEntry B i j (off i j)) B) B
  forRange 0 n (fun i B => forRange 0 i (fun j B => setEntry B i j 0) B) B

/-- `command_line_basis` (matgen.cc:116-371).  `ext r c` is the `r × c` matrix generated by fplll for
the type, `AT` (of size `atd × atn`) the one read with `-type cin`, `hj` and `nj` what the uninitialised
`h` and `n` contain. -/
def commandLineBasis (rnd : Nat → Nat → Nat → Int) (ext : Nat → Nat → Mat Int) (dg : Nat → Int)
    (off : Nat → Nat → Int) (atd atn : Nat) (AT : Mat Int) (hj nj : Nat) (a : GenArgs) : GenOut :=
  match a.type with
  | .knapsack =>
    { A := transposeTo a.d (a.d + 1) (ext a.d (a.d + 1)) fun _ _ => 0
      n := a.d + 1, d := a.d, ub := false }
  | .block => genBlock rnd a.d a.m
  | .unif => genUnif rnd a.d a.m
  | .dec => genDec rnd a.d a.m
  | .ajtai =>
    { A := transposeTo a.d a.d (ext a.d a.d) fun _ _ => 0
      n := a.d, d := a.d, ub := false }
  | .copp => genCopp rnd (a.h.getD hj) (!(a.h.isSome && a.sNX.isSome))
  | .ntru =>
    { A := transposeTo (2 * a.d) (2 * a.d) (ext (2 * a.d) (2 * a.d)) fun _ _ => 0
      n := 2 * a.d, d := 2 * a.d, ub := false }
  | .al => { A := genAlpha dg off a.d fun _ _ => 0, n := a.d, d := a.d, ub := false }
  | .cin => { A := commandLineCin atd atn AT, n := atn, d := atd, ub := false }
  | .other => { A := fun _ _ => 0, n := nj, d := a.d, ub := true }

end HPLLL
