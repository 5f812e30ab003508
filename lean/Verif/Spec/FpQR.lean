import Verif.Model.Fp
/-!
# Specification: Householder factorisation in floating point arithmetic

A textbook Householder factorisation, column by column, in an arbitrary arithmetic `o`.  Vectors are
functions of the row index, only the rows `< n` count.
-/

namespace HPLLL.Spec

variable {F : Type} (o : FPOps F)

/-- `x_a y_a + ... + x_{n-1} y_{n-1}`, accumulated from the left. -/
def fdot (n a : Nat) (x y : Nat → F) : F :=
  (List.range (n - a - 1)).foldl (fun acc i => o.addmul acc (x (a + (i + 1))) (y (a + (i + 1))))
    (o.mul (x (a + 0)) (y (a + 0)))

/-- `y` after the reflections along `V_0, ..., V_{k-1}` (`V_j` starts at row `j`, norm `√2`). -/
def fapp (n : Nat) (V : Nat → Nat → F) : Nat → (Nat → F) → Nat → F
  | 0, y => y
  | k + 1, y => fun r =>
    if k ≤ r ∧ r < n then
      o.submul (fapp n V k y r) (V k r) (fdot o n k (V k) (fapp n V k y))
    else fapp n V k y r

/-- Norm of the rows `>= k`. -/
def fnorm (n k : Nat) (y : Nat → F) : F := o.sqrt (fdot o n k y y)

/-- The norm with the sign of `y_k`. -/
def fsig (n k : Nat) (y : Nat → F) : F :=
  if o.le o.zero (y k) then fnorm o n k y else o.neg (fnorm o n k y)

/-- Divisor of the reflection vector: `sqrt (σ (y_k + σ))`. -/
def fscal (n k : Nat) (y : Nat → F) : F :=
  o.sqrt (o.mul (fsig o n k y) (o.add (y k) (fsig o n k y)))

/-- `R` (upper triangular part, `R k i` is row `i` of column `k`) and `V` are the Householder
factorisation of the `d` columns `b` of length `n`, computed with the operations `o`. -/
structure IsFpQR (n d : Nat) (b V R : Nat → Nat → F) : Prop where
  /-- rows above the diagonal -/
  up : ∀ k < d, ∀ i < k, R k i = fapp o n V k (b k) i
  /-- the diagonal is minus the signed norm of the rest of the column -/
  diag : ∀ k < d, R k k = if o.le o.zero (fapp o n V k (b k) k) then
    o.neg (fnorm o n k (fapp o n V k (b k))) else fnorm o n k (fapp o n V k (b k))
  /-- reflection vectors -/
  vdiag : ∀ k < d, V k k = o.div (o.add (fapp o n V k (b k) k) (fsig o n k (fapp o n V k (b k))))
    (fscal o n k (fapp o n V k (b k)))
  vlow : ∀ k < d, ∀ r, k < r → r < n → o.isZero (fscal o n k (fapp o n V k (b k))) = false →
    V k r = o.div (fapp o n V k (b k) r) (fscal o n k (fapp o n V k (b k)))

/-- The rounded quotients of column `k` by the diagonal are all zero, or none of the quotients
exceeds `1 + |1e-11 |b_k| / R_ii|`. -/
def FpSized (n k : Nat) (b R : Nat → Nat → F) : Prop :=
  (∀ i < k, o.isZero (o.rnd (o.div (R k i) (R i i))) = true) ∨
  (∀ i < k, o.lt (o.add (o.abs (o.div (o.mul (o.sqrt (fdot o n 0 (b k) (b k))) o.eps) (R i i)))
    o.one) (o.abs (o.div (R k i) (R i i))) = false)

/-- The Lovász test at column `k` (`k ≥ 1`) succeeds. -/
def FpLovasz (n k : Nat) (δ : F) (b V R : Nat → Nat → F) : Prop :=
  o.le (o.mul δ (o.mul (R (k - 1) (k - 1)) (R (k - 1) (k - 1))))
    (o.add (o.mul (fnorm o n k (fapp o n V k (b k))) (fnorm o n k (fapp o n V k (b k))))
      (o.mul (R k (k - 1)) (R k (k - 1)))) = true

/-- Operations with the number zero are exact. -/
structure ZeroLaws : Prop where
  ofZ : o.ofZ 0 = o.zero
  addmul : ∀ a v, o.addmul a v o.zero = a
  submul : ∀ a, o.submul o.zero o.zero a = o.zero
  div : ∀ a, o.isZero a = false → o.div o.zero a = o.zero

end HPLLL.Spec
