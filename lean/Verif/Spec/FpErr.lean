import Mathlib.Analysis.InnerProductSpace.PiL2
import Verif.Spec.FpQR
/-!
# Specification: the standard model of floating point arithmetic

Every operation returns the exact result up to a relative error `u` (no overflow, no underflow).
-/

namespace HPLLL.Spec

/-- The arithmetic `o`, whose numbers have the real values `val`, has unit roundoff `u`. -/
structure StdModel {F : Type} (o : FPOps F) (val : F → ℝ) (u : ℝ) : Prop where
  u0 : 0 ≤ u
  u1 : u < 1
  zero : val o.zero = 0
  one : val o.one = 1
  /-- the constant `1e-11` -/
  eps : ∃ e, |e| ≤ u ∧ val o.eps = 1 / 100000000000 * (1 + e)
  ofZ : ∀ z : Int, ∃ e, |e| ≤ u ∧ val (o.ofZ z) = z * (1 + e)
  add : ∀ a b, ∃ e, |e| ≤ u ∧ val (o.add a b) = (val a + val b) * (1 + e)
  mul : ∀ a b, ∃ e, |e| ≤ u ∧ val (o.mul a b) = val a * val b * (1 + e)
  div : ∀ a b, val b ≠ 0 → ∃ e, |e| ≤ u ∧ val (o.div a b) = val a / val b * (1 + e)
  sqrt : ∀ a, 0 ≤ val a → ∃ e, |e| ≤ u ∧ val (o.sqrt a) = Real.sqrt (val a) * (1 + e)
  /-- product and sum rounded, or only the sum (fused) -/
  addmul : ∀ r a b, ∃ e e', |e| ≤ u ∧ |e'| ≤ u ∧
    val (o.addmul r a b) = (val r + val a * val b * (1 + e)) * (1 + e')
  submul : ∀ r a b, ∃ e e', |e| ≤ u ∧ |e'| ≤ u ∧
    val (o.submul r a b) = (val r - val a * val b * (1 + e)) * (1 + e')
  neg : ∀ a, val (o.neg a) = - val a
  abs : ∀ a, val (o.abs a) = |val a|
  isZero : ∀ a, o.isZero a = true ↔ val a = 0
  le : ∀ a b, o.le a b = true ↔ val a ≤ val b
  lt : ∀ a b, o.lt a b = true ↔ val a < val b
  rnd : ∀ a, |val (o.rnd a) - val a| ≤ 1 / 2

/-- Euclidean space of dimension `n`. -/
abbrev E (n : Nat) := EuclideanSpace ℝ (Fin n)

/-- The vector with entries `x 0, ..., x (n-1)`. -/
noncomputable def vc (n : Nat) (x : Nat → ℝ) : E n := WithLp.toLp 2 fun i => x i

/-- `3 ((1-u)^-(6n+18) - 1)`, about `18 (n+3) u`. -/
noncomputable def hhErr (n : Nat) (u : ℝ) : ℝ := 3 * ((1 / (1 - u)) ^ (6 * n + 18) - 1)

/-- Bound of the relative error of the first `d` columns. -/
noncomputable def backErr (n d : Nat) (u : ℝ) : ℝ := (1 + hhErr n u) ^ d * (1 + u) - 1

/-- Distortion of lengths: relative error `e` of the columns of a triangular factor with
`|R_ik| <= η |R_ii|` and `|R_kk| <= c |R_{k+1,k+1}|`. -/
noncomputable def distortion (d : Nat) (c η e : ℝ) : ℝ := d * (e / (1 - e)) * (c * (1 + η)) ^ (d - 1)

end HPLLL.Spec
