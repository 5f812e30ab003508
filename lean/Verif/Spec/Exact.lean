import Verif.Model.Fp

import Mathlib.Analysis.Real.Sqrt
import Mathlib.Algebra.Order.Round
/-!
# Exact arithmetic

`Exact o` says that the record of operations `o` over the real numbers computes exactly; rounding to
nearest may break ties arbitrarily, `get_si_exp` may use any representation.
-/

namespace HPLLL.Spec

structure Exact (o : FPOps ℝ) : Prop where
  zero : o.zero = 0
  one : o.one = 1
  eps : 0 ≤ o.eps
  ofZ : ∀ z, o.ofZ z = z
  toZ : ∀ k : ℤ, o.toZ k = k
  add : ∀ a b, o.add a b = a + b
  sub : ∀ a b, o.sub a b = a - b
  mul : ∀ a b, o.mul a b = a * b
  div : ∀ a b, o.div a b = a / b
  addmul : ∀ r a b, o.addmul r a b = r + a * b
  submul : ∀ r a b, o.submul r a b = r - a * b
  neg : ∀ a, o.neg a = -a
  abs : ∀ a, o.abs a = |a|
  sqrt : ∀ a, o.sqrt a = Real.sqrt a
  rnd : ∀ x, ∃ k : ℤ, o.rnd x = k ∧ |x - k| ≤ 1 / 2
  isZero : ∀ x, o.isZero x = true ↔ x = 0
  le : ∀ a b, o.le a b = true ↔ a ≤ b
  lt : ∀ a b, o.lt a b = true ↔ a < b
  getSiExp : ∀ k : ℤ, (o.getSiExp k).1 * 2 ^ (o.getSiExp k).2 = k

/-- Additionally, numbers of absolute value at most 1/2 are rounded to 0 (e.g. ties to even). -/
structure ExactTies (o : FPOps ℝ) : Prop extends Exact o where
  tie : ∀ x, |x| ≤ 1 / 2 → o.rnd x = 0

open Classical in
/-- Exact real arithmetic with ties to zero at 1/2; shows that the hypotheses are satisfiable. -/
noncomputable def realOps : FPOps ℝ where
  zero := 0
  one := 1
  tenth := 1 / 10
  hundredth := 1 / 100
  eps := 1 / 100000000000
  ofZ := fun z => z
  toZ := fun x => round x
  add := (· + ·)
  sub := (· - ·)
  mul := (· * ·)
  div := (· / ·)
  addmul := fun r a b => r + a * b
  submul := fun r a b => r - a * b
  neg := fun x => -x
  abs := fun x => |x|
  sqrt := Real.sqrt
  rnd := fun x => if |x| ≤ 1 / 2 then 0 else round x
  isZero := fun x => decide (x = 0)
  le := fun a b => decide (a ≤ b)
  lt := fun a b => decide (a < b)
  getSiExp := fun x => (round x, 0)

theorem realOps_exact : ExactTies realOps where
  zero := rfl
  one := rfl
  eps := by simp [realOps]
  ofZ := fun _ => rfl
  toZ := fun k => by simp [realOps]
  add := fun _ _ => rfl
  sub := fun _ _ => rfl
  mul := fun _ _ => rfl
  div := fun _ _ => rfl
  addmul := fun _ _ _ => rfl
  submul := fun _ _ _ => rfl
  neg := fun _ => rfl
  abs := fun _ => rfl
  sqrt := fun _ => rfl
  rnd := by
    intro x
    by_cases h : |x| ≤ 1 / 2
    · exact ⟨0, by simp only [realOps, if_pos h, Int.cast_zero], by simpa using h⟩
    · exact ⟨round x, by simp only [realOps, if_neg h], abs_sub_round x⟩
  isZero := by intro x; simp [realOps]
  le := by intro a b; simp [realOps]
  lt := by intro a b; simp [realOps]
  getSiExp := by intro k; simp [realOps]
  tie := by intro x h; simp only [realOps, if_pos h]

end HPLLL.Spec
