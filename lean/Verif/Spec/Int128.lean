import Verif.Model.Int128
import Mathlib.Algebra.Order.Ring.Int
import Mathlib.Algebra.Order.Group.Unbundled.Abs
/-! What the operations of an integer type mean, on unbounded integers. -/

namespace HPLLL.Spec
open HPLLL

/-- Range of a signed integer type with `w + 1` bits. -/
def InRange (w : Nat) (a : Int) : Prop := -2 ^ w ≤ a ∧ a < 2 ^ w

/-- The value an operation is meant to write, on unbounded integers. -/
def meant (r : Nat → Int) : Ins128 → Int
  | .setSi _ b => b
  | .setMpz _ a => a
  | .copy _ x => r x
  | .add _ x y => r x + r y
  | .sub _ x y => r x - r y
  | .neg _ x => -r x
  | .mul _ x y => r x * r y
  | .mulSi _ x b => r x * b
  | .mul2si _ x b => if 0 ≤ b then r x * 2 ^ b.toNat else r x / 2 ^ (-b).toNat
  | .addmul d x y => r d + r x * r y
  | .addmulSi d x b => r d + r x * b
  | .submul d x y => r d - r x * r y
  | .abs _ x => |r x|
  | .randb _ u => u

/-- The run on unbounded integers. -/
def runZ : List Ins128 → (Nat → Int) → (Nat → Int)
  | [], r => r
  | i :: p, r => runZ p (fun k => if k = i.dest then meant r i else r k)

/-- Assignment from `mpz_t` and random generation go through 64 bits. -/
def Narrow : Ins128 → Bool
  | .setMpz _ _ | .randb _ _ => true
  | _ => false

/-- Every value written in the unbounded run fits (in 64 bits for `setMpz`, `randb`). -/
def NoOverflow : List Ins128 → (Nat → Int) → Prop
  | [], _ => True
  | i :: p, r => InRange (if Narrow i then 63 else 127) (meant r i) ∧
      NoOverflow p (fun k => if k = i.dest then meant r i else r k)

/-- Operations compatible with reduction modulo 2^128. -/
def Ring : Ins128 → Prop
  | .mul2si _ _ b => 0 ≤ b
  | .abs _ _ => False
  | .setSi _ b => InRange 63 b
  | .setMpz _ a => InRange 63 a
  | .randb _ u => InRange 63 u
  | _ => True

end HPLLL.Spec
