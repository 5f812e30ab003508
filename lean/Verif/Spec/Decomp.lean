import Verif.Model.Decomp
import Mathlib.Algebra.Ring.Int.Defs
/-! Specification vocabulary for the FGAS decompositions. -/

namespace HPLLL.Spec

/-- The column and row operations on the matrix that is decomposed are exact: those of a commutative
ring. -/
structure ExactEntries {X F : Type} [CommRing X] (q : XOps X F) : Prop where
  add : ∀ a b, q.add a b = a + b
  sub : ∀ a b, q.sub a b = a - b
  addmul : ∀ r a b, q.addmul r a b = r + a * b
  submul : ∀ r a b, q.submul r a b = r - a * b
  ofZ : ∀ z : ℤ, q.ofZ z = (z : X)

end HPLLL.Spec
