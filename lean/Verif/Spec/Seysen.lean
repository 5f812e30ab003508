import Verif.Spec.LLL
/-!
# Specification: block (Seysen) reduction of the columns

The integers below `i` are cut in consecutive blocks by the binary digits of `i`: block `t` is
`[i - i mod 2^(t+1), i - i mod 2^t)`, of length `2^t` if bit `t` of `i` is 1, empty otherwise.
Column `i` is Seysen-reduced with constant `c` when, for every block, the projection of `b_i` on the
space spanned by the block (modulo the columns before the block) has coordinates at most `c` on the
columns of the block.
-/

namespace HPLLL.Spec

variable {n d : ℕ}

/-- The columns of block `t` of column `i`. -/
def seysenBlk (d i t : ℕ) : Finset (Fin d) :=
  Finset.univ.filter fun j => i - i % 2 ^ (t + 1) ≤ (j : ℕ) ∧ (j : ℕ) < i - i % 2 ^ t

/-- Column `i` of `M` is Seysen-reduced with constant `c`: for every block there are coefficients at
most `c` such that `b_i - ∑ x_j b_j` (sum over the block) is orthogonal to the Gram–Schmidt vectors of
the block. -/
def SeysenCol (c : ℝ) (M : Matrix (Fin n) (Fin d) ℤ) (i : Fin d) : Prop :=
  ∀ t : ℕ, ∃ x : Fin d → ℝ, (∀ j ∈ seysenBlk d i t, |x j| ≤ c) ∧
    ∀ k ∈ seysenBlk d i t,
      inner ℝ (gs M k) (colVec M i - ∑ j ∈ seysenBlk d i t, x j • colVec M j) = 0

/-- All the columns are Seysen-reduced. -/
def SeysenReduced (c : ℝ) (M : Matrix (Fin n) (Fin d) ℤ) : Prop := ∀ i, SeysenCol c M i

end HPLLL.Spec
