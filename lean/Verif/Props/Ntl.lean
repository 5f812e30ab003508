import Verif.Proof.Ntl
import Verif.Model.Toy
/-!
# Properties of the exchange with NTL
-/

namespace HPLLL.Props
open HPLLL Spec

/-- What `mpz_nextprime` guarantees (here only that the result is larger). -/
def NextPrime (np : Int → Int) : Prop := ∀ x, x < np x

theorem next2prime_gt {np : Int → Int} (h : NextPrime np) (bits : Nat) :
    2 ^ (bits + 1) < next2prime np bits := by
  have := h (1 * 2 ^ (bits + 1))
  unfold next2prime
  rwa [one_mul] at this ⊢

/-- **C89 (reduction modulo p and back).** With `p` from `next2prime(p, bits)`: the matrix of residues of
`A` lifted by `ntlp_to_zzmat` has the entry of `A` at a position if and only if that entry is at least
`2^bits - p` and less than `2^bits`; in particular all entries of absolute value less than `2^bits` are
preserved, whatever the previous contents of the two targets. -/
theorem C89_mod_roundtrip (np : Int → Int) (hnp : NextPrime np) (bits n m : Nat) (A Ap0 A0 : Mat Int) :
    let p := next2prime np bits
    let A' := ntlpToZzmat n m (zzmatToNtlp n m A p Ap0) p bits A0
    (∀ i < n, ∀ j < m, (A' j i = A j i ↔ 2 ^ bits - p ≤ A j i ∧ A j i < 2 ^ bits)) ∧
      ((∀ i < n, ∀ j < m, |A j i| < 2 ^ bits) → toMatrix n m A' = toMatrix n m A) := by
  intro p A'
  have hp : 2 ^ (bits + 1) < p := next2prime_gt hnp bits
  have key : ∀ i < n, ∀ j < m, (A' j i = A j i ↔ 2 ^ bits - p ≤ A j i ∧ A j i < 2 ^ bits) := by
    intro i hi j hj
    simp only [A', ntlpToZzmat_apply, zzmatToNtlp_apply, hi, hj, and_self, if_true]
    exact lift_residue hp
  refine ⟨key, fun h => ?_⟩
  ext i j
  have h1 := abs_lt.1 (h i i.2 j j.2)
  have h2 : (0 : Int) < 2 ^ bits := by positivity
  rw [pow_succ] at hp
  exact (key i i.2 j j.2).2 ⟨by omega, h1.2⟩

/-- The hypotheses hold of `x ↦ x + 1` (a bound is all that is used) and a matrix with entries ±3. -/
example : NextPrime (fun x => x + 1) ∧
    toCols 2 1 (ntlpToZzmat 2 1 (zzmatToNtlp 2 1 (ofCols [[3, -3]]) (next2prime (fun x => x + 1) 2)
      fun _ _ => 5) (next2prime (fun x => x + 1) 2) 2 fun _ _ => 8) = [[3, -3]] :=
  ⟨fun x => by simp, by decide⟩

/-- **C89 (computations modulo p).** A product computed modulo `p` from the residues of `A` and `B` and
lifted is the product `A * B`, if the entries of the product are less than `2^bits` in absolute value. -/
theorem C89_mod_product (np : Int → Int) (hnp : NextPrime np) (bits n k m : Nat) (A B A0 B0 P C0 : Mat Int)
    (hP : ∀ i < n, ∀ j < m, P j i =
      (∑ l ∈ Finset.range k, zzmatToNtlp n k A (next2prime np bits) A0 l i *
        zzmatToNtlp k m B (next2prime np bits) B0 j l) % next2prime np bits)
    (hb : ∀ i j, |(toMatrix n k A * toMatrix k m B) i j| < 2 ^ bits) :
    toMatrix n m (ntlpToZzmat n m P (next2prime np bits) bits C0) = toMatrix n k A * toMatrix k m B := by
  set p := next2prime np bits with hpd
  have hp : 2 ^ (bits + 1) < p := next2prime_gt hnp bits
  ext i j
  have hb' := abs_lt.1 (hb i j)
  have h2 : (0 : Int) < 2 ^ bits := by positivity
  have e : P j i = (toMatrix n k A * toMatrix k m B) i j % p := by
    rw [hP i i.2 j j.2, Matrix.mul_apply]
    rw [Finset.sum_int_mod, Finset.sum_range, Finset.sum_int_mod (s := Finset.univ)
      (f := fun l => toMatrix n k A i l * toMatrix k m B l j)]
    congr 1
    refine Finset.sum_congr rfl fun l _ => ?_
    rw [zzmatToNtlp_apply, zzmatToNtlp_apply, if_pos ⟨i.2, l.2⟩, if_pos ⟨l.2, j.2⟩, ← Int.mul_emod]
    rfl
  show ntlpToZzmat n m P p bits C0 j i = _
  rw [ntlpToZzmat_apply, if_pos ⟨i.2, j.2⟩, e]
  refine (lift_residue hp).2 ⟨?_, hb'.2⟩
  rw [pow_succ] at hp
  omega

/-- What NTL's `inv(d, X, A)` guarantees on a nonsingular matrix: `d = det A` and `A X = d I`. -/
def NtlInvSpec (n : Nat) (inv : Mat Int → Int × Mat Int) : Prop :=
  ∀ A : Mat Int, (toMatrix n n A).det ≠ 0 → (inv A).1 = (toMatrix n n A).det ∧
    toMatrix n n A * toMatrix n n (inv A).2 = (toMatrix n n A).det • (1 : Matrix (Fin n) (Fin n) ℤ)

/-- **C89 (NTL_inv).** On a unimodular matrix `U` of dimension `n ≥ 1`, `NTL_inv` gives `det(U) U⁻¹`
(the integer inverse is the matrix `W` with `U W = 1`): the inverse if `det U = 1`, and the *opposite* of the
inverse, which is not the inverse, if `det U = -1`. -/
theorem C89_ntl_inv (n : Nat) (hn : 0 < n) (inv : Mat Int → Int × Mat Int) (hi : NtlInvSpec n inv)
    (U V : Mat Int) (hU : Unimodular (toMatrix n n U)) :
    let V' := toMatrix n n (ntlInv n inv U V)
    ((toMatrix n n U).det = 1 → toMatrix n n U * V' = 1 ∧ V' * toMatrix n n U = 1) ∧
    ((toMatrix n n U).det = -1 → toMatrix n n U * V' = -1 ∧ toMatrix n n U * V' ≠ 1) := by
  intro V'
  set U' : Mat Int := fun c r => if r < n ∧ c < n then U c r else 0 with hU'
  have e1 : toMatrix n n U' = toMatrix n n U := by
    ext i j
    show U' j i = U j i
    simp only [hU']
    rw [if_pos ⟨i.2, j.2⟩]
  have e2 : V' = toMatrix n n (inv U').2 := by
    ext i j
    show ntlInv n inv U V j i = (inv U').2 j i
    rw [ntlInv_apply, if_pos ⟨i.2, j.2⟩]
  have hne : (toMatrix n n U).det ≠ 0 := by
    rcases hU with h | h <;> rw [h] <;> norm_num
  have h := (hi U' (by rw [e1]; exact hne)).2
  rw [e1, ← e2] at h
  refine ⟨fun hd => ?_, fun hd => ?_⟩
  · rw [hd, one_smul] at h
    exact ⟨h, mul_eq_one_comm.1 h⟩
  · rw [hd, neg_smul, one_smul] at h
    refine ⟨h, fun hc => ?_⟩
    rw [hc] at h
    have := congrFun (congrFun h ⟨0, hn⟩) ⟨0, hn⟩
    simp at this

/-- Such a function exists (the adjugate), and a unimodular matrix of determinant -1. -/
example : NtlInvSpec 2 (fun A => ((toMatrix 2 2 A).det, fun c r =>
      if h : r < 2 ∧ c < 2 then (toMatrix 2 2 A).adjugate ⟨r, h.1⟩ ⟨c, h.2⟩ else 0)) ∧
    (toMatrix 2 2 (ofCols [[0, 1], [1, 3]])).det = -1 := by
  refine ⟨fun A _ => ⟨rfl, ?_⟩, by rw [Matrix.det_fin_two]; decide⟩
  rw [← Matrix.mul_adjugate]
  congr 1
  ext i j
  simp only [toMatrix, Matrix.of_apply, i.2, j.2, and_self, dif_pos, Fin.eta]

/-- **C89 (buffers).** The text of an entry of `U` (sign, digits, final zero) fits in the `size + 20`
characters of `str`, and the text of an entry of the inverse, of at most `size` words of 64 bits, in the
`size * 32 + 20` characters of `y`. -/
theorem C89_buffers (n : Nat) (U : Mat Int) (i j : Nat) (hi : i < n) (hj : j < n) (v : Int) (size : Nat)
    (hv : v.natAbs < 2 ^ (64 * size)) :
    (Nat.digits 10 (U j i).natAbs).length + 2 ≤ ntlSize n U + 20 ∧
      (Nat.digits 10 v.natAbs).length + 2 ≤ size * 32 + 20 := by
  have h1 := (ntlSize_le n U _).1 le_rfl i hi j hj
  have h2 : (U j i).natAbs < 10 ^ (ntlSize n U) := by
    have h3 : (U j i).natAbs < 2 ^ (sizeInBits (U j i)) := Nat.lt_log2_self
    exact h3.trans_le ((Nat.pow_le_pow_right (by norm_num) h1).trans
      (Nat.pow_le_pow_left (by norm_num) _))
  have h4 : v.natAbs < 10 ^ (size * 32) := by
    refine hv.trans_le ?_
    rw [pow_mul, mul_comm size 32, pow_mul]
    exact Nat.pow_le_pow_left (by norm_num) _
  have := digits_le h2
  have := digits_le h4
  omega

end HPLLL.Props
