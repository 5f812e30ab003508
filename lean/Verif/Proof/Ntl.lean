import Verif.Model.Ntl
import Verif.Proof.Trunc
import Verif.Spec.Lattice
import Mathlib.Data.Nat.Digits.Lemmas
import Mathlib.LinearAlgebra.Matrix.NonsingularInverse
/-! Exchange with NTL. -/

namespace HPLLL
open Spec

theorem mapAll {α : Type} (n d : Nat) (b : Nat → Nat → Mat α → Mat α) (f : Nat → Nat → α → α)
    (hb : ∀ i j M c r, b i j M c r = if c = j ∧ r = i then f i j (M j i) else M c r) (M : Mat α)
    (c r : Nat) :
    forRange 0 n (fun i M => forRange 0 d (fun j M => b i j M) M) M c r =
      if r < n ∧ c < d then f r c (M c r) else M c r := by
  have row : ∀ (i : Nat) (T : Mat α) c r, forRange 0 d (fun j M => b i j M) T c r =
      if r = i ∧ c < d then f r c (T c r) else T c r := by
    intro i T c r
    refine forRange_ind (fun k (S : Mat α) => S c r = if r = i ∧ c < k then f r c (T c r) else T c r)
      (Nat.zero_le d) _ _ (by rw [if_neg (by omega)]) ?_
    intro j S _ _ hS
    rw [hb]
    by_cases h : c = j ∧ r = i
    · obtain ⟨rfl, rfl⟩ := h
      rw [if_pos ⟨rfl, rfl⟩, if_pos ⟨rfl, by omega⟩, hS, if_neg (by omega)]
    · rw [if_neg h, hS]
      by_cases h2 : r = i ∧ c < j
      · rw [if_pos h2, if_pos (by omega)]
      · rw [if_neg h2, if_neg (by omega)]
  refine forRange_ind (fun k (S : Mat α) => S c r = if r < k ∧ c < d then f r c (M c r) else M c r)
    (Nat.zero_le n) _ _ (by rw [if_neg (by omega)]) ?_
  intro i S _ _ hS
  rw [row, hS]
  by_cases h : r = i ∧ c < d
  · obtain ⟨rfl, h⟩ := h
    rw [if_pos ⟨rfl, h⟩, if_neg (by omega), if_pos ⟨by omega, h⟩]
  · rw [if_neg h]
    by_cases h2 : r < i ∧ c < d
    · rw [if_pos h2, if_pos (by omega)]
    · rw [if_neg h2, if_neg (by omega)]

theorem zzmatToNtlp_apply (n m : Nat) (A : Mat Int) (p : Int) (Ap : Mat Int) (c r : Nat) :
    zzmatToNtlp n m A p Ap c r = if r < n ∧ c < m then A c r % p else Ap c r := by
  unfold zzmatToNtlp
  refine mapAll n m _ (fun i j _ => A j i % p) (fun i j M c r => ?_) Ap c r
  simp only []
  split
  · rename_i h; rw [setEntry_apply]; simp [h]
  · split
    · rename_i h; rw [setEntry_apply, h]
    · rw [setEntry_apply]

/-- The lift of a residue. -/
theorem ntlpToZzmat_apply (n m : Nat) (Ap : Mat Int) (p : Int) (bits : Nat) (A : Mat Int) (c r : Nat) :
    ntlpToZzmat n m Ap p bits A c r =
      if r < n ∧ c < m then (if 2 ^ bits ≤ Ap c r then Ap c r - p else Ap c r) else A c r := by
  unfold ntlpToZzmat
  simp only [one_mul, ge_iff_le]
  rw [mapAll n m (fun i j (A : Mat Int) => if 2 ^ bits ≤ A j i then setEntry A i j (A j i - p) else A)
    (fun _ _ x => if 2 ^ bits ≤ x then x - p else x) (fun i j M c r => ?_),
    mapAll n m (fun i j (A : Mat Int) => if Ap j i = 0 then setEntry A i j 0 else setEntry A i j (Ap j i))
    (fun i j _ => Ap j i) (fun i j M c r => ?_)]
  · by_cases h : r < n ∧ c < m
    · simp only [if_pos h]
    · simp only [if_neg h]
  · split
    · rename_i h; rw [setEntry_apply, h]
    · rw [setEntry_apply]
  · split
    · rw [setEntry_apply]
    · split
      · rename_i h; rw [h.1, h.2]
      · rfl

/-- A residue lifts back to the number iff the number is in the window. -/
theorem lift_residue {p a : Int} {bits : Nat} (hp : 2 ^ (bits + 1) < p) :
    (if 2 ^ bits ≤ a % p then a % p - p else a % p) = a ↔ 2 ^ bits - p ≤ a ∧ a < 2 ^ bits := by
  have h2 : (0 : Int) < 2 ^ bits := by positivity
  rw [pow_succ] at hp
  have h0 := Int.emod_nonneg a (show p ≠ 0 by omega)
  have h1 := Int.emod_lt_of_pos a (show 0 < p by omega)
  constructor
  · split <;> intro h <;> constructor <;> omega
  · rintro ⟨h3, h4⟩
    rcases lt_or_ge a 0 with h | h
    · have e : a % p = a + p := by
        rw [← Int.add_emod_right, Int.emod_eq_of_lt (by omega) (by omega)]
      rw [e, if_pos (by omega)]; omega
    · rw [Int.emod_eq_of_lt h (by omega), if_neg (by omega)]

theorem ntlInv_apply (n : Nat) (inv : Mat Int → Int × Mat Int) (U V : Mat Int) (c r : Nat) :
    ntlInv n inv U V c r = if r < n ∧ c < n then
      (inv fun c r => if r < n ∧ c < n then U c r else 0).2 c r else V c r := by
  unfold ntlInv
  rw [fillAll]
  have e : (forRange 0 n (fun i M => forRange 0 n (fun j M => setEntry M i j (U j i)) M)
      fun _ _ => (0 : Int)) = fun c r => if r < n ∧ c < n then U c r else 0 := by
    funext c r; rw [fillAll n n (fun i j => U j i)]
  rw [e]

theorem ntlSize_le (n : Nat) (U : Mat Int) (x : Nat) :
    ntlSize n U ≤ x ↔ ∀ i < n, ∀ j < n, sizeInBits (U j i) ≤ x := maxbitsize_le n n U x

/-- Number of decimal digits. -/
theorem digits_le {x k : Nat} (h : x < 10 ^ k) : (Nat.digits 10 x).length ≤ k :=
  (Nat.digits_length_le_iff (by norm_num) x).2 h

end HPLLL
