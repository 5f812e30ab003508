import Verif.Model.MatPE
import Verif.Proof.Cont
import Verif.Proof.ExactOps
import Mathlib.Tactic.Ring
import Mathlib.Tactic.FieldSimp
/-! The methods of `MatrixPE` in exact arithmetic. -/

namespace HPLLL
namespace PE
open Spec

theorem two_ne : (2 : ℝ) ≠ 0 := two_ne_zero

theorem zadd (a b : ℤ) : (2 : ℝ) ^ (a + b) = 2 ^ a * 2 ^ b := zpow_add₀ two_ne a b

theorem zsub (a b : ℤ) : (2 : ℝ) ^ (a - b) = 2 ^ a / 2 ^ b := zpow_sub₀ two_ne a b

theorem zpos (a : ℤ) : (2 : ℝ) ^ a ≠ 0 := zpow_ne_zero _ two_ne

theorem get_put_same (m : MatPE) (j : Nat) (v : Nat → ℝ) (e : ℤ) (i : Nat) :
    (m.put j v e).get j i = v i * 2 ^ e := by
  simp only [MatPE.get, MatPE.getRaw, MatPE.put, setCol_same, setAt_same, dval, ldexp]

theorem get_put_ne (m : MatPE) {j j' : Nat} (v : Nat → ℝ) (e : ℤ) (i : Nat) (h : j' ≠ j) :
    (m.put j v e).get j' i = m.get j' i := by
  simp only [MatPE.get, MatPE.getRaw, MatPE.put, setCol_ne _ _ h, setAt_ne _ _ h]

theorem get_def (m : MatPE) (j i : Nat) : m.get j i = m.M j i * 2 ^ m.exp j := rfl

/-- `set` is right on all rows. -/
theorem set_get (n : Nat) (m : MatPE) (j i : Nat) (a : ℝ × ℤ) (r : Nat) (hr : r < n) :
    (m.set n j i a).get j r = if r = i then dval a else m.get j r := by
  unfold MatPE.set
  split
  · rename_i h
    rw [get_put_same]
    unfold setAt
    split
    · simp only [dval, ldexp, h]; ring
    · rfl
  · simp only []
    split
    · rw [get_put_same]
      split
      · rfl
      · rw [get_def, ldexp, mul_assoc, ← zadd]; congr 2; ring
    · rw [get_put_same]
      unfold setAt
      split
      · simp only [dval, ldexp]; rw [mul_assoc, ← zadd]; congr 2; ring
      · rfl

theorem set_col (n : Nat) (m : MatPE) (j i : Nat) (a : ℝ × ℤ) (j' r : Nat) (h : j' ≠ j) :
    (m.set n j i a).get j' r = m.get j' r := by
  unfold MatPE.set
  split
  · exact get_put_ne _ _ _ _ h
  · simp only []
    split <;> exact get_put_ne _ _ _ _ h

/-- `setcol` from numbers: rows in the range hold the numbers, the others are multiplied by a power
of two. -/
theorem setcolV_get (e0 : ℤ) (m : MatPE) (j : Nat) (v : Nat → ℝ × ℤ) (beg l : Nat) (i : Nat)
    (h : beg ≤ i) (hi : i < beg + l) : (m.setcolV e0 j v beg l).get j i = dval (v i) := by
  unfold MatPE.setcolV
  rw [if_neg (by omega)]
  simp only []
  rw [get_put_same, if_pos ⟨h, hi⟩]
  simp only [dval, ldexp]
  rw [mul_assoc, ← zadd]; congr 2; ring

theorem setcolV_out (e0 : ℤ) (m : MatPE) (j : Nat) (v : Nat → ℝ × ℤ) (beg l : Nat) (hl : 0 < l)
    (i : Nat) (h : ¬ (beg ≤ i ∧ i < beg + l)) : (m.setcolV e0 j v beg l).get j i =
      m.get j i * 2 ^ (maxExp (fun i => (v i).2) e0 beg l - m.exp j) := by
  unfold MatPE.setcolV
  rw [if_neg (by omega)]
  simp only []
  rw [get_put_same, if_neg h, get_def, mul_assoc, ← zadd]; congr 2; ring

theorem setcolV_col (e0 : ℤ) (m : MatPE) (j : Nat) (v : Nat → ℝ × ℤ) (beg l : Nat) (j' r : Nat)
    (h : j' ≠ j) : (m.setcolV e0 j v beg l).get j' r = m.get j' r := by
  unfold MatPE.setcolV
  split
  · rfl
  · exact get_put_ne _ _ _ _ h

theorem setcolW_get (m : MatPE) (j : Nat) (w : Col) (l i : Nat) (hi : i < l) :
    (m.setcolW j w l).get j i = w.col i * 2 ^ w.exp := by
  unfold MatPE.setcolW
  rw [if_neg (by omega), get_put_same, if_pos hi]

theorem setcolW_col (m : MatPE) (j : Nat) (w : Col) (l j' r : Nat) (h : j' ≠ j) :
    (m.setcolW j w l).get j' r = m.get j' r := by
  unfold MatPE.setcolW
  split
  · rfl
  · exact get_put_ne _ _ _ _ h

theorem colswap_get (m : MatPE) (j k j' r : Nat) : (m.colswap j k).get j' r =
    if j' = j then m.get k r else if j' = k then m.get j r else m.get j' r := by
  simp only [MatPE.colswap, MatPE.get, MatPE.getRaw, HPLLL.colswap, setAt]
  split
  · rfl
  · split <;> rfl

theorem subcol_get (m : MatPE) (j k l i : Nat) (hi : i < l) :
    (m.subcol j k l).get j i = m.get j i - m.get k i := by
  unfold MatPE.subcol
  rw [if_neg (by omega)]
  simp only []
  split
  · rw [get_put_same, if_pos hi, get_def, get_def, sub_mul, ldexp, mul_assoc, ← zadd]; congr 3; ring
  · rw [get_put_same, if_pos hi, get_def, get_def, sub_mul, ldexp, mul_assoc, ← zadd]; congr 3; ring

theorem subcol_col (m : MatPE) (j k l j' r : Nat) (h : j' ≠ j) :
    (m.subcol j k l).get j' r = m.get j' r := by
  unfold MatPE.subcol
  split
  · rfl
  · simp only []
    split <;> exact get_put_ne _ _ _ _ h

/-- Rows outside the range of `subcol` are multiplied by a power of two. -/
theorem subcol_out (m : MatPE) (j k l i : Nat) (hl : 0 < l) (hi : l ≤ i) :
    (m.subcol j k l).get j i = m.get j i * 2 ^ (max (m.exp j) (m.exp k) - m.exp j) := by
  unfold MatPE.subcol
  rw [if_neg (by omega)]
  simp only []
  split
  · rw [get_put_same, if_neg (by omega), get_def, mul_assoc, ← zadd]; congr 2; omega
  · rw [get_put_same, if_neg (by omega), get_def, mul_assoc, ← zadd]; congr 2; omega

theorem addcol_get (m : MatPE) (j k l i : Nat) (hi : i < l) :
    (m.addcol j k l).get j i = m.get j i + m.get k i := by
  unfold MatPE.addcol
  rw [if_neg (by omega)]
  simp only []
  split
  · rename_i h0
    rw [get_put_same, if_pos hi, get_def, get_def, add_mul, show m.exp k = m.exp j by omega]
  · split
    · rw [get_put_same, if_pos hi, get_def, get_def, add_mul, ldexp, mul_assoc, ← zadd]; congr 3; ring
    · rw [get_put_same, if_pos hi, get_def, get_def, add_mul, ldexp, mul_assoc, ← zadd]; congr 3; ring

theorem addcol_col (m : MatPE) (j k l j' r : Nat) (h : j' ≠ j) :
    (m.addcol j k l).get j' r = m.get j' r := by
  unfold MatPE.addcol
  split
  · rfl
  · simp only []
    split
    · exact get_put_ne _ _ _ _ h
    · split <;> exact get_put_ne _ _ _ _ h

theorem addcol_out (m : MatPE) (j k l i : Nat) (hl : 0 < l) (hi : l ≤ i) :
    (m.addcol j k l).get j i = m.get j i * 2 ^ (max (m.exp j) (m.exp k) - m.exp j) := by
  unfold MatPE.addcol
  rw [if_neg (by omega)]
  simp only []
  split
  · rw [get_put_same, if_neg (by omega), get_def, mul_assoc, ← zadd]; congr 2; omega
  · split
    · rw [get_put_same, if_neg (by omega), get_def, mul_assoc, ← zadd]; congr 2; omega
    · rw [get_put_same, if_neg (by omega), get_def, mul_assoc, ← zadd]; congr 2; omega

theorem submulcol_get (m : MatPE) (j k : Nat) (a : ℝ × ℤ) (l i : Nat) (hi : i < l) :
    (m.submulcol j k a l).get j i = m.get j i - dval a * m.get k i := by
  unfold MatPE.submulcol
  rw [if_neg (by omega)]
  simp only []
  split
  · rw [get_put_same, if_pos hi, get_def, get_def, sub_mul]
    simp only [dval, ldexp]
    have : (2 : ℝ) ^ (-(m.exp j - (a.2 + m.exp k))) * 2 ^ m.exp j = 2 ^ a.2 * 2 ^ m.exp k := by
      rw [← zadd, ← zadd]; congr 1; ring
    linear_combination (- a.1 * m.M k i) * this
  · rw [get_put_same, if_pos hi, get_def, get_def, sub_mul]
    simp only [dval, ldexp]
    have : (2 : ℝ) ^ (m.exp j - (a.2 + m.exp k)) * 2 ^ (a.2 + m.exp k) = 2 ^ m.exp j := by
      rw [← zadd]; congr 1; ring
    linear_combination (m.M j i) * this - a.1 * m.M k i * zadd a.2 (m.exp k)

theorem submulcol_col (m : MatPE) (j k : Nat) (a : ℝ × ℤ) (l j' r : Nat) (h : j' ≠ j) :
    (m.submulcol j k a l).get j' r = m.get j' r := by
  unfold MatPE.submulcol
  split
  · rfl
  · simp only []
    split <;> exact get_put_ne _ _ _ _ h

theorem submulcol_out (m : MatPE) (j k : Nat) (a : ℝ × ℤ) (l i : Nat) (hl : 0 < l) (hi : l ≤ i) :
    (m.submulcol j k a l).get j i = m.get j i * 2 ^ (max (m.exp j) (a.2 + m.exp k) - m.exp j) := by
  unfold MatPE.submulcol
  rw [if_neg (by omega)]
  simp only []
  split
  · rw [get_put_same, if_neg (by omega), get_def, mul_assoc, ← zadd]; congr 2; omega
  · rw [get_put_same, if_neg (by omega), get_def, mul_assoc, ← zadd]; congr 2; omega

theorem fmasub_get (m : MatPE) (j k : Nat) (w z : Col) (a : ℝ × ℤ) (l i : Nat) (h : k ≤ i)
    (hi : i < k + l) : (m.fmasub j k w z a l).get j i =
      w.col (i - k) * 2 ^ w.exp - z.col (i - k) * 2 ^ z.exp * dval a := by
  unfold MatPE.fmasub
  rw [if_neg (by omega)]
  split
  · rename_i h0
    rw [get_put_same, if_pos ⟨h, hi⟩]
    simp only [dval, ldexp, h0]; ring
  · simp only []
    split
    · rw [get_put_same, if_pos ⟨h, hi⟩]
      simp only [dval, ldexp]
      have : (2 : ℝ) ^ (-(w.exp - (a.2 + z.exp))) * 2 ^ w.exp = 2 ^ a.2 * 2 ^ z.exp := by
        rw [← zadd, ← zadd]; congr 1; ring
      linear_combination (- a.1 * z.col (i - k)) * this
    · rw [get_put_same, if_pos ⟨h, hi⟩]
      simp only [dval, ldexp]
      have : (2 : ℝ) ^ (w.exp - (a.2 + z.exp)) * 2 ^ (a.2 + z.exp) = 2 ^ w.exp := by
        rw [← zadd]; congr 1; ring
      linear_combination (w.col (i - k)) * this - a.1 * z.col (i - k) * zadd a.2 z.exp

theorem fmasub_col (m : MatPE) (j k : Nat) (w z : Col) (a : ℝ × ℤ) (l j' r : Nat) (h : j' ≠ j) :
    (m.fmasub j k w z a l).get j' r = m.get j' r := by
  unfold MatPE.fmasub
  split
  · rfl
  · split
    · exact get_put_ne _ _ _ _ h
    · simp only []
      split <;> exact get_put_ne _ _ _ _ h

/-- Rows above the range of `fmasub` are kept if the target had the exponent of `w`; in general they
are multiplied by a power of two. -/
theorem fmasub_above (m : MatPE) (j k : Nat) (w z : Col) (a : ℝ × ℤ) (l i : Nat) (hl : 0 < l)
    (hi : i < k) :
    (m.fmasub j k w z a l).get j i = m.get j i * 2 ^ (w.exp - m.exp j) := by
  unfold MatPE.fmasub
  rw [if_neg (by omega)]
  split
  · rw [get_put_same, if_neg (by omega), get_def, mul_assoc, ← zadd]; congr 2; ring
  · simp only []
    split
    · rw [get_put_same, if_neg (by omega), get_def, mul_assoc, ← zadd]; congr 2; ring
    · rw [get_put_same, if_neg (by omega), if_pos hi, get_def, mul_assoc, mul_comm (2 ^ _), mul_assoc, mul_assoc,
        ← zadd, ← zadd]
      have : a.2 + z.exp + (w.exp - (a.2 + z.exp)) = m.exp j + (w.exp - m.exp j) := by ring
      rw [this]

theorem div_get (m : MatPE) (j k : Nat) (w : Col) (a : ℝ × ℤ) (l i : Nat) (h : k ≤ i)
    (hi : i < k + l) : (m.div j k w a l).get j i = w.col (i - k) * 2 ^ w.exp / dval a := by
  unfold MatPE.div
  rw [if_neg (by omega), get_put_same, if_pos ⟨h, hi⟩, zsub]
  simp only [dval, ldexp]
  rw [div_mul_eq_div_div, mul_div_assoc', mul_one_div, div_mul_eq_mul_div]

theorem div_col (m : MatPE) (j k : Nat) (w : Col) (a : ℝ × ℤ) (l j' r : Nat) (h : j' ≠ j) :
    (m.div j k w a l).get j' r = m.get j' r := by
  unfold MatPE.div
  split
  · rfl
  · exact get_put_ne _ _ _ _ h

theorem div_out (m : MatPE) (j k : Nat) (w : Col) (a : ℝ × ℤ) (l i : Nat) (hl : 0 < l)
    (h : ¬ (k ≤ i ∧ i < k + l)) :
    (m.div j k w a l).get j i = m.get j i * 2 ^ (w.exp - a.2 - m.exp j) := by
  unfold MatPE.div
  rw [if_neg (by omega), get_put_same, if_neg h, get_def, mul_assoc, ← zadd]; congr 2; ring

/-- The values of a column. -/
noncomputable def Col.val (w : Col) (i : Nat) : ℝ := w.col i * 2 ^ w.exp

theorem foldl_scale (f g : Nat → ℝ) (s : ℝ) (hfg : ∀ i, f i * s = g i) (l : List Nat) (a b : ℝ)
    (hab : a * s = b) : (l.foldl (fun acc i => acc + f i) a) * s = l.foldl (fun acc i => acc + g i) b := by
  induction l generalizing a b with
  | nil => exact hab
  | cons x l ih => exact ih _ _ (by rw [add_mul, hab, hfg])

theorem dotSig_val (v w : Col) (l : Nat) :
    dotSig v.col w.col l * 2 ^ (v.exp + w.exp) =
      (List.range (l - 1)).foldl (fun acc i => acc + v.val (i + 1) * w.val (i + 1)) (v.val 0 * w.val 0) := by
  unfold dotSig
  refine foldl_scale (fun i => v.col (i + 1) * w.col (i + 1)) (fun i => v.val (i + 1) * w.val (i + 1))
    _ ?_ _ _ _ ?_
  · intro i; simp only [Col.val, zadd]; ring
  · simp only [Col.val, zadd]; ring

theorem scalarprod_val {o : FPOps ℝ} (ho : Exact o) (v w : Col) (l : Nat) (x : ℝ) (hl : 0 < l) :
    scalarprod v w l x = HPLLL.scalarprod o v.val w.val l := by
  unfold scalarprod HPLLL.scalarprod
  rw [if_neg (by omega)]
  simp only [dval, ldexp, ho.addmul, ho.mul]
  rw [← dotSig_val]
  congr 1
  obtain ⟨l, rfl⟩ : ∃ m, l = m + 1 := ⟨l - 1, by omega⟩
  unfold dotSig
  rw [List.range_succ_eq_map, List.foldl_cons, zero_add, List.foldl_map]
  rfl

theorem fpNormSq_val {o : FPOps ℝ} (ho : Exact o) (v : Col) (l : Nat) (x : ℝ) (hl : 0 < l) :
    fpNormSq v l x = HPLLL.fpNormSq o v.val l := by
  unfold fpNormSq HPLLL.fpNormSq
  rw [if_neg (by omega)]
  simp only [dval, ldexp, ho.addmul, ho.mul]
  rw [two_mul]
  exact dotSig_val v v l

theorem fpNorm_val {o : FPOps ℝ} (ho : Exact o) (v : Col) (l : Nat) (x : ℝ) (hl : 0 < l) :
    fpNorm v l x = HPLLL.fpNorm o v.val l := by
  unfold fpNorm HPLLL.fpNorm
  rw [if_neg (by omega), ho.sqrt, ← fpNormSq_val ho v l 0 hl]
  unfold fpNormSq
  rw [if_neg (by omega)]

/-- Rows of the copy of the basis outside the profile are zero, the others are equal. -/
def zeroRel : Bool → ℝ → ℝ → Prop
  | true, a, b => a = 0 ∧ b = 0
  | false, a, b => a = b

/-- `MatrixPE` is a lawful matrix class. -/
noncomputable def lawful {o : FPOps ℝ} (ho : Exact o) (n : Nat) (e0 : ℤ) (rep : ℝ → ℝ × ℤ)
    (hrep : ∀ x, dval (rep x) = x) : (cont n e0 rep).Lawful o n zeroRel where
  e_eq := fun a b h => h.1.trans h.2.symm
  e_weak := fun a b h => h.1.trans h.2.symm
  e_refl := fun a => rfl
  wv := Col.val
  gv := dval
  getcol := fun _ _ _ _ => rfl
  getRaw := fun _ _ _ => rfl
  set_same := fun m j i x hi => by
    show (m.set n j i (rep x)).get j i = x
    rw [set_get _ _ _ _ _ _ hi, if_pos rfl, hrep]
  set_row := fun m j i x r hr h => by
    show (m.set n j i (rep x)).get j r = m.get j r
    rw [set_get _ _ _ _ _ _ hr, if_neg h]
  set_col := fun m j i x j' r h => set_col _ _ _ _ _ _ _ h
  setcolZ_in := fun m j b l i hi => by
    show (m.setcolV e0 j (fun i => rep (b i)) 0 l).get j i = _
    rw [setcolV_get _ _ _ _ _ _ _ (by omega) (by omega), hrep, ho.ofZ]
  setcolZ_out := fun m j b l i x hi h => by
    have h1 : m.get j i = 0 := h.1
    refine ⟨?_, h.2⟩
    show (m.setcolV e0 j (fun i => rep (b i)) 0 l).get j i = _
    rcases Nat.eq_zero_or_pos l with h0 | hl
    · unfold MatPE.setcolV; rw [if_pos h0]; exact h1
    · rw [setcolV_out _ _ _ _ _ _ hl _ (by omega), h1, zero_mul]
  setcolZ_col := fun m j b l j' r h => setcolV_col _ _ _ _ _ _ _ _ h
  setcolW_in := fun m j w l i hi => setcolW_get _ _ _ _ _ hi
  setcolW_col := fun m j w l j' r h => setcolW_col _ _ _ _ _ _ h
  setcolV_in := fun m j v l i hi => setcolV_get _ _ _ _ _ _ _ (by omega) (by omega)
  setcolV_col := fun m j v l j' r h => setcolV_col _ _ _ _ _ _ _ _ h
  fmasub_in := fun m j k w z a l i h hi => by
    show (m.fmasub j k w z (rep a) l).get j i = _
    rw [fmasub_get _ _ _ _ _ _ _ _ h hi, hrep, ho.submul]; rfl
  fmasub_col := fun m j k w z a l j' r h => fmasub_col _ _ _ _ _ _ _ _ _ h
  div_in := fun m j k w a l i h hi => by
    show (m.div j k w (rep a) l).get j i = _
    rw [div_get _ _ _ _ _ _ _ h hi, hrep, ho.div]; rfl
  div_col := fun m j k w a l j' r h => div_col _ _ _ _ _ _ _ _ h
  colswap := fun m j k j' r => colswap_get _ _ _ _ _
  addcol_in := fun m j k l i _ hi => by
    show (m.addcol j k l).get j i = _
    rw [addcol_get _ _ _ _ _ hi, ho.add]; rfl
  addcol_col := fun m j k l j' r h => addcol_col _ _ _ _ _ _ h
  subcol_in := fun m j k l i _ hi => by
    show (m.subcol j k l).get j i = _
    rw [subcol_get _ _ _ _ _ hi, ho.sub]; rfl
  subcol_col := fun m j k l j' r h => subcol_col _ _ _ _ _ _ h
  submulcol_in := fun m j k a l i _ hi => by
    show (m.submulcol j k (rep a) l).get j i = _
    rw [submulcol_get _ _ _ _ _ _ hi, hrep, ho.submul]; rfl
  submulcol_col := fun m j k a l j' r h => submulcol_col _ _ _ _ _ _ _ h
  normSq := fun w l x hl => fpNormSq_val ho w l x hl
  norm := fun w l x hl => fpNorm_val ho w l x hl
  scalarprod := fun v w l x hl => scalarprod_val ho v w l x hl

end PE
end HPLLL
