import Verif.Spec.Int128
import Verif.Proof.Trunc
import Mathlib.Data.Int.ModEq
/-! The 128 bit operations against the unbounded ones. -/

namespace HPLLL
open Spec

theorem wrap128_modEq (x : Int) : wrap128 x ≡ x [ZMOD 2 ^ 128] := by
  obtain ⟨k, h⟩ := wrap128_mod x
  rw [h]
  exact Int.modEq_iff_dvd.2 ⟨-k, by ring⟩

theorem wrap128_congr {x y : Int} (h : x ≡ y [ZMOD 2 ^ 128]) : wrap128 x = wrap128 y := by
  unfold wrap128 Int.bmod
  have e : x % ((2 ^ 128 : ℕ) : ℤ) = y % ((2 ^ 128 : ℕ) : ℤ) := by
    rw [show (((2 : ℕ) ^ 128 : ℕ) : ℤ) = 2 ^ 128 by norm_num]
    exact h
  simp only [e]

theorem wrap128_wrap (x : Int) : wrap128 (wrap128 x) = wrap128 x := wrap128_congr (wrap128_modEq x)

theorem inRange_wrap (x : Int) : InRange 127 (wrap128 x) := wrap128_range x

theorem Spec.InRange.wrap {x : Int} (h : InRange 127 x) : wrap128 x = x := wrap128_of_range h.1 h.2

theorem Spec.InRange.getSi {x : Int} (h : InRange 63 x) : getSi x = x := getSi_of_range h.1 h.2

theorem Spec.InRange.wide {x : Int} (h : InRange 63 x) : InRange 127 x := by
  obtain ⟨a, b⟩ := h
  constructor
  · exact le_trans (by norm_num) a
  · exact lt_of_lt_of_le b (by norm_num)

/-- Ring operations commute with the reduction. -/
theorem ring_val (i : Ins128) (hi : Ring i) (r r' : Nat → Int) (h : ∀ k, r k ≡ r' k [ZMOD 2 ^ 128])
    (hr : ∀ k, InRange 127 (r k)) :
    i.val r ≡ meant r' i [ZMOD 2 ^ 128] ∧ InRange 127 (i.val r) := by
  cases i with
  | setSi d b => exact ⟨Int.ModEq.refl _, InRange.wide hi⟩
  | setMpz d a =>
    have h1 : InRange 63 a := hi
    refine ⟨?_, ?_⟩
    · show getSi a ≡ a [ZMOD 2 ^ 128]
      rw [h1.getSi]
    · show InRange 127 (getSi a)
      rw [h1.getSi]; exact h1.wide
  | randb d a =>
    have h1 : InRange 63 a := hi
    refine ⟨?_, ?_⟩
    · show getSi a ≡ a [ZMOD 2 ^ 128]
      rw [h1.getSi]
    · show InRange 127 (getSi a)
      rw [h1.getSi]; exact h1.wide
  | copy d x => exact ⟨h x, hr x⟩
  | add d x y => exact ⟨(wrap128_modEq _).trans ((h x).add (h y)), inRange_wrap _⟩
  | sub d x y => exact ⟨(wrap128_modEq _).trans ((h x).sub (h y)), inRange_wrap _⟩
  | neg d x => exact ⟨(wrap128_modEq _).trans (h x).neg, inRange_wrap _⟩
  | mul d x y => exact ⟨(wrap128_modEq _).trans ((h x).mul (h y)), inRange_wrap _⟩
  | mulSi d x b => exact ⟨(wrap128_modEq _).trans ((h x).mul_right _), inRange_wrap _⟩
  | mul2si d x b =>
    have h1 : 0 ≤ b := hi
    simp only [Ins128.val, meant, mul2si128, ge_iff_le, h1, if_true]
    exact ⟨(wrap128_modEq _).trans ((h x).mul_right _), inRange_wrap _⟩
  | addmul d x y =>
    exact ⟨(wrap128_modEq _).trans ((h d).add ((wrap128_modEq _).trans ((h x).mul (h y)))), inRange_wrap _⟩
  | addmulSi d x b =>
    exact ⟨(wrap128_modEq _).trans ((h d).add ((wrap128_modEq _).trans ((h x).mul_right _))), inRange_wrap _⟩
  | submul d x y =>
    exact ⟨(wrap128_modEq _).trans ((h d).sub ((wrap128_modEq _).trans ((h x).mul (h y)))), inRange_wrap _⟩
  | abs d x => exact hi.elim

theorem ring_run (p : List Ins128) : ∀ (r r' : Nat → Int), (∀ i ∈ p, Ring i) →
    (∀ k, r k ≡ r' k [ZMOD 2 ^ 128]) → (∀ k, InRange 127 (r k)) →
    ∀ k, run128 p r k ≡ runZ p r' k [ZMOD 2 ^ 128] ∧ InRange 127 (run128 p r k) := by
  induction p with
  | nil => intro r r' _ h hr k; exact ⟨h k, hr k⟩
  | cons i p ih =>
    intro r r' hp h hr
    obtain ⟨a, b⟩ := ring_val i (hp i (by simp)) r r' h hr
    refine ih _ _ (fun j hj => hp j (by simp [hj])) (fun k => ?_) fun k => ?_
    · show setAt r i.dest (i.val r) k ≡ if k = i.dest then meant r' i else r' k [ZMOD 2 ^ 128]
      unfold setAt
      split
      · exact a
      · exact h k
    · show InRange 127 (setAt r i.dest (i.val r) k)
      unfold setAt
      split
      · exact b
      · exact hr k

/-- One operation without overflow. -/
theorem val_exact (i : Ins128) (r : Nat → Int)
    (h : InRange (if Narrow i then 63 else 127) (meant r i)) : i.val r = meant r i := by
  have two : ∀ a b : Int, InRange 127 (a + b) → wrap128 (a + wrap128 b) = a + b := fun a b h =>
    (wrap128_congr ((Int.ModEq.refl a).add (wrap128_modEq b))).trans h.wrap
  cases i with
  | setSi d b => rfl
  | setMpz d a => exact InRange.getSi h
  | randb d a => exact InRange.getSi h
  | copy d x => rfl
  | add d x y => exact InRange.wrap h
  | sub d x y => exact InRange.wrap h
  | neg d x => exact InRange.wrap h
  | mul d x y => exact InRange.wrap h
  | mulSi d x b => exact InRange.wrap h
  | mul2si d x b =>
    simp only [Ins128.val, meant, mul2si128, ge_iff_le, Narrow] at h ⊢
    split
    · rename_i h1; rw [if_pos h1] at h; exact InRange.wrap h
    · rfl
  | addmul d x y => exact two _ _ h
  | addmulSi d x b => exact two _ _ h
  | submul d x y =>
    exact (wrap128_congr ((Int.ModEq.refl _).sub (wrap128_modEq _))).trans (InRange.wrap h)
  | abs d x =>
    simp only [Ins128.val, meant, abs128, ge_iff_le, Narrow] at h ⊢
    split
    · rename_i h1; exact (abs_of_nonneg h1).symm
    · rename_i h1
      rw [abs_of_neg (by omega)] at h ⊢
      exact InRange.wrap h

theorem exact_run (p : List Ins128) : ∀ r, NoOverflow p r → run128 p r = runZ p r := by
  induction p with
  | nil => intro r _; rfl
  | cons i p ih =>
    intro r h
    have e := val_exact i r h.1
    have e2 : i.run r = fun k => if k = i.dest then meant r i else r k := by
      unfold Ins128.run setAt; rw [e]
    show run128 p (i.run r) = _
    rw [e2]
    exact ih _ h.2

end HPLLL
