import Verif.Proof.Mach
import Mathlib.Tactic.Ring
/-! Two instances of `EntOK`: exact results, and results modulo `2^w`. -/

namespace HPLLL

variable {F : Type} {o : FPOps F} {c : Mch}

theorem Mch.wrap_of_inR (hw : 1 ≤ c.w) {z : Int} (h : c.inR z = true) : c.wrap z = z := by
  unfold Mch.inR at h
  unfold Mch.wrap
  simp only [Bool.and_eq_true, decide_eq_true_eq] at h
  have e : (2 : Int) ^ c.w = 2 * 2 ^ (c.w - 1) := by
    rw [← pow_succ']; congr 1; omega
  refine Int.bmod_eq_of_le_mul_two ?_ ?_
  · push_cast
    rw [e]; omega
  · push_cast
    rw [e]; omega

theorem Mch.inR_wrap (hw : 1 ≤ c.w) (z : Int) : c.inR (c.wrap z) = true := by
  unfold Mch.inR Mch.wrap
  have e : (2 : Int) ^ c.w = 2 * 2 ^ (c.w - 1) := by
    rw [← pow_succ']; congr 1; omega
  have e2 : ((2 ^ c.w : Nat) : Int) = 2 * 2 ^ (c.w - 1) := by push_cast; exact e
  have h1 := Int.le_bmod (x := z) (m := 2 ^ c.w) (by positivity)
  have h2 := Int.bmod_lt (x := z) (m := 2 ^ c.w) (by positivity)
  rw [e2] at h1 h2
  simp only [Bool.and_eq_true, decide_eq_true_eq]
  omega

theorem Mch.ok_strict (hs : c.strict = true) {z : Int} (h : c.ok z = true) : c.inR z = true := by
  unfold Mch.ok at h
  simpa [hs] using h

/-- With the strict rule, defined operations give exact results. -/
theorem EntOK.strict (hw : 1 ≤ c.w) (hs : c.strict = true) : EntOK o (mEntry o c) id := by
  intro fl x xz a b h
  have W : ∀ z, c.ok z = true → c.wrap z = z := fun z hz => Mch.wrap_of_inR hw (Mch.ok_strict hs hz)
  unfold mEntry multOf at *
  simp only [id] at h ⊢
  by_cases he : (o.getSiExp x).2 = 0
  · simp only [he, if_true] at h ⊢
    by_cases h1 : (o.getSiExp x).1 = 1
    · simp only [h1, if_true] at h ⊢
      rw [W _ h]; ring
    · simp only [h1, if_false] at h ⊢
      by_cases h2 : (o.getSiExp x).1 = -1
      · simp only [h2, if_true] at h ⊢
        rw [W _ h]; ring
      · simp only [h2, if_false] at h ⊢
        by_cases h3 : fl = true
        · simp only [h3, if_true, Bool.and_eq_true] at h ⊢
          rw [W _ h.1.2, W _ h.2]; ring
        · simp only [h3] at h ⊢
          simp only [Bool.false_eq_true, if_false, Bool.and_eq_true] at h ⊢
          rw [W _ h.1.2, W _ h.2]; ring
  · simp only [he, if_false] at h ⊢
    by_cases h3 : fl = true
    · simp only [h3, if_true, Bool.and_eq_true] at h ⊢
      rw [W _ h.1.1.2, W _ h.1.2, W _ h.2]; ring
    · simp only [h3] at h ⊢
      simp only [Bool.false_eq_true, if_false, Bool.and_eq_true] at h ⊢
      rw [W _ h.1.2, W _ h.2]; ring

theorem Mch.wrap_add_mul (c : Mch) (a b k : Int) :
    c.wrap (c.wrap a + c.wrap (k * c.wrap b)) = c.wrap (a + k * b) := by
  unfold Mch.wrap
  rw [Int.mul_bmod_bmod, Int.bmod_add_bmod, Int.add_bmod_bmod]

/-- Two's complement operations are the exact ones modulo `2^w`. -/
theorem EntOK.wrap (c : Mch) : EntOK o (mEntry o c) c.wrap := by
  intro fl x xz a b h
  clear h
  unfold mEntry multOf
  simp only []
  by_cases he : (o.getSiExp x).2 = 0
  · simp only [he, if_true]
    by_cases h1 : (o.getSiExp x).1 = 1
    · simp only [h1, if_true]
      unfold Mch.wrap
      rw [Int.sub_bmod_bmod, Int.bmod_sub_bmod]
      congr 1; ring
    · simp only [h1, if_false]
      by_cases h2 : (o.getSiExp x).1 = -1
      · simp only [h2, if_true]
        unfold Mch.wrap
        rw [Int.add_bmod_bmod, Int.bmod_add_bmod]
        congr 1; ring
      · simp only [h2, if_false]
        by_cases h3 : fl = true
        · simp only [h3, if_true]
          rw [mul_comm, Mch.wrap_add_mul]
        · simp only [h3]
          simp only [Bool.false_eq_true, if_false]
          unfold Mch.wrap
          rw [Int.mul_bmod_bmod, Int.sub_bmod_bmod, Int.bmod_sub_bmod]
          congr 1; ring
  · simp only [he, if_false]
    by_cases h3 : fl = true
    · simp only [h3, if_true]
      unfold Mch.wrap
      rw [Int.bmod_mul_bmod, mul_assoc, Int.bmod_mul_bmod, Int.add_bmod_bmod, Int.bmod_add_bmod]
      congr 1; ring
    · simp only [h3]
      simp only [Bool.false_eq_true, if_false]
      unfold Mch.wrap
      rw [Int.mul_bmod_bmod, Int.sub_bmod_bmod, Int.bmod_sub_bmod]
      congr 1; ring

theorem FPOps.via_id : o.via id = o := rfl
theorem Lat.fmap_id (s : Lat F) : s.fmap id = s := rfl

end HPLLL
