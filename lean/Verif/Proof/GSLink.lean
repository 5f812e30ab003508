import Verif.Spec.LLL
import Verif.Proof.ExactMain
/-! From the triangular factor to Gram–Schmidt quantities. -/

namespace HPLLL
open Spec Finset InnerProductSpace

/-- Coordinates of a vector, zero outside the `n` rows. -/
def ofE {n : ℕ} (v : EuclideanSpace ℝ (Fin n)) : ℕ → ℝ := fun r => if h : r < n then v ⟨r, h⟩ else 0

theorem inner_ofE {n : ℕ} (v w : EuclideanSpace ℝ (Fin n)) :
    inner ℝ v w = Ex.dot n (ofE v) (ofE w) := by
  rw [PiLp.inner_apply]
  unfold Ex.dot
  rw [← Fin.sum_univ_eq_sum_range (fun r => ofE v r * ofE w r) n]
  refine sum_congr rfl fun i _ => ?_
  simp only [ofE, i.2, dif_pos, Fin.eta]
  simp [mul_comm]

theorem normsq_ofE {n : ℕ} (v : EuclideanSpace ℝ (Fin n)) :
    ‖v‖ ^ 2 = Ex.dot n (ofE v) (ofE v) := by
  rw [← inner_ofE, real_inner_self_eq_norm_sq]

theorem ofE_colVec {n d : ℕ} (B : Mat Int) (j : Fin d) :
    ofE (colVec (toMatrix n d B) j) = bv n B j := by
  funext r
  simp only [ofE, bv, colVec, toMatrix, Matrix.of_apply]
  split <;> rfl

theorem ofE_sub {n : ℕ} (v w : EuclideanSpace ℝ (Fin n)) :
    ofE (v - w) = fun r => ofE v r + (-1) * ofE w r := by
  funext r; simp only [ofE]; split
  · simp [sub_eq_add_neg]
  · ring

theorem ofE_smul {n : ℕ} (c : ℝ) (w : EuclideanSpace ℝ (Fin n)) :
    ofE (c • w) = fun r => c * ofE w r := by
  funext r; simp only [ofE]; split
  · simp
  · ring

theorem ofE_add {n : ℕ} (v w : EuclideanSpace ℝ (Fin n)) :
    ofE (v + w) = fun r => ofE v r + ofE w r := by
  funext r; simp only [ofE]; split
  · simp
  · ring

theorem app_zero {n : ℕ} (V : ℕ → ℕ → ℝ) (k : ℕ) : Ex.app n V k (fun _ => 0) = fun _ => 0 := by
  have := Ex.app_smul n V k 0 (fun _ => 0)
  simpa using this

theorem app_ofE_sum {n : ℕ} {ι : Type*} (V : ℕ → ℕ → ℝ) (k : ℕ) (S : Finset ι)
    (f : ι → EuclideanSpace ℝ (Fin n)) (r : ℕ) :
    Ex.app n V k (ofE (∑ i ∈ S, f i)) r = ∑ i ∈ S, Ex.app n V k (ofE (f i)) r := by
  classical
  induction S using Finset.induction_on with
  | empty =>
    have : ofE (0 : EuclideanSpace ℝ (Fin n)) = fun _ => 0 := by
      funext r; simp [ofE]
    simp [this, app_zero]
  | insert a S ha ih =>
    rw [sum_insert ha, sum_insert ha, ofE_add, Ex.app_add]
    simp only [ih]

/-- The rotated Gram–Schmidt vectors are the diagonal entries. -/
theorem QRv.app_gs {n d : ℕ} {str : ℕ → ℤ} {B : Mat Int} {V R : Mat ℝ} (hdn : d ≤ n)
    (h : QRv n str B V R d) (i : Fin d) (r : ℕ) :
    Ex.app n V d (ofE (gs (toMatrix n d B) i)) r = if r = i then R i i else 0 := by
  induction i using WellFoundedLT.induction generalizing r with
  | ind i ih =>
    have hcoef : ∀ j : Fin d, j < i →
        inner ℝ (gs (toMatrix n d B) j) (colVec (toMatrix n d B) i) /
          (‖gs (toMatrix n d B) j‖ : ℝ) ^ 2 = R i j / R j j := by
      intro j hj
      have e1 : inner ℝ (gs (toMatrix n d B) j) (colVec (toMatrix n d B) i) = R j j * R i j := by
        rw [inner_ofE, ← Ex.app_dot n V d h.vnorm]
        unfold Ex.dot
        rw [sum_eq_single (j : ℕ)]
        · rw [ih j hj, if_pos rfl, ofE_colVec, h.app_eq i i.2, if_pos (by omega)]
        · intro b _ hb; rw [ih j hj, if_neg hb]; ring
        · intro hm; simp only [mem_range] at hm; omega
      have e2 : (‖gs (toMatrix n d B) j‖ : ℝ) ^ 2 = R j j * R j j := by
        rw [normsq_ofE, ← Ex.app_dot n V d h.vnorm]
        unfold Ex.dot
        rw [sum_eq_single (j : ℕ)]
        · rw [ih j hj, if_pos rfl]
        · intro b _ hb; rw [ih j hj, if_neg hb]; ring
        · intro hm; simp only [mem_range] at hm; omega
      rw [e1, e2]
      have := h.rdiag j j.2
      field_simp
    have hgs : gs (toMatrix n d B) i = colVec (toMatrix n d B) i -
        ∑ j ∈ Iio i, (R i j / R j j) • gs (toMatrix n d B) j := by
      have := gramSchmidt_def'' ℝ (colVec (toMatrix n d B)) i
      rw [eq_sub_iff_add_eq]
      conv_rhs => rw [this]
      unfold gs
      congr 1
      refine sum_congr rfl fun j hj => ?_
      have hj' := mem_Iio.mp hj
      have := hcoef j hj'
      unfold gs at this
      rw [← this]
      norm_cast
    rw [hgs, ofE_sub, Ex.app_add, Ex.app_smul]
    simp only []
    rw [app_ofE_sum, ofE_colVec, h.app_eq i i.2]
    have hsum : ∑ j ∈ Iio i, Ex.app n V d (ofE ((R i j / R j j) • gs (toMatrix n d B) j)) r =
        if r < (i : ℕ) then R i r else 0 := by
      have : ∀ j ∈ Iio i, Ex.app n V d (ofE ((R i j / R j j) • gs (toMatrix n d B) j)) r =
          if r = (j : ℕ) then R i r else 0 := by
        intro j hj
        have hj' := mem_Iio.mp hj
        rw [ofE_smul, Ex.app_smul]
        simp only []
        rw [ih j hj']
        split
        · rename_i hr; subst hr; have := h.rdiag j j.2; field_simp
        · ring
      rw [sum_congr rfl this]
      by_cases hr : r < (i : ℕ)
      · rw [if_pos hr, sum_eq_single (⟨r, by omega⟩ : Fin d)]
        · simp
        · intro b _ hb; rw [if_neg]; intro h; apply hb; ext; exact h.symm
        · intro hm; exfalso; apply hm; rw [mem_Iio, Fin.lt_def]; exact hr
      · rw [if_neg hr]
        refine sum_eq_zero fun j hj => ?_
        have hj' := mem_Iio.mp hj
        rw [if_neg]; intro h; rw [Fin.lt_def] at hj'; omega
    rw [hsum]
    by_cases h1 : r = (i : ℕ)
    · subst h1; simp
    · rw [if_neg h1]
      by_cases h2 : r < (i : ℕ)
      · rw [if_pos h2.le, if_pos h2]; ring
      · rw [if_neg (by omega), if_neg h2]; ring

theorem QRv.norm_gs {n d : ℕ} {str : ℕ → ℤ} {B : Mat Int} {V R : Mat ℝ} (hdn : d ≤ n)
    (h : QRv n str B V R d) (i : Fin d) : ‖gs (toMatrix n d B) i‖ ^ 2 = R i i * R i i := by
  rw [normsq_ofE, ← Ex.app_dot n V d h.vnorm]
  unfold Ex.dot
  rw [sum_eq_single (i : ℕ)]
  · rw [h.app_gs hdn, if_pos rfl]
  · intro b _ hb; rw [h.app_gs hdn, if_neg hb]; ring
  · intro hm; simp only [mem_range] at hm; omega

theorem QRv.mu_eq {n d : ℕ} {str : ℕ → ℤ} {B : Mat Int} {V R : Mat ℝ} (hdn : d ≤ n)
    (h : QRv n str B V R d) (i j : Fin d) (hj : j < i) :
    mu (toMatrix n d B) i j = R i j / R j j := by
  unfold mu
  rw [h.norm_gs hdn]
  have e1 : inner ℝ (gs (toMatrix n d B) j) (colVec (toMatrix n d B) i) = R j j * R i j := by
    rw [inner_ofE, ← Ex.app_dot n V d h.vnorm]
    unfold Ex.dot
    rw [sum_eq_single (j : ℕ)]
    · rw [h.app_gs hdn, if_pos rfl, ofE_colVec, h.app_eq i i.2, if_pos (by omega)]
    · intro b _ hb; rw [h.app_gs hdn, if_neg hb]; ring
    · intro hm; simp only [mem_range] at hm; omega
  rw [e1]
  have := h.rdiag j j.2
  field_simp

theorem QRv.reduced {n d : ℕ} {str : ℕ → ℤ} {B : Mat Int} {V R : Mat ℝ} {δ : ℝ} {size : Prop}
    (hdn : d ≤ n) (h : QRv n str B V R d) (hr : RedUpTo δ size d R) :
    (size → SizeReduced (toMatrix n d B)) ∧ LovaszCond δ (toMatrix n d B) := by
  constructor
  · intro hs i j hj
    have hj' : (j : ℕ) < i := hj
    rw [h.mu_eq hdn i j hj, abs_div, div_le_iff₀ (abs_pos.mpr (h.rdiag j j.2))]
    have := (hr i (by omega) i.2).1 hs j hj'
    linarith
  · intro i j hij
    have hj : j < i := by rw [Fin.lt_def]; omega
    rw [h.mu_eq hdn i j hj, h.norm_gs hdn, h.norm_gs hdn]
    have := (hr i (by omega) i.2).2
    rw [show (i : ℕ) - 1 = j by omega] at this
    have hne := h.rdiag j j.2
    have e : (R i j / R j j) ^ 2 * (R j j * R j j) = R i j * R i j := by field_simp
    rw [e]; linarith

end HPLLL
