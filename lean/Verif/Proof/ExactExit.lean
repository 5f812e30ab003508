import Verif.Proof.GSLink
import Mathlib.Algebra.Order.BigOperators.Group.Finset
/-! The main loop in exact arithmetic: outcome, swap bound, termination. -/

namespace HPLLL
open Spec Finset

variable {o : FPOps ℝ}

/-- Product of the Gram determinants of the first `k` columns, `k < d`. -/
def pot (n d : ℕ) (B : Mat Int) : ℤ := ∏ k ∈ range d, gd n B k

theorem pot_pos {n d : ℕ} {str : ℕ → ℤ} {B : Mat Int} (hg : Geo n d str B) : 0 < pot n d B :=
  prod_pos fun k hk => hg.rank k (mem_range.mp hk).le

theorem pot_up {n d : ℕ} {B B' : Mat Int} (h : ∀ k, gd n B' k = gd n B k) :
    pot n d B' = pot n d B := prod_congr rfl fun k _ => h k

theorem pot_down {n d κ : ℕ} {B B' : Mat Int} {δ : ℝ} (hκ : κ < d)
    (hp : ∀ k ≤ d, 0 < gd n B k)
    (h : ∀ k, k ≠ κ → gd n B' k = gd n B k) (h2 : (gd n B' κ : ℝ) < δ * gd n B κ) :
    (pot n d B' : ℝ) < δ * pot n d B := by
  unfold pot
  push_cast
  rw [← mul_prod_erase (range d) (fun k => (gd n B' k : ℝ)) (mem_range.mpr hκ),
    ← mul_prod_erase (range d) (fun k => (gd n B k : ℝ)) (mem_range.mpr hκ), ← mul_assoc]
  have e : ∏ k ∈ (range d).erase κ, (gd n B' k : ℝ) = ∏ k ∈ (range d).erase κ, (gd n B k : ℝ) :=
    prod_congr rfl fun k hk => by rw [h k (ne_of_mem_erase hk)]
  rw [e]
  refine mul_lt_mul_of_pos_right h2 ?_
  refine prod_pos fun k hk => ?_
  exact_mod_cast hp k (mem_range.mp (mem_of_mem_erase hk)).le

/-- What the exit of the main loop guarantees in exact arithmetic. -/
structure ExExit (n d : ℕ) (A : Mat Int) (track : Prop) (δ : ℝ) (h : HState ℝ) (st : ℤ)
    (s' : Lat ℝ) : Prop where
  fail : st = -1 → ¬ δ ≤ 1
  done : st = 0 → s'.nblov < s'.nblovMax → ∃ h', ExInv n d A track δ h' ∧ h'.s = s' ∧ d ≤ h'.kappa
  swaps : st = 0 → ∃ w, s'.nbswaps = h.s.nbswaps + w ∧
    (pot n d s'.B : ℝ) ≤ δ ^ w * pot n d h.s.B ∧ 0 < pot n d s'.B

theorem ExInv.loop (ho : Exact o) {n d : ℕ} {A : Mat Int} {track : Prop} {δ : ℝ}
    (hA : FullColumnRank (toMatrix n d A)) : ∀ (fuel : ℕ) (h : HState ℝ), ExInv n d A track δ h →
    h.s.kappaMax = d → ∀ st s', hlllLoop o δ fuel h = some (st, s') → 
    ExExit n d A track δ h st s' := by
  intro fuel
  induction fuel with
  | zero => intro h _ _ st s' h2; simp [hlllLoop] at h2
  | succ fuel ih =>
    intro h hE hkm st s' hl
    simp only [hlllLoop] at hl
    split at hl
    · rename_i hc
      have hκd : h.kappa < d := by omega
      have hst := hE.step ho hA hκd (fuel + 1)
      cases hs : hlllStep o (fuel + 1) δ h with
      | diverge => rw [hs] at hl; simp at hl
      | fail s =>
        rw [hs] at hl hst
        simp only [Option.some.injEq, Prod.mk.injEq] at hl
        obtain ⟨rfl, rfl⟩ := hl
        exact ⟨fun _ => hst, fun h => by simp at h, fun h => by simp at h⟩
      | next h1 =>
        rw [hs] at hl hst
        obtain ⟨e1, e2, e3, e4⟩ := hst
        obtain ⟨f1, f2, f3⟩ := ih h1 e1 (by rw [e4.kappaMax, hkm]) st s' hl
        refine ⟨f1, f2, fun h0 => ?_⟩
        obtain ⟨w, w1, w2, w3⟩ := f3 h0
        have hg := hE.inv.geo hA
        have hg1 := e1.inv.geo hA
        rcases e2 with ⟨_, g2, g3⟩ | ⟨_, g2, g3, g4⟩
        · exact ⟨w, by omega, by rw [← pot_up g3]; exact w2, w3⟩
        · refine ⟨w + 1, by omega, ?_, w3⟩
          have hd := pot_down hκd hg.rank g3 g4
          have hp : (0 : ℝ) < pot n d h.s.B := by exact_mod_cast pot_pos hg
          have hp1 : (0 : ℝ) < pot n d h1.s.B := by exact_mod_cast pot_pos hg1
          have hδ : 0 < δ := by
            by_contra hn
            rw [not_lt] at hn
            have := mul_nonpos_of_nonpos_of_nonneg hn hp.le
            linarith
          refine w2.trans ?_
          rw [pow_succ, mul_assoc]
          exact mul_le_mul_of_nonneg_left hd.le (pow_pos hδ w).le
    · simp only [Option.some.injEq, Prod.mk.injEq] at hl
      obtain ⟨rfl, rfl⟩ := hl
      rename_i hc
      refine ⟨fun h => by simp at h, fun _ hb => ⟨h, hE, rfl, ?_⟩, fun _ => ⟨0, rfl, by simp, pot_pos (hE.inv.geo hA)⟩⟩
      rw [hkm] at hc
      by_contra hlt
      exact hc ⟨by omega, hb⟩

/-- Termination of the loop, with an explicit bound. -/
theorem ExInv.loop_term (ho : ExactTies o) {n d : ℕ} {A : Mat Int} {track : Prop} {δ : ℝ}
    (hδ : δ ≤ 1)
    (hA : FullColumnRank (toMatrix n d A)) : ∀ (fuel : ℕ) (h : HState ℝ), ExInv n d A track δ h →
    h.s.kappaMax = d → h.s.seysenFlag < 1 → 2 * pot n d h.s.B + (d - h.kappa) + 2 ≤ fuel →
    ∃ r, hlllLoop o δ fuel h = some r := by
  intro fuel
  induction fuel with
  | zero =>
    intro h hE hkm hf hb
    have := pot_pos (hE.inv.geo hA)
    have hk := hE.kd
    exfalso
    rcases Nat.lt_or_ge h.kappa (d + 2) with h1 | h1 <;> omega
  | succ fuel ih =>
    intro h hE hkm hf hb
    simp only [hlllLoop]
    split
    · rename_i hc
      have hκd : h.kappa < d := by omega
      have hg := hE.inv.geo hA
      have hp := pot_pos hg
      have hst := hE.step ho.toExact hA hκd (fuel + 1)
      have hne := hE.step_term ho hA hκd hf (fuel - 1)
      rw [show fuel - 1 + 2 = fuel + 1 by omega] at hne
      cases hs : hlllStep o (fuel + 1) δ h with
      | diverge => exact absurd hs hne
      | fail s => exact ⟨_, rfl⟩
      | next h1 =>
        rw [hs] at hst
        obtain ⟨e1, e2, e3, e4⟩ := hst
        refine ih h1 e1 (by rw [e4.kappaMax, hkm]) (by rw [e4.seysenFlag]; exact hf) ?_
        rcases e2 with ⟨g1, _, g3⟩ | ⟨g1, _, g3, g4⟩
        · rw [pot_up g3, g1]; push_cast at *; omega
        · have hd := pot_down hκd hg.rank g3 g4
          have hp : (0 : ℝ) < pot n d h.s.B := by exact_mod_cast hp
          have hlt : (pot n d h1.s.B : ℝ) < pot n d h.s.B := by nlinarith
          have hlt' : pot n d h1.s.B < pot n d h.s.B := by exact_mod_cast hlt
          have := hE.pos
          rw [g1]; push_cast at *; omega
    · exact ⟨_, rfl⟩

/-- Bound on the number of tests. -/
theorem ExInv.loop_nblov (ho : Exact o) {n d : ℕ} {A : Mat Int} {track : Prop} {δ : ℝ}
    (hδ : δ ≤ 1)
    (hA : FullColumnRank (toMatrix n d A)) : ∀ (fuel : ℕ) (h : HState ℝ), ExInv n d A track δ h →
    h.s.kappaMax = d → ∀ st s', hlllLoop o δ fuel h = some (st, s') →
    s'.nblov + 1 ≤ h.s.nblov + (2 * pot n d h.s.B + (d - h.kappa)) := by
  intro fuel
  induction fuel with
  | zero => intro h _ _ st s' h2; simp [hlllLoop] at h2
  | succ fuel ih =>
    intro h hE hkm st s' hl
    have hg := hE.inv.geo hA
    have hp := pot_pos hg
    have hk := hE.kd
    simp only [hlllLoop] at hl
    split at hl
    · rename_i hc
      have hκd : h.kappa < d := by omega
      have hst := hE.step ho hA hκd (fuel + 1)
      cases hs : hlllStep o (fuel + 1) δ h with
      | diverge => rw [hs] at hl; simp at hl
      | fail s => rw [hs] at hst; exact absurd hδ hst
      | next h1 =>
        rw [hs] at hl hst
        obtain ⟨e1, e2, e3, e4⟩ := hst
        have hih := ih h1 e1 (by rw [e4.kappaMax, hkm]) st s' hl
        rcases e2 with ⟨g1, _, g3⟩ | ⟨g1, _, g3, g4⟩
        · rw [pot_up g3, g1] at hih; push_cast at *; omega
        · have hd := pot_down hκd hg.rank g3 g4
          have hp : (0 : ℝ) < pot n d h.s.B := by exact_mod_cast hp
          have hlt : (pot n d h1.s.B : ℝ) < pot n d h.s.B := by nlinarith
          have hlt' : pot n d h1.s.B < pot n d h.s.B := by exact_mod_cast hlt
          have := hE.pos
          rw [g1] at hih; push_cast at *; omega
    · simp only [Option.some.injEq, Prod.mk.injEq] at hl
      obtain ⟨rfl, rfl⟩ := hl
      omega

/-- Gram matrix of the basis from the triangular factor. -/
theorem QRv.gram {n d : ℕ} {str : ℕ → ℤ} {B : Mat Int} {V R : Mat ℝ} (hdn : d ≤ n)
    (h : QRv n str B V R d) (i j : ℕ) (hi : i < d) (hj : j < d) :
    ∑ r ∈ range d, (if r ≤ i then R i r else 0) * (if r ≤ j then R j r else 0) =
      ∑ r ∈ range n, (B i r : ℝ) * (B j r : ℝ) := by
  have e := Ex.app_dot n V d h.vnorm (bv n B i) (bv n B j)
  have e2 : Ex.dot n (bv n B i) (bv n B j) = ∑ r ∈ range n, (B i r : ℝ) * (B j r : ℝ) := by
    unfold Ex.dot bv
    refine sum_congr rfl fun r hr => ?_
    rw [if_pos (mem_range.mp hr), if_pos (mem_range.mp hr)]
  rw [← e2, ← e]
  unfold Ex.dot
  rw [← Finset.sum_subset (range_mono hdn)]
  · refine sum_congr rfl fun r hr => ?_
    rw [h.app_eq i hi, h.app_eq j hj]
  · intro r _ hr
    rw [mem_range, not_lt] at hr
    rw [h.app_eq i hi, if_neg (by omega)]; ring

end HPLLL
