import Verif.Proof.PHouseExact
import Verif.Props.Exact
import Verif.Model.Near
import Verif.Proof.Gen
/-!
# C78: parallel Householder factorisation

The threads of step `l` are interleaved arbitrarily (`Interleave`, entry by entry).
-/

namespace HPLLL.Props
open Spec Finset

variable {F : Type} (o : FPOps F)

/-- `T l` is a possible execution of the threads of step `l`, for every `l`. -/
def PhSchedule (n d S : ℕ) (T : ℕ → List (ℕ × PhAct)) : Prop :=
  ∀ l < S, Interleave (phThreads n (d / S) S l) (T l)

/-- **C78.** In any arithmetic, the columns of `R` and `V` computed by `phouseholder(S)` depend neither on the
schedule of the threads nor on the number of blocks: two executions with `S₁` and `S₂` blocks agree, bit for bit, on
all columns that both compute. -/
theorem C78_schedules (n d : ℕ) (B : Mat Int) (S₁ S₂ : ℕ) (h₁ : 0 < S₁) (h₂ : 0 < S₂)
    (T₁ T₂ : ℕ → List (ℕ × PhAct)) (hT₁ : PhSchedule n d S₁ T₁) (hT₂ : PhSchedule n d S₂ T₂) (s : PhSt F) :
    ∃ s₁ s₂, phouseholder o n d B S₁ T₁ s = some s₁ ∧ phouseholder o n d B S₂ T₂ s = some s₂ ∧
      ∀ c, c < S₁ * (d / S₁) → c < S₂ * (d / S₂) → s₁.R c = s₂.R c ∧ s₁.V c = s₂.V c := by
  obtain ⟨s1, e1, r1, v1⟩ := Ph.ph_seq o h₁ T₁ hT₁ s
  obtain ⟨s2, e2, r2, v2⟩ := Ph.ph_seq o h₂ T₂ hT₂ s
  refine ⟨s1, s2, e1, e2, fun c c1 c2 => ?_⟩
  rw [r1, r2, v1, v2]
  have k1 := Ph.seq_stable o n d B s (c + 1) (S₁ * (d / S₁) - (c + 1)) c (by omega)
  have k2 := Ph.seq_stable o n d B s (c + 1) (S₂ * (d / S₂) - (c + 1)) c (by omega)
  rw [show c + 1 + (S₁ * (d / S₁) - (c + 1)) = S₁ * (d / S₁) by omega] at k1
  rw [show c + 1 + (S₂ * (d / S₂) - (c + 1)) = S₂ * (d / S₂) by omega] at k2
  exact ⟨k1.1.trans k2.1.symm, k1.2.trans k2.2.symm⟩

/-- **C78, defect.** The last `d mod S` columns are not computed: they keep their previous contents. -/
theorem C78_missing_columns (n d : ℕ) (B : Mat Int) (S : ℕ) (hS : 0 < S) (T : ℕ → List (ℕ × PhAct))
    (hT : PhSchedule n d S T) (s : PhSt F) :
    ∃ s', phouseholder o n d B S T s = some s' ∧
      ∀ c, d - d % S ≤ c → s'.R c = s.R c ∧ s'.V c = s.V c := by
  obtain ⟨s1, e1, r1, v1⟩ := Ph.ph_seq o hS T hT s
  refine ⟨s1, e1, fun c hc => ?_⟩
  rw [r1, v1]
  have := Nat.div_add_mod d S
  exact Ph.seq_later o n d B s _ c (by omega)

/-- **C78, exact arithmetic.** If `S` divides `d` and the columns of the basis are independent, every execution of
`phouseholder(S)` computes the same `R` and `V` as `householder()`, hence (C12) a triangular `R` with
`RᵀR = BᵀB`. -/
theorem C78_householder {o : FPOps ℝ} (ho : Exact o) (s : Lat ℝ) (hA : FullColumnRank (toMatrix s.n s.d s.B))
    (hdn : s.d ≤ s.n) (S : ℕ) (hS : 0 < S) (hd : S ∣ s.d) (T : ℕ → List (ℕ × PhAct))
    (hT : PhSchedule s.n s.d S T) (loc : ℕ → ℝ) :
    ∃ s', phouseholder o s.n s.d s.B S T ⟨s.fp.R, s.fp.V, loc⟩ = some s' ∧
      s'.R = (s.householder o).fp.R ∧ s'.V = (s.householder o).fp.V ∧
      ∀ i < s.d, ∀ j < s.d, ∑ r ∈ range s.d, (if r ≤ i then s'.R i r else 0) * (if r ≤ j then s'.R j r else 0) =
        ∑ r ∈ range s.n, (s.B i r : ℝ) * s.B j r := by
  obtain ⟨s1, e1, r1, v1⟩ := Ph.ph_seq o hS T hT ⟨s.fp.R, s.fp.V, loc⟩
  rw [Nat.mul_div_cancel' hd] at r1 v1
  obtain ⟨a, b⟩ := Ph.seq_exact ho s.B s.fp ⟨s.fp.R, s.fp.V, loc⟩ rfl rfl hA hdn s.d (le_refl _)
  refine ⟨s1, e1, r1.trans a.symm, v1.trans b.symm, ?_⟩
  have hR : s1.R = (s.householder o).fp.R := r1.trans a.symm
  intro i hi j hj
  have := (C12_householder_QR ho 0 s hA hdn).2.2.1 i hi j hj
  rw [← this]
  refine sum_congr rfl fun r hr => ?_
  have hr' := mem_range.1 hr
  simp only [Lat.getR, hR, ho.zero]
  have e : r < min (s.householder o).n (s.householder o).d := by
    simp only [Lat.householder]; omega
  simp only [e, if_true]

/-- **C78, defect.** A column that is zero below the diagonal only gets `V(κ,κ) = 1`: the rest of the reflection is
what `V` contained before, and even with zeros there it is not a reflection.  For the basis (0,0), (3,4), `R` has the
second column (0, -4), of length 4 instead of 5; after a previous use of the object, another one. -/
theorem C78_zero_column :
    (phouseholder (nearOps 53) 2 2 (ofCols [[0, 0], [3, 4]]) 1 (fun _ => [])
        ⟨fun _ _ => 0, fun _ _ => 0, fun _ => 0⟩).map (fun s => (s.R 1 0, s.R 1 1)) = some (0, -4) ∧
    (phouseholder (nearOps 53) 2 2 (ofCols [[0, 0], [3, 4]]) 1 (fun _ => [])
        ⟨fun _ _ => 0, fun _ _ => 1, fun _ => 0⟩).map (fun s => (s.R 1 0, s.R 1 1)) = some (-4, 3) := by
  decide +kernel

/-- A schedule: the threads one after the other, for a 2 × 2 basis and two blocks of one column. -/
example : PhSchedule 2 2 2 (fun l => (phThreads 2 1 2 l).flatten) := by
  intro l hl
  have key : ∀ P : List (ℕ × PhAct), Interleave [P] P := by
    intro P
    induction P with
    | nil => exact .done _ (by simp)
    | cons a P ih => exact .step [] [] a P P ih
  have h2 : 2 / 2 = 1 := rfl
  rw [h2]
  rcases Nat.lt_or_ge l 1 with h | h
  · obtain rfl : l = 0 := by omega
    have : phThreads 2 1 2 0 = [phProg 2 1 0 1] := rfl
    simp only [this]
    simpa using key (phProg 2 1 0 1)
  · obtain rfl : l = 1 := by omega
    exact .done _ (by intro P hP; simp [phThreads] at hP)

/-- The hypotheses of `C78_householder` hold for the basis (3,4), (1,2). -/
example : ∃ s', phouseholder realOps 2 2 (ofCols [[3, 4], [1, 2]]) 1 (fun _ => [])
    ⟨fun _ _ => 7, fun _ _ => 7, fun _ => 7⟩ = some s' ∧
    (if 0 ≤ 0 then s'.R 0 0 else 0) * (if 0 ≤ 1 then s'.R 1 0 else 0) = (11 : ℝ) := by
  have hA : FullColumnRank (toMatrix 2 2 (ofCols [[3, 4], [1, 2]])) :=
    (fcr_iff_det _).2 (by simp [toMatrix, ofCols, Matrix.det_fin_two])
  obtain ⟨s', h1, -, -, h2⟩ := C78_householder realOps_exact.toExact
    (newLattice realOps 7 2 2 (ofCols [[3, 4], [1, 2]]) true 0 true 0) hA (le_refl _) 1 (by omega) (one_dvd _)
    (fun _ => []) (fun l hl => .done _ (by
      obtain rfl : l = 0 := by omega
      intro P hP; simp [phThreads] at hP)) (fun _ => 7)
  refine ⟨s', h1, ?_⟩
  have := h2 0 (by decide) 1 (by decide)
  have e1 : (newLattice realOps (7 : ℝ) 2 2 (ofCols [[3, 4], [1, 2]]) true 0 true 0).d = 2 := rfl
  have e2 : (newLattice realOps (7 : ℝ) 2 2 (ofCols [[3, 4], [1, 2]]) true 0 true 0).n = 2 := rfl
  have e3 : (newLattice realOps (7 : ℝ) 2 2 (ofCols [[3, 4], [1, 2]]) true 0 true 0).B =
    ofCols [[3, 4], [1, 2]] := rfl
  rw [e1, e2, e3, sum_range_succ, sum_range_succ, sum_range_zero, sum_range_succ, sum_range_succ,
    sum_range_zero] at this
  simp [ofCols] at this ⊢
  linarith

/-- An execution: columns (3,4), (1,2), two blocks. -/
example : (phouseholder (nearOps 53) 2 2 (ofCols [[3, 4], [1, 2]]) 2 (fun l => (phThreads 2 1 2 l).flatten)
      ⟨fun _ _ => 7, fun _ _ => 7, fun _ => 7⟩).map (fun s => decide (s.R 0 0 = -5 ∧ s.R 1 1 ≠ 7)) = some true := by
  decide +kernel

/-- With `S = 2` and three columns the last one is never computed. -/
example : (phouseholder (nearOps 53) 3 3 (ofCols [[3, 4, 0], [1, 2, 0], [0, 0, 1]]) 2
      (fun l => (phThreads 3 1 2 l).flatten)
      ⟨fun _ _ => 7, fun _ _ => 7, fun _ => 7⟩).map (fun s => s.R 2 2) = some 7 := by
  decide +kernel

end HPLLL.Props
