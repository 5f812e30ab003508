import Verif.Proof.PHouse
import Verif.Proof.HhAll
/-! The parallel and the sequential Householder factorisations agree. -/

namespace HPLLL
open Spec Finset

namespace Ph

section
variable {F : Type} (o : FPOps F)

/-- The divisor of column `κ`. -/
def piv (n κ : ℕ) (x : ℕ → F) : F :=
  let nrm := fpNorm o (fun r => x (κ + r)) (n - κ)
  let s := if o.le o.zero (x κ) then nrm else o.neg nrm
  o.sqrt (o.mul s (o.add (x κ) s))

theorem hh_apply_fold (n κ : ℕ) (ks : List ℕ) (p : FPart F) :
    ks.foldl (fun p k => hhAllApply o n κ k p) p =
      { p with R := setCol p.R κ (refls o n p.V ks (p.R κ)) } := by
  induction ks generalizing p with
  | nil => simp only [List.foldl_nil, refls]; rw [setCol_self]
  | cons k ks ih =>
    have h : hhAllApply o n κ k p = { p with R := setCol p.R κ (reflC o n p.V k (p.R κ)) } := rfl
    rw [List.foldl_cons, ih, h]
    simp only [setCol_same, setCol_setCol]
    rfl

theorem hhCol_eq {n d : ℕ} {B : Mat Int} {κ : ℕ} (p : FPart F) (s : PhSt F) (hR : p.R = s.R) (hV : p.V = s.V)
    (h : o.lt o.zero (piv o n κ (refls o n s.V (List.range κ) (loadC o n (B κ) (s.R κ)))) = true) :
    (hhAllCol o n d B κ p).R = (seqCol o n d B κ s).R ∧ (hhAllCol o n d B κ p).V = (seqCol o n d B κ s).V := by
  rw [seqCol_eq]
  simp only [hhAllCol]
  have e : fsetcolZ o s.R κ (B κ) n = setCol s.R κ (loadC o n (B κ) (s.R κ)) := rfl
  rw [hh_apply_fold]
  simp only [hR, hV]
  rw [e]
  simp only [setCol_same, setCol_setCol]
  obtain ⟨x, hx⟩ : ∃ x, x = refls o n s.V (List.range κ) (loadC o n (B κ) (s.R κ)) := ⟨_, rfl⟩
  rw [← hx] at h ⊢
  simp only [householderV]
  refine ⟨?_, ?_⟩
  · funext j; by_cases hj : j = κ
    · subst hj
      rw [setCol_same, setCol_same]
      funext i
      have e' : fpNorm o (getcol (setCol s.R j x) j j) (n - j) = fpNorm o (fun r => x (j + r)) (n - j) := by
        unfold getcol; rw [setCol_same]
      simp only [finR, setEntry, setCol_same, setAt, e']
    · simp only [setCol_ne _ _ hj, setEntry]
  · funext j; by_cases hj : j = κ
    · subst hj
      simp only [setEntry, setCol_same, finV]
      have hp := h
      simp only [piv] at hp
      have e' : fpNorm o (getcol (setCol s.R j x) j j) (n - j) = fpNorm o (fun r => x (j + r)) (n - j) := by
        unfold getcol; rw [setCol_same]
      rw [e']
      rw [if_pos hp]
      generalize (if o.le o.zero (x j) = true then fpNorm o (fun r => x (j + r)) (n - j)
        else o.neg (fpNorm o (fun r => x (j + r)) (n - j))) = t1
      generalize (if o.le o.zero (x j) = true then o.neg (fpNorm o (fun r => x (j + r)) (n - j))
        else fpNorm o (fun r => x (j + r)) (n - j)) = t2
      funext i
      simp only [setAt, fdivcol, getcol, setCol_same]
      by_cases hi : i = j
      · simp [hi]
      · simp only [hi, if_false]
        rw [if_neg (by omega)]
        by_cases h2 : j + 1 ≤ i ∧ i < j + 1 + (n - j - 1)
        · rw [if_pos h2, if_pos h2]
          have e1 : j + 1 + (i - (j + 1)) = i := by omega
          rw [e1, if_neg hi]
        · rw [if_neg h2, if_neg h2]
    · simp only [setEntry, setCol_ne _ _ hj, fdivcol]

end

variable {o : FPOps ℝ}

theorem piv_pos (ho : Exact o) {n κ : ℕ} (hκ : κ < n) (x : ℕ → ℝ) (h : Ex.tail n κ x ≠ 0) :
    o.lt o.zero (piv o n κ x) = true := by
  rw [ho.lt, ho.zero]
  simp only [piv, ho.sqrt, ho.mul, ho.add, ho.neg, ho.zero]
  have hn : fpNorm o (fun r => x (κ + r)) (n - κ) = Real.sqrt (Ex.tail n κ x) := by
    unfold fpNorm
    rw [ho.sqrt, fpNormSq_exact ho _ _ (by omega)]; rfl
  rw [hn]
  have hp : 0 < Real.sqrt (Ex.tail n κ x) :=
    Real.sqrt_pos.2 (lt_of_le_of_ne (Ex.tail_nonneg n κ x) (Ne.symm h))
  obtain ⟨t, ht⟩ : ∃ t, t = Real.sqrt (Ex.tail n κ x) := ⟨_, rfl⟩
  rw [← ht] at hp ⊢
  apply Real.sqrt_pos.2
  by_cases hx : 0 ≤ x κ
  · rw [if_pos ((ho.le _ _).2 hx)]
    positivity
  · rw [if_neg (fun h => hx ((ho.le _ _).1 h))]
    push Not at hx
    nlinarith

/-- For independent columns, in exact arithmetic, the columns one after the other are those of `householder()`. -/
theorem seq_exact (ho : Exact o) {n d : ℕ} (B : Mat Int) (p : FPart ℝ) (s : PhSt ℝ) (hR : p.R = s.R)
    (hV : p.V = s.V) (hA : FullColumnRank (toMatrix n d B)) (hdn : d ≤ n) (m : ℕ) (hm : m ≤ d) :
    ((List.range m).foldl (fun p κ => hhAllCol o n d B κ p) p).R = (seq o n d B s m).R ∧
    ((List.range m).foldl (fun p κ => hhAllCol o n d B κ p) p).V = (seq o n d B s m).V := by
  induction m with
  | zero => exact ⟨hR, hV⟩
  | succ m ih =>
    obtain ⟨i1, i2⟩ := ih (by omega)
    rw [seq_succ, List.range_succ, List.foldl_append]
    simp only [List.foldl_cons, List.foldl_nil]
    have hq := hhAll_spec ho B p hA hdn m (by omega)
    simp only [] at hq
    refine hhCol_eq o _ _ i1 i2 (piv_pos ho (by omega) _ ?_)
    obtain ⟨q, hqd⟩ : ∃ q, q = (List.range m).foldl (fun p κ => hhAllCol o n d B κ p) p := ⟨_, rfl⟩
    rw [← hqd] at hq i1 i2
    rw [← i1, ← i2]
    have e := hq.gd_tail (show m < n by omega)
    have hpos : 0 < gd n B (m + 1) := gd_pos (by omega) hA
    obtain ⟨a, -, -⟩ := hhAllFold_spec ho (κ := m) (bv n B m) m (show m ≤ n by omega)
      { q with R := fsetcolZ o q.R m (B m) n } (by
        intro i hi; simp only [fsetcolZ, setCol_same, bv, if_pos hi, ho.ofZ])
    rw [hh_apply_fold] at a
    simp only [setCol_same] at a
    have hx : Ex.tail n m (refls o n q.V (List.range m) (loadC o n (B m) (q.R m))) =
        Ex.tail n m (Ex.app n q.V m (bv n B m)) := by
      unfold Ex.tail
      refine sum_congr rfl fun i hi => ?_
      have hi' := mem_range.1 hi
      have := a (m + i) (by omega)
      have e2 : fsetcolZ o q.R m (B m) n m = loadC o n (B m) (q.R m) := by
        simp only [fsetcolZ, setCol_same]; rfl
      rw [e2] at this
      rw [this]
    rw [hx]
    intro h0
    rw [h0, mul_zero] at e
    have : (gd n B (m + 1)) = 0 := by exact_mod_cast e
    omega

end Ph
end HPLLL
