import Verif.Proof.Swell
import Verif.Proof.MachFix
import Verif.Props.Mach
import Verif.Props.Idem
/-!
# C63: the vectors do not swell; C62 (continued): inputs for which machine integers are enough

Exact arithmetic, size reduction method.
-/

namespace HPLLL.Props
open HPLLL Spec Finset

variable {o : FPOps ℝ}

theorem dot_bv (n : ℕ) (B : Mat Int) (j : ℕ) :
    Ex.dot n (bv n B j) (bv n B j) = ((∑ i ∈ range n, B j i ^ 2 : ℤ) : ℝ) := by
  unfold Ex.dot bv
  push_cast
  refine sum_congr rfl fun i hi => ?_
  rw [if_pos (mem_range.mp hi)]; ring

theorem fresh_ninv (ho : Exact o) (junk : ℝ) (n d : ℕ) (A : Mat Int) (forU : Bool)
    (method : ℤ) (longFlag : Bool) (vd : ℤ) (S : ℕ) (thr : ℤ) (nb : ℕ)
    (hA : FullColumnRank (toMatrix n d A)) (β : ℤ)
    (hβ : ∀ j < d, ∑ i ∈ range n, A j i ^ 2 ≤ β) : NInv n d (β : ℝ) A := by
  have hI := fresh_inv o junk n d A forU method longFlag vd S thr nb False (fun h => h.elim)
  refine NInv.init ho (hI.geo hA) (fresh o junk n d A forU method longFlag vd S thr nb).fp ?_
  intro j hj
  show Ex.dot n (bv n A j) (bv n A j) ≤ _
  rw [dot_bv]
  exact_mod_cast hβ j hj

/-- The two facts about a run. -/
theorem short_run (ho : Exact o) (junk : ℝ) (n d : ℕ) (A : Mat Int) (forU : Bool)
    (method : ℤ) (hm : method < 1) (longFlag : Bool) (vd : ℤ) (S : ℕ) (hS : 0 < S) (thr : ℤ) (nb : ℕ)
    (hA : FullColumnRank (toMatrix n d A)) (β : ℤ)
    (hβ : ∀ j < d, ∑ i ∈ range n, A j i ^ 2 ≤ β) (δ : ℝ) (hδ : δ ≤ 1) (fuel : ℕ) (v : Bool) :
    (∀ st s', hlll o fuel δ v (fresh o junk n d A forU method longFlag vd S thr nb) = some (st, s') →
      NInv n d (β : ℝ) s'.B) ∧
    ∀ f : Int → Int, Fix f (((d : ℝ) + 3) / 4 * β) →
      hlll (o.via f) fuel δ v (fresh o junk n d A forU method longFlag vd S thr nb) =
      hlll o fuel δ v (fresh o junk n d A forU method longFlag vd S thr nb) := by
  have hN := fresh_ninv ho junk n d A forU method longFlag vd S thr nb hA β hβ
  have hE := fresh_exInv ho junk n d A forU method longFlag vd S hS thr nb δ v
  have hl := hlllLoop_short ho hδ hA fuel _ hE (by cases v <;> exact hm) (by cases v <;> rfl)
    (β := (β : ℝ)) (by cases v <;> exact hN)
  constructor
  · intro st s' h
    unfold hlll at h
    simp only [] at h
    split at h
    · simp at h
    · rename_i st1 s1 hl1
      simp only [Option.some.injEq, Prod.mk.injEq] at h
      obtain ⟨-, rfl⟩ := h
      have := hl.1 st1 s1 (by cases v <;> exact hl1)
      cases v <;> exact this
  · intro f hf
    have := hl.2 f hf
    unfold hlll
    simp only []
    cases v
    · simp only [Bool.false_eq_true, if_false] at this ⊢
      rw [show hlllInit (o.via f) _ = hlllInit o _ from rfl, this]
    · simp only [if_true] at this ⊢
      have e : hlllLoop (o.via f) δ fuel (hlllInit (o.via f)
          { fresh o junk n d A forU method longFlag vd S thr nb with
            verboseDepth := (fresh o junk n d A forU method longFlag vd S thr nb).verboseDepth - 1 }) =
        hlllLoop o δ fuel (hlllInit o
          { fresh o junk n d A forU method longFlag vd S thr nb with
            verboseDepth := (fresh o junk n d A forU method longFlag vd S thr nb).verboseDepth - 1 }) :=
        this
      rw [e]

/-- **C63.** (exact arithmetic, size reduction, `δ ≤ 1`, independent columns) Whatever the test budget
at which the run is stopped, every vector of the returned basis has squared norm at most `(d+3)/4`
times the largest squared norm of the input vectors. -/
theorem C63_no_swelling (ho : Exact o) (junk : ℝ) (n d : ℕ) (A : Mat Int) (forU : Bool)
    (method : ℤ) (hm : method < 1) (longFlag : Bool) (vd : ℤ) (S : ℕ) (hS : 0 < S) (thr : ℤ) (nb : ℕ)
    (hA : FullColumnRank (toMatrix n d A)) (β : ℤ)
    (hβ : ∀ j < d, ∑ i ∈ range n, A j i ^ 2 ≤ β) (δ : ℝ) (hδ : δ ≤ 1) (fuel : ℕ) (verbose : Bool)
    (status : ℤ) (s' : Lat ℝ)
    (h : hlll o fuel δ verbose (fresh o junk n d A forU method longFlag vd S thr nb) =
      some (status, s')) :
    ∀ j < d, 4 * ∑ i ∈ range n, s'.getbase.M j i ^ 2 ≤ (d + 3) * β := by
  have hN := (short_run ho junk n d A forU method hm longFlag vd S hS thr nb hA β hβ δ hδ fuel verbose).1
    status s' h
  intro j hj
  have := hN.c j hj
  rw [dot_bv] at this
  have h2 : (4 : ℝ) * ((∑ i ∈ range n, s'.B j i ^ 2 : ℤ) : ℝ) ≤ (d + 3) * β := by linarith
  exact_mod_cast h2

theorem wrap_fix (c : Mch) (hw : 1 ≤ c.w) (Γ : ℝ) (hΓ : Γ < 2 ^ (2 * (c.w - 1))) : Fix c.wrap Γ := by
  intro z hz
  refine Mch.wrap_of_inR hw ?_
  have h1 : (z : ℝ) * z < 2 ^ (2 * (c.w - 1)) := lt_of_le_of_lt hz hΓ
  have h2 : z ^ 2 < (2 ^ (c.w - 1)) ^ 2 := by
    rw [← pow_mul, mul_comm (c.w - 1), sq]
    exact_mod_cast h1
  have h3 := abs_lt_of_sq_lt_sq h2 (by positivity)
  rw [abs_lt] at h3
  unfold Mch.inR
  simp only [Bool.and_eq_true, decide_eq_true_eq]
  exact ⟨h3.1.le, h3.2⟩

/-- **C62.** Two's complement integers of `w` bits are enough when `(d+3) * max |b_j|^2 < 2^(2w)`
(exact arithmetic, size reduction, `δ ≤ 1`, independent columns): if the run on machine integers,
which may overflow inside a column reduction, executes no undefined conversion, it returns the basis,
the status and the counters of the run on unbounded integers; in particular a basis of the lattice. -/
theorem C62_small_input_exact (ho : Exact o) (c : Mch) (hw : 2 ≤ c.w)
    (junk : ℝ) (n d : ℕ) (A : Mat Int) (hAr : ∀ j i, c.inR (A j i) = true) (forU : Bool)
    (method : ℤ) (hm : method < 1) (longFlag : Bool) (vd : ℤ) (S : ℕ) (hS : 0 < S) (thr : ℤ) (nb : ℕ)
    (hA : FullColumnRank (toMatrix n d A)) (β : ℤ)
    (hβ : ∀ j < d, ∑ i ∈ range n, A j i ^ 2 ≤ β) (hβw : ((d : ℤ) + 3) * β < 2 ^ (2 * c.w))
    (δ : ℝ) (hδ : δ ≤ 1) (fuel : ℕ) (verbose : Bool) (status : ℤ) (s' : Lat ℝ)
    (h : mHlll o c fuel δ verbose (fresh o junk n d A forU method longFlag vd S thr nb) =
      some (status, s')) (hub : s'.ub = false) :
    (∃ t', hlll o fuel δ verbose (fresh o junk n d A forU method longFlag vd S thr nb) =
        some (status, t') ∧ toMatrix n d s'.getbase.M = toMatrix n d t'.getbase.M ∧
        s'.nblov = t'.nblov ∧ s'.nbswaps = t'.nbswaps ∧ s'.fp = t'.fp) ∧
    lattice (toMatrix n d s'.getbase.M) = lattice (toMatrix n d A) := by
  obtain ⟨t', h1, h2⟩ := wrap_run o c hw junk n d A hAr forU method longFlag vd S thr nb fuel δ
    verbose status s' h hub
  have h3 := short_run ho junk n d A forU method hm longFlag vd S hS thr nb hA β hβ δ hδ fuel verbose
  have hfix : Fix c.wrap (((d : ℝ) + 3) / 4 * β) := by
    refine wrap_fix c (by omega) _ ?_
    have e : (2 : ℝ) ^ (2 * c.w) = 4 * 2 ^ (2 * (c.w - 1)) := by
      rw [show 2 * c.w = 2 * (c.w - 1) + 2 by omega, pow_add]; norm_num; ring
    have : ((d : ℝ) + 3) * β < 2 ^ (2 * c.w) := by exact_mod_cast hβw
    rw [e] at this
    linarith
  have h4 : hlll o fuel δ verbose (fresh o junk n d A forU method longFlag vd S thr nb) =
      some (status, t') := by
    rw [← h3.2 c.wrap hfix]; exact h1
  have hN := h3.1 status t' h4
  have hB : toMatrix n d s'.getbase.M = toMatrix n d t'.getbase.M := by
    ext i j
    rw [h2]
    show c.wrap (t'.B j i) = t'.B j i
    exact hfix.col (hN.c j j.2) i i.2
  refine ⟨⟨t', h4, hB, by rw [h2]; rfl, by rw [h2]; rfl, by rw [h2]; rfl⟩, ?_⟩
  rw [hB]
  exact (C01_hlll_preserves_lattice o junk n d A forU method longFlag vd S thr nb fuel δ verbose status
    t' h4).2.2

/-- **C62.** On a reduced basis a machine run does no integer operation: it is the run on unbounded
integers, for every integer type, also with the strict rule (exact arithmetic, ties not rounded away
from zero, sequential settings). -/
theorem C62_reduced_input (ho : ExactTies o) (c : Mch)
    (junk : ℝ) (n d : ℕ) (A : Mat Int) (forU : Bool)
    (method : ℤ) (hm : method < 1) (longFlag : Bool) (vd : ℤ) (S : ℕ) (hS : 0 < S) (thr : ℤ) (nb : ℕ)
    (hseq : S = 1 ∨ (d : ℤ) ≤ thr + 1)
    (hA : FullColumnRank (toMatrix n d A)) (δ : ℝ) (hδ : δ ≤ 1) (hred : LLLReduced δ (toMatrix n d A))
    (fuel : ℕ) (verbose : Bool) :
    mHlll o c fuel δ verbose (fresh o junk n d A forU method longFlag vd S thr nb) =
      hlll o fuel δ verbose (fresh o junk n d A forU method longFlag vd S thr nb) := by
  have hE := fresh_exInv ho.toExact junk n d A forU method longFlag vd S hS thr nb δ verbose
  have hdn : d ≤ n := by
    rcases Nat.eq_zero_or_pos d with h0 | h0
    · omega
    · have hg := hE.inv.geo hA
      have := hg.diag (d - 1) (by omega); have := hg.le (d - 1) (by omega); omega
  have hl := mHlllLoop_fixed (c := mEntry o c) ho hδ hA (gs_ne_zero hA hdn) (LLLReduced.lovMin hred) fuel _ hE
    (by cases verbose <;> rfl) (by cases verbose <;> exact UniTri.refl n d A)
    (by cases verbose <;> exact hseq) (by cases verbose <;> exact hm)
    (by cases verbose <;> exact hred.1)
  unfold mHlll gHlll hlll
  simp only []
  cases verbose
  · simp only [Bool.false_eq_true, if_false] at hl ⊢
    rw [hl]
    rfl
  · simp only [if_true] at hl ⊢
    rw [show (fresh o junk n d A forU method longFlag vd S thr nb).verboseDepth = vd from rfl, hl]
    rfl

theorem ex_rank : FullColumnRank (toMatrix 2 2 (ofCols [[5, 0], [3, 1]])) := by
  have : (toMatrix 2 2 (ofCols [[5, 0], [3, 1]])).det ≠ 0 := by
    rw [Matrix.det_fin_two]; decide
  exact Matrix.linearIndependent_cols_of_det_ne_zero this

theorem ex_norms : ∀ j < 2, ∑ i ∈ range 2, (ofCols [[5, 0], [3, 1]]) j i ^ 2 ≤ 25 := by decide

theorem ex_run : ∃ t : Lat ℝ, hlll realOps 54 (99 / 100) true
      (fresh realOps 7 2 2 (ofCols [[5, 0], [3, 1]]) true 0 true 0 1 1000000 100) = some (0, t) ∧
    LLLReduced (99 / 100) (toMatrix 2 2 t.getbase.M) ∧
    lattice (toMatrix 2 2 t.getbase.M) = lattice (toMatrix 2 2 (ofCols [[5, 0], [3, 1]])) := by
  have hp : potential 2 2 (ofCols [[5, 0], [3, 1]]) = 25 := by
    unfold potential
    rw [Finset.prod_range_succ, Finset.prod_range_succ, Finset.prod_range_zero]
    simp [Matrix.det_unique, Matrix.mul_apply, toMatrix, ofCols]
  obtain ⟨t, h1, h2, h3⟩ := C10_total_correctness realOps_exact 7 2 2 (ofCols [[5, 0], [3, 1]]) true 0
    (by norm_num) true 0 1 (by norm_num) 1000000 100 ex_rank (99 / 100) (by norm_num) (by norm_num) true
    (by rw [hp]; norm_num)
  exact ⟨t, h1 54 (by rw [hp]; norm_num), h2, h3⟩

/-- The hypotheses of C63 are met by a run that reduces `(5, 0), (3, 1)`. -/
example : ∃ t : Lat ℝ, hlll realOps 54 (99 / 100) true
      (fresh realOps 7 2 2 (ofCols [[5, 0], [3, 1]]) true 0 true 0 1 1000000 100) = some (0, t) ∧
    ∀ j < 2, 4 * ∑ i ∈ range 2, t.getbase.M j i ^ 2 ≤ (2 + 3) * 25 := by
  obtain ⟨t, h1, -, -⟩ := ex_run
  exact ⟨t, h1, fun j hj => by
    have := C63_no_swelling realOps_exact.toExact 7 2 2 _ true 0 (by norm_num) true 0 1 (by norm_num)
      1000000 100 ex_rank 25 ex_norms (99 / 100) (by norm_num) 54 true 0 t h1 j hj
    exact_mod_cast this⟩

/-- The hypotheses of `C62_small_input_exact` are met (`long`): the basis computed from
`(5, 0), (3, 1)`, given to `hlll` on machine integers. -/
example : ∃ (A : Mat Int) (s' : Lat ℝ), (∀ j i, longW.inR (A j i) = true) ∧
    FullColumnRank (toMatrix 2 2 A) ∧ (∀ j < 2, ∑ i ∈ range 2, A j i ^ 2 ≤ 31) ∧
    (∃ fuel, mHlll realOps longW fuel (99 / 100) true (fresh realOps 7 2 2 A true 0 true 0 1 1000000 100) =
      some (0, s')) ∧ s'.ub = false ∧
    lattice (toMatrix 2 2 A) = lattice (toMatrix 2 2 (ofCols [[5, 0], [3, 1]])) := by
  obtain ⟨t, h1, h2, h3⟩ := ex_run
  have hn := C63_no_swelling realOps_exact.toExact 7 2 2 _ true 0 (by norm_num) true 0 1 (by norm_num)
      1000000 100 ex_rank 25 ex_norms (99 / 100) (by norm_num) 54 true 0 t h1
  set A : Mat Int := fun j i => if j < 2 ∧ i < 2 then t.getbase.M j i else 0 with hA
  have eA : toMatrix 2 2 A = toMatrix 2 2 t.getbase.M := by
    ext i j
    show A j i = t.getbase.M j i
    simp only [hA]
    rw [if_pos ⟨j.2, i.2⟩]
  have hsq : ∀ j < 2, ∑ i ∈ range 2, A j i ^ 2 ≤ 31 := by
    intro j hj
    have := hn j hj
    have e : ∑ i ∈ range 2, A j i ^ 2 = ∑ i ∈ range 2, t.getbase.M j i ^ 2 :=
      sum_congr rfl fun i hi => by simp only [hA]; rw [if_pos ⟨hj, mem_range.mp hi⟩]
    rw [e]
    push_cast at this
    omega
  have hin : ∀ j i, longW.inR (A j i) = true := by
    intro j i
    by_cases h : j < 2 ∧ i < 2
    · have h5 : A j i ^ 2 ≤ 31 := le_trans
        (single_le_sum (f := fun i => A j i ^ 2) (fun _ _ => sq_nonneg _) (mem_range.mpr h.2)) (hsq j h.1)
      have h6 : -6 < A j i ∧ A j i < 6 := by constructor <;> nlinarith
      unfold Mch.inR longW
      simp only [Bool.and_eq_true, decide_eq_true_eq]
      norm_num
      omega
    · have : A j i = 0 := by simp only [hA]; rw [if_neg h]
      rw [this]; decide
  have hr : FullColumnRank (toMatrix 2 2 A) := by
    rw [eA]
    have hR : Runs (newLattice realOps 7 2 2 (ofCols [[5, 0], [3, 1]]) true 0 true 0)
      ((([] ++ [.setNumS 1 1000000]) ++ [.setNblovMax 100]) ++ [.hlll realOps (99 / 100) true]) t :=
      .snoc _ _ _ _ _ (.snoc _ _ _ _ _ (.snoc _ _ _ _ _ (.nil _) (.setNumS 1 1000000 _))
        (.setNblovMax 100 _)) (.hlll realOps _ true _ _ 54 0 h1)
    obtain ⟨r1, r2, r3⟩ := exHist_ready realOps_exact.toExact 7 2 2 _ ex_rank
      true 0 true 0 _ t hR ⟨by norm_num, realOps_exact.toExact, by norm_num, trivial⟩
    exact ready_rank r1 r2
  rw [← eA] at h2 h3
  obtain ⟨s', f0, e1, -⟩ := C54_reduced_is_fixed realOps_exact realOps_exact.toExact 7 2 2 A hr
    true 0 (by norm_num) true 0 _ _ (.snoc _ _ _ _ _ (.snoc _ _ _ _ _ (.nil _) (.setNumS 1 1000000 _))
        (.setNblovMax 100 _)) ⟨by norm_num, trivial⟩
    (99 / 100) (by norm_num) h2 true
  have e2 := e1 f0 (le_refl _)
  have hub := C18_index_safety realOps 7 2 2 (le_refl _) A true 0 true 0 _ s'
    (.snoc _ _ _ _ _ (.snoc _ _ _ _ _ (.snoc _ _ _ _ _ (.nil _) (.setNumS 1 1000000 _))
        (.setNblovMax 100 _)) (.hlll realOps _ true _ _ f0 0 e2))
  refine ⟨A, s', hin, hr, hsq, ⟨f0, ?_⟩, hub, h3⟩
  rw [C62_reduced_input realOps_exact longW 7 2 2 A true 0 (by norm_num) true 0 1 (by norm_num) 1000000
    100 (.inl rfl) hr (99 / 100) (by norm_num) h2 f0 true]
  exact e2

end HPLLL.Props
