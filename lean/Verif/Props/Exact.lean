import Verif.Proof.Short
import Verif.Proof.Fuel
import Verif.Proof.HhAll
import Verif.Props.Lattice
/-!
# Properties of `Lattice` in exact arithmetic

`o : FPOps ℝ` with `Exact o`: the operations are those of the real numbers (any tie breaking in the
rounding).  The input has linearly independent columns and `num_S ≥ 1`; dimensions, entries, method,
long flag, number of threads, threshold, `δ`, initial (uninitialised) memory are arbitrary.
-/

namespace HPLLL.Props
open HPLLL Spec Finset

variable {o : FPOps ℝ}

theorem fresh_exInv (ho : Exact o) (junk : ℝ) (n d : ℕ) (A : Mat Int) (forU : Bool)
    (method : ℤ) (longFlag : Bool) (vd : ℤ) (S : ℕ) (hS : 0 < S) (thr : ℤ) (nb : ℕ) (δ : ℝ)
    (v : Bool) :
    ExInv n d A False δ (hlllInit o
      (if v then { fresh o junk n d A forU method longFlag vd S thr nb with
        verboseDepth := vd - 1 } else fresh o junk n d A forU method longFlag vd S thr nb)) := by
  have hI := fresh_inv o junk n d A forU method longFlag vd S thr nb False (fun h => h.elim)
  refine ExInv.init ?_ ?_ ?_
  · cases v
    · exact hI
    · exact hI.congr rfl rfl rfl rfl rfl rfl rfl rfl
  · cases v <;> exact hS
  · intro c _ r _ _
    cases v <;> exact ho.zero

/-- What the main loop gives for a fresh object. -/
theorem fresh_exExit (ho : Exact o) (junk : ℝ) (n d : ℕ) (A : Mat Int) (forU : Bool)
    (method : ℤ) (longFlag : Bool) (vd : ℤ) (S : ℕ) (hS : 0 < S) (thr : ℤ) (nb : ℕ)
    (hA : FullColumnRank (toMatrix n d A))
    (fuel : ℕ) (δ : ℝ) (v : Bool) (st : ℤ) (s' : Lat ℝ)
    (h : hlll o fuel δ v (fresh o junk n d A forU method longFlag vd S thr nb) = some (st, s')) :
    ∃ h0 s1, s'.B = s1.B ∧ s'.fp = s1.fp ∧ s'.str = s1.str ∧ s'.nblov = s1.nblov ∧
      s'.nbswaps = s1.nbswaps ∧ s1.nblovMax = nb ∧ s1.seysenFlag = method ∧
      s1.n = n ∧ s1.d = d ∧ s'.n = n ∧ s'.d = d ∧
      ExInv n d A False δ h0 ∧ h0.s.kappaMax = d ∧ h0.kappa = 1 ∧ h0.s.B = A ∧ h0.s.nblov = 0 ∧
      h0.s.nbswaps = 0 ∧ h0.s.seysenFlag = method ∧
      hlllLoop o δ fuel h0 = some (st, s1) ∧ ExExit n d A False δ h0 st s1 := by
  have hE := fresh_exInv ho junk n d A forU method longFlag vd S hS thr nb δ v
  have hX := hlll_exit o fuel δ v _ s' st
    (fresh_inv o junk n d A forU method longFlag vd S thr nb False (fun h => h.elim)) (le_refl d) h
  unfold hlll at h
  simp only [] at h
  split at h
  · simp at h
  · rename_i st1 s1 hl
    simp only [Option.some.injEq, Prod.mk.injEq] at h
    obtain ⟨rfl, rfl⟩ := h
    refine ⟨_, s1, ?_, ?_, ?_, ?_, ?_, ?_, ?_, ?_, ?_, hX.inv.hn, hX.inv.hd, hE, ?_, ?_, ?_, ?_, ?_, ?_, hl,
      ExInv.loop ho hA fuel _ hE ?_ _ _ hl⟩
    · cases v <;> rfl
    · cases v <;> rfl
    · cases v <;> rfl
    · cases v <;> rfl
    · cases v <;> rfl
    · have := hX.cfg.nblovMax; cases v <;> exact this
    · have := hX.cfg.seysenFlag; cases v <;> exact this
    · have := hX.inv.hn; cases v <;> exact this
    · have := hX.inv.hd; cases v <;> exact this
    all_goals first | rfl | (cases v <;> rfl)

/-- **C08.** If `hlll(δ)` returns 0 within the test budget, `getbase()` is a basis of the input
lattice that satisfies the Lovász conditions with parameter `δ`, and (size reduction method) is
LLL-reduced. -/
theorem C08_output_reduced (ho : Exact o) (junk : ℝ) (n d : ℕ) (A : Mat Int) (forU : Bool)
    (method : ℤ) (longFlag : Bool) (vd : ℤ) (S : ℕ) (hS : 0 < S) (thr : ℤ) (nb : ℕ)
    (hA : FullColumnRank (toMatrix n d A))
    (fuel : ℕ) (δ : ℝ) (verbose : Bool) (s' : Lat ℝ)
    (h : hlll o fuel δ verbose
      (fresh o junk n d A forU method longFlag vd S thr nb) = some (0, s'))
    (hb : s'.nblov < nb) :
    LovaszCond δ (toMatrix n d s'.getbase.M) ∧
      (method < 1 → LLLReduced δ (toMatrix n d s'.getbase.M)) ∧
      lattice (toMatrix n d s'.getbase.M) = lattice (toMatrix n d A) := by
  obtain ⟨h0, s1, eB, _, _, enb, _, enm, esf, en, ed, -, -, hE, _, hk1, _, _, _, _, hl, hX⟩ :=
    fresh_exExit ho junk n d A forU method longFlag vd S hS thr nb hA fuel δ verbose 0 s' h
  have hlat := (C01_hlll_preserves_lattice o junk n d A forU method longFlag vd S thr nb fuel δ
    verbose 0 s' h).2.2
  obtain ⟨h', hE', rfl, hd⟩ := hX.done rfl (by omega)
  have key : (method < 1 → SizeReduced (toMatrix n d s'.getbase.M)) ∧
      LovaszCond δ (toMatrix n d s'.getbase.M) := by
    show (method < 1 → SizeReduced (toMatrix n d s'.B)) ∧ LovaszCond δ (toMatrix n d s'.B)
    rw [eB]
    by_cases hd1 : d ≤ 1
    · constructor
      · intro _ i j hij
        have hij' : (j : ℕ) < i := hij
        have := i.2; omega
      · intro i j hij
        have := i.2; omega
    · have hk := hE'.kd
      have hκ : h'.kappa = d := by omega
      have hg := hE'.inv.geo hA
      have hdn : d ≤ n := by
        have := hg.diag (d - 1) (by omega); have := hg.le (d - 1) (by omega); omega
      have hq := (hE'.head.full (by omega)).qr
      have hr := hE'.red (by omega)
      rw [hκ] at hq hr
      have := hq.reduced hdn hr
      rw [esf] at this
      exact this
  exact ⟨key.2, fun hm => ⟨key.1 hm, key.2⟩, hlat⟩

/-- **C09.** With `δ ≤ 1`, `hlll` never returns -1. -/
theorem C09_never_fails (ho : Exact o) (junk : ℝ) (n d : ℕ) (A : Mat Int) (forU : Bool)
    (method : ℤ) (longFlag : Bool) (vd : ℤ) (S : ℕ) (hS : 0 < S) (thr : ℤ) (nb : ℕ)
    (hA : FullColumnRank (toMatrix n d A))
    (fuel : ℕ) (δ : ℝ) (hδ : δ ≤ 1) (verbose : Bool) (status : ℤ) (s' : Lat ℝ)
    (h : hlll o fuel δ verbose
      (fresh o junk n d A forU method longFlag vd S thr nb) = some (status, s')) :
    status = 0 := by
  obtain ⟨h0, s1, _, _, _, _, _, _, _, _, _, _, _, _, _, _, _, _, _, _, hl, hX⟩ :=
    fresh_exExit ho junk n d A forU method longFlag vd S hS thr nb hA fuel δ verbose _ s' h
  rcases (C14_test_budget o junk n d A forU method longFlag vd S thr nb fuel δ verbose status s'
    h).2.2 with h | h
  · exact h
  · exact absurd hδ (hX.fail h)

/-- Product of the Gram determinants of the first `k` columns, `k = 0..d-1`. -/
def potential (n d : ℕ) (A : Mat Int) : ℤ :=
  ∏ k ∈ range d, ((toMatrix n k A).transpose * toMatrix n k A).det

/-- **C10.** `hlll(δ)`, `δ ≤ 1`, size reduction method, terminates on every input of independent
columns (rounding with ties towards zero); the outcome does not depend on how long one waits. -/
theorem C10_terminates (ho : ExactTies o) (junk : ℝ) (n d : ℕ) (A : Mat Int) (forU : Bool)
    (method : ℤ) (hm : method < 1) (longFlag : Bool) (vd : ℤ) (S : ℕ) (hS : 0 < S) (thr : ℤ) (nb : ℕ)
    (hA : FullColumnRank (toMatrix n d A)) (δ : ℝ) (hδ : δ ≤ 1) (verbose : Bool) :
    ∃ s' : Lat ℝ, ∀ fuel : ℕ, 2 * potential n d A + d + 2 ≤ fuel →
      hlll o fuel δ verbose (fresh o junk n d A forU method longFlag vd S thr nb) = some (0, s') := by
  have hE := fresh_exInv ho.toExact junk n d A forU method longFlag vd S hS thr nb δ verbose
  have hp : 0 < pot n d A := prod_pos fun k hk => gd_pos (mem_range.mp hk).le hA
  set f0 : ℕ := (2 * pot n d A + d + 2).toNat with hf0
  have hf : (f0 : ℤ) = 2 * pot n d A + d + 2 := by omega
  obtain ⟨⟨st, s1⟩, hr⟩ := ExInv.loop_term ho hδ hA f0 _ hE (by cases verbose <;> rfl)
    (by cases verbose <;> exact hm) (by
      have e : (hlllInit o (if verbose then { fresh o junk n d A forU method longFlag vd S thr nb with
        verboseDepth := vd - 1 } else fresh o junk n d A forU method longFlag vd S thr nb)).s.B = A := by
        cases verbose <;> rfl
      rw [e, hf]; simp [hlllInit])
  have hh : ∃ s', hlll o f0 δ verbose (fresh o junk n d A forU method longFlag vd S thr nb) =
      some (st, s') := by
    unfold hlll
    simp only []
    exact ⟨_, by
      rw [show (fresh o junk n d A forU method longFlag vd S thr nb).verboseDepth = vd from rfl, hr]⟩
  obtain ⟨s', hs'⟩ := hh
  have h0 := C09_never_fails ho.toExact junk n d A forU method longFlag vd S hS thr nb hA f0 δ hδ
    verbose st s' hs'
  subst h0
  refine ⟨s', fun fuel hfuel => ?_⟩
  have hpot : potential n d A = pot n d A := rfl
  rw [hpot] at hfuel
  obtain ⟨k, rfl⟩ : ∃ k, fuel = f0 + k := ⟨fuel - f0, by omega⟩
  exact hlll_mono o f0 k δ verbose _ _ hs'

/-- **C10, swap bound.** With `0 < δ`, the number of swaps `w` satisfies
`(1/δ)^w ≤ ∏_{k<d} det(Gram of the first k columns)`, whatever the method; and if `δ ≤ 1` the number
of tests is less than `2 * potential + d`. -/
theorem C10_swap_bound (ho : Exact o) (junk : ℝ) (n d : ℕ) (A : Mat Int) (forU : Bool)
    (method : ℤ) (longFlag : Bool) (vd : ℤ) (S : ℕ) (hS : 0 < S) (thr : ℤ) (nb : ℕ)
    (hA : FullColumnRank (toMatrix n d A))
    (fuel : ℕ) (δ : ℝ) (hδ : 0 < δ) (verbose : Bool) (s' : Lat ℝ)
    (h : hlll o fuel δ verbose
      (fresh o junk n d A forU method longFlag vd S thr nb) = some (0, s')) :
    (1 / δ) ^ s'.nbswaps ≤ potential n d A ∧
      (δ ≤ 1 → (s'.nblov : ℤ) < 2 * potential n d A + d) := by
  obtain ⟨h0, s1, _, _, _, enb, esw, _, _, _, _, _, _, hE, hkm, hk1, hB, hn0, hs0, _, hl, hX⟩ :=
    fresh_exExit ho junk n d A forU method longFlag vd S hS thr nb hA fuel δ verbose _ s' h
  constructor
  · obtain ⟨w, w1, w2, w3⟩ := hX.swaps rfl
    rw [hB] at w2
    have : s'.nbswaps = w := by omega
    rw [this, one_div, inv_pow, inv_le_iff_one_le_mul₀ (pow_pos hδ w)]
    have h1 : (1 : ℝ) ≤ pot n d s1.B := by exact_mod_cast w3
    calc (1 : ℝ) ≤ _ := h1
      _ ≤ δ ^ w * pot n d A := w2
      _ = potential n d A * δ ^ w := mul_comm _ _
  · intro hδ1
    have := ExInv.loop_nblov ho hδ1 hA fuel h0 hE hkm _ _ hl
    rw [hB, hn0, hk1] at this
    have e : potential n d A = pot n d A := rfl
    rw [e, enb]; push_cast at this ⊢; omega

/-- **C08 + C09 + C10, total correctness.** With a test budget above `2 * potential + d`, `hlll` ends
with status 0 and an LLL-reduced basis of the same lattice. -/
theorem C10_total_correctness (ho : ExactTies o) (junk : ℝ) (n d : ℕ) (A : Mat Int) (forU : Bool)
    (method : ℤ) (hm : method < 1) (longFlag : Bool) (vd : ℤ) (S : ℕ) (hS : 0 < S) (thr : ℤ) (nb : ℕ)
    (hA : FullColumnRank (toMatrix n d A)) (δ : ℝ) (h0 : 0 < δ) (hδ : δ ≤ 1) (verbose : Bool)
    (hnb : 2 * potential n d A + d ≤ nb) :
    ∃ s' : Lat ℝ, (∀ fuel : ℕ, 2 * potential n d A + d + 2 ≤ fuel →
      hlll o fuel δ verbose (fresh o junk n d A forU method longFlag vd S thr nb) = some (0, s')) ∧
      LLLReduced δ (toMatrix n d s'.getbase.M) ∧
      lattice (toMatrix n d s'.getbase.M) = lattice (toMatrix n d A) := by
  obtain ⟨s', hs'⟩ := C10_terminates ho junk n d A forU method hm longFlag vd S hS thr nb hA δ hδ verbose
  refine ⟨s', hs', ?_⟩
  have h1 := hs' (2 * potential n d A + d + 2).toNat (by omega)
  have hb := (C10_swap_bound ho.toExact junk n d A forU method longFlag vd S hS thr nb hA _ δ h0 verbose
    s' h1).2 hδ
  obtain ⟨_, a, b⟩ := C08_output_reduced ho.toExact junk n d A forU method longFlag vd S hS thr nb hA _ δ
    verbose s' h1 (by omega)
  exact ⟨a hm, b⟩

/-- **C11.** The first vector of the output is at most `(δ - 1/4)^(-(d-1)/2)` times as long as any
nonzero vector of the input lattice. -/
theorem C11_short_first_vector (ho : Exact o) (junk : ℝ) (n d : ℕ) (hd : 0 < d) (A : Mat Int)
    (forU : Bool) (method : ℤ) (hm : method < 1) (longFlag : Bool) (vd : ℤ) (S : ℕ) (hS : 0 < S)
    (thr : ℤ) (nb : ℕ) (hA : FullColumnRank (toMatrix n d A))
    (fuel : ℕ) (δ : ℝ) (h4 : 1 / 4 < δ) (hδ : δ ≤ 1) (verbose : Bool) (s' : Lat ℝ)
    (h : hlll o fuel δ verbose
      (fresh o junk n d A forU method longFlag vd S thr nb) = some (0, s'))
    (hb : s'.nblov < nb) (v : Fin n → ℤ) (hv : v ∈ lattice (toMatrix n d A)) (hv0 : v ≠ 0) :
    ∑ i : Fin n, (s'.getbase.M 0 i : ℝ) ^ 2 ≤
      (1 / (δ - 1 / 4)) ^ (d - 1) * ∑ i : Fin n, (v i : ℝ) ^ 2 := by
  obtain ⟨_, a, b⟩ := C08_output_reduced ho junk n d A forU method longFlag vd S hS thr nb hA fuel δ
    verbose s' h hb
  rw [← b] at hv
  exact LLLReduced.first_short h4 hδ (a hm) ⟨0, hd⟩ rfl v hv hv0

/-- **C12.** `householder(); getR()` on any object whose basis has independent columns: `getR()` is
upper triangular with nonzero diagonal and `RᵀR = BᵀB`. -/
theorem C12_householder_QR (ho : Exact o) (junk : ℝ) (s : Lat ℝ)
    (hA : FullColumnRank (toMatrix s.n s.d s.B)) (hdn : s.d ≤ s.n) :
    let R := (s.householder o).getR o junk
    (∀ i j, j < i → R j i = 0) ∧ (∀ i < s.d, R i i ≠ 0) ∧
      (∀ i < s.d, ∀ j < s.d, ∑ r ∈ range s.d, R i r * R j r =
        ∑ r ∈ range s.n, (s.B i r : ℝ) * s.B j r) ∧
      (s.householder o).B = s.B := by
  have hq := hhAll_spec ho s.B s.fp hA hdn s.d (le_refl _)
  simp only [] at hq
  have hR : ∀ j < s.d, ∀ i, (s.householder o).getR o junk j i =
      if i ≤ j then (s.householder o).fp.R j i else 0 := by
    intro j hj i
    simp only [Lat.getR]
    split
    · rw [if_pos]
      simp only [Lat.householder]; omega
    · exact ho.zero
  refine ⟨?_, ?_, ?_, rfl⟩
  · intro i j hij; simp only [Lat.getR]; rw [if_neg (by omega)]; exact ho.zero
  · intro i hi; rw [hR i hi, if_pos (le_refl _)]; exact hq.rdiag i hi
  · intro i hi j hj
    have := hq.gram hdn i j hi hj
    rw [← this]
    refine sum_congr rfl fun r _ => ?_
    rw [hR i hi, hR j hj]; rfl

/-- **C12 after `hlll`.** When `hlll` returns 0 within the budget (`d ≥ 2`), `getR()` is the
triangular factor of the returned basis. -/
theorem C12_getR_after_hlll (ho : Exact o) (junk junk' : ℝ) (n d : ℕ) (hd : 2 ≤ d) (A : Mat Int)
    (forU : Bool) (method : ℤ) (longFlag : Bool) (vd : ℤ) (S : ℕ) (hS : 0 < S) (thr : ℤ) (nb : ℕ)
    (hA : FullColumnRank (toMatrix n d A))
    (fuel : ℕ) (δ : ℝ) (verbose : Bool) (s' : Lat ℝ)
    (h : hlll o fuel δ verbose
      (fresh o junk n d A forU method longFlag vd S thr nb) = some (0, s'))
    (hb : s'.nblov < nb) :
    let R := s'.getR o junk'
    (∀ i j, j < i → R j i = 0) ∧ (∀ i < d, R i i ≠ 0) ∧
      (∀ i < d, ∀ j < d, ∑ r ∈ range d, R i r * R j r =
        ∑ r ∈ range n, (s'.getbase.M i r : ℝ) * s'.getbase.M j r) := by
  obtain ⟨h0, s1, eB, efp, _, enb, _, enm, esf, en, ed, en', ed', hE, _, hk1, _, _, _, _, hl, hX⟩ :=
    fresh_exExit ho junk n d A forU method longFlag vd S hS thr nb hA fuel δ verbose 0 s' h
  obtain ⟨h', hE', rfl, hd'⟩ := hX.done rfl (by omega)
  have hk := hE'.kd
  have hκ : h'.kappa = d := by omega
  have hg := hE'.inv.geo hA
  have hdn : d ≤ n := by
    have := hg.diag (d - 1) (by omega); have := hg.le (d - 1) (by omega); omega
  have hq := (hE'.head.full (by omega)).qr
  rw [hκ, ← efp, ← eB] at hq
  have hR : ∀ j < d, ∀ i, s'.getR o junk' j i = if i ≤ j then s'.fp.R j i else 0 := by
    intro j hj i
    simp only [Lat.getR]
    split
    · rw [if_pos]; omega
    · exact ho.zero
  refine ⟨?_, ?_, ?_⟩
  · intro i j hij; simp only [Lat.getR]; rw [if_neg (by omega)]; exact ho.zero
  · intro i hi; rw [hR i hi, if_pos (le_refl _)]; exact hq.rdiag i hi
  · intro i hi j hj
    show _ = ∑ r ∈ range n, (s'.B i r : ℝ) * s'.B j r
    rw [← hq.gram hdn i j hi hj]
    refine sum_congr rfl fun r _ => ?_
    rw [hR i hi, hR j hj]

/-! ### C13 -/

/-- The states of `hlll` at the beginning of an iteration of its main loop. -/
inductive LoopHead (o : FPOps ℝ) (δ : ℝ) (s : Lat ℝ) : HState ℝ → Prop
  | init : LoopHead o δ s (hlllInit o s)
  | step (fuel : ℕ) (h h' : HState ℝ) : LoopHead o δ s h → h.kappa < h.s.kappaMax →
      hlllStep o fuel δ h = .next h' → LoopHead o δ s h'

/-- Forgetting everything the object has cached about column `κ`. -/
def dropCache (κ : ℕ) (s : Lat ℝ) : Lat ℝ :=
  { s with fp := { s.fp with colKept := setAt s.fp.colKept κ false } }

theorem loopHead_exInv (ho : Exact o) (junk : ℝ) (n d : ℕ) (A : Mat Int) (forU : Bool)
    (method : ℤ) (longFlag : Bool) (vd : ℤ) (S : ℕ) (hS : 0 < S) (thr : ℤ) (nb : ℕ)
    (hA : FullColumnRank (toMatrix n d A)) (δ : ℝ) (h : HState ℝ)
    (hr : LoopHead o δ (fresh o junk n d A forU method longFlag vd S thr nb) h) :
    ExInv n d A False δ h ∧ h.s.kappaMax = d := by
  induction hr with
  | init => exact ⟨fresh_exInv ho junk n d A forU method longFlag vd S hS thr nb δ false, rfl⟩
  | step fuel h h' _ hk hs ih =>
    have := ih.1.step ho hA (by omega) fuel
    rw [hs] at this
    exact ⟨this.1, by rw [this.2.2.2.kappaMax]; exact ih.2⟩

/-- **C13.** At every iteration, the incremental update of column `κ` of the triangular factor (from
cached products, skipped reflections, columns moved by swaps) gives exactly the same column as a
recomputation from the integer basis: the entries of `R` used afterwards are the same. -/
theorem C13_cache_never_stale (ho : Exact o) (junk : ℝ) (n d : ℕ) (A : Mat Int) (forU : Bool)
    (method : ℤ) (longFlag : Bool) (vd : ℤ) (S : ℕ) (hS : 0 < S) (thr : ℤ) (nb : ℕ)
    (hA : FullColumnRank (toMatrix n d A)) (δ : ℝ) (h : HState ℝ)
    (hr : LoopHead o δ (fresh o junk n d A forU method longFlag vd S thr nb) h) (hκ : h.kappa < d) :
    let s := hlllPrep o h.kappa h.s
    let κ := h.kappa
    (∀ i < nmaxOf s.str κ, (s.hhR o κ).fp.R κ i = ((dropCache κ s).hhR o κ).fp.R κ i) ∧
      (s.hhR o κ).fp.normB2 κ = ((dropCache κ s).hhR o κ).fp.normB2 κ ∧
      (∀ k < κ, (s.hhR o κ).fp.VR κ k = ((dropCache κ s).hhR o κ).fp.VR κ k) := by
  obtain ⟨hE, hkm⟩ := loopHead_exInv ho junk n d A forU method longFlag vd S hS thr nb hA δ h hr
  obtain ⟨hM, hI⟩ := hE.mid ho hA hκ
  have hg := hI.geo hA
  have hM' : Mid n d h.kappa (dropCache h.kappa (hlllPrep o h.kappa h.s)) := by
    refine ⟨?_, ?_⟩
    · have := hM.1
      refine this.congr (p' := (dropCache h.kappa (hlllPrep o h.kappa h.s)).fp) (fun _ _ => rfl) ?_ ?_
      · constructor <;> intros <;> first | rfl | (simp only [dropCache]; rw [setAt_ne _ _ ‹_›])
      · intro h1 r h2 h3; exact this.bz _ h1 r h2 h3
    · intro hk; simp [dropCache, setAt] at hk
  have P := hM.hhR ho hE.pos hκ hg
  have P' := Mid.hhR (s := dropCache h.kappa (hlllPrep o h.kappa h.s)) ho hE.pos hκ hg hM'
  have hV : ((hlllPrep o h.kappa h.s).hhR o h.kappa).fp.V =
      ((dropCache h.kappa (hlllPrep o h.kappa h.s)).hhR o h.kappa).fp.V := by
    have f1 := (householderR_spec ho (hlllPrep o h.kappa h.s).str (hlllPrep o h.kappa h.s).B
      (hlllPrep o h.kappa h.s).fp hE.pos (hg.diag _ hκ) (hg.le _ hκ)
      (fun k hk r hr hrn => hM.1.qr.vsupp k hk r
        (le_trans (hg.mono k _ (by omega) hκ) hr) hrn) (hM.1.bz _ hκ) (hg.supp _ hκ) hM.2).2.V
    have f2 := (householderR_spec ho (hlllPrep o h.kappa h.s).str (hlllPrep o h.kappa h.s).B
      (dropCache h.kappa (hlllPrep o h.kappa h.s)).fp hE.pos (hg.diag _ hκ) (hg.le _ hκ)
      (fun k hk r hr hrn => hM'.1.qr.vsupp k hk r
        (le_trans (hg.mono k _ (by omega) hκ) hr) hrn) (hM'.1.bz _ hκ) (hg.supp _ hκ) hM'.2).2.V
    exact f1.trans f2.symm
  have hB : ((dropCache h.kappa (hlllPrep o h.kappa h.s)).hhR o h.kappa).B =
    ((hlllPrep o h.kappa h.s).hhR o h.kappa).B := rfl
  refine ⟨?_, ?_, ?_⟩
  · intro i hi
    rw [P.2.r i hi, P'.2.r i hi, hV, hB]
  · rw [P.2.nrm, P'.2.nrm, hB]
  · intro k hk
    rw [P.2.col.vr k hk, P'.2.col.vr k hk, hV, hB]

/-! ### Non-vacuity -/

/-- The columns (5,0), (3,1) are independent and the real operations are exact with ties to 0, so
`hlll` with `δ = 99/100` really terminates with an LLL-reduced basis: every hypothesis of the theorems
above is met by this run (its potential is 25). -/
example : ∃ s' : Lat ℝ,
    hlll realOps 54 (99 / 100) true
      (fresh realOps 7 2 2 (ofCols [[5, 0], [3, 1]]) true 0 true 0 1 1000000 100) = some (0, s') ∧
    s'.nblov < 100 ∧ LLLReduced (99 / 100) (toMatrix 2 2 s'.getbase.M) := by
  have hA : FullColumnRank (toMatrix 2 2 (ofCols [[5, 0], [3, 1]])) := by
    have : (toMatrix 2 2 (ofCols [[5, 0], [3, 1]])).det ≠ 0 := by
      rw [Matrix.det_fin_two]; decide
    exact Matrix.linearIndependent_cols_of_det_ne_zero this
  have hp : potential 2 2 (ofCols [[5, 0], [3, 1]]) = 25 := by
    unfold potential
    rw [prod_range_succ, prod_range_succ, prod_range_zero]
    simp [Matrix.det_unique, Matrix.mul_apply, toMatrix, ofCols]
  obtain ⟨s', h1, h2, _⟩ := C10_total_correctness realOps_exact 7 2 2 (ofCols [[5, 0], [3, 1]]) true 0
    (by norm_num) true 0 1 (by norm_num) 1000000 100 hA (99 / 100) (by norm_num) (by norm_num) true
    (by rw [hp]; norm_num)
  have h3 := h1 54 (by rw [hp]; norm_num)
  have h4 := (C10_swap_bound realOps_exact.toExact 7 2 2 (ofCols [[5, 0], [3, 1]]) true 0 true 0 1
    (by norm_num) 1000000 100 hA _ (99 / 100) (by norm_num) true s' h3).2 (by norm_num)
  rw [hp] at h4
  exact ⟨s', h3, by omega, h2⟩

end HPLLL.Props
