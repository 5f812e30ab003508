import Verif.Proof.SeyGS
import Verif.Proof.HlllpAny
import Verif.Props.Exact
/-!
# Seysen reduction (`hlll` with `reduction_method ≥ 1`) and `hlllp`

`Exact o`: the operations are those of the real numbers; otherwise any arithmetic.
-/

namespace HPLLL.Props
open HPLLL Spec Finset

variable {o : FPOps ℝ}

/-! ## Common part -/

theorem fresh_exInvG (ho : Exact o) (Q : ℕ → Mat ℝ → Prop) (junk : ℝ) (n d : ℕ) (A : Mat Int)
    (forU : Bool) (method : ℤ) (longFlag : Bool) (vd : ℤ) (S : ℕ) (hS : 0 < S) (thr : ℤ) (nb : ℕ)
    (δ : ℝ) :
    ExInvG n d A False Q (fresh o junk n d A forU method longFlag vd S thr nb) δ
      (hlllInit o (fresh o junk n d A forU method longFlag vd S thr nb)) :=
  ExInvG.init (fresh_inv o junk n d A forU method longFlag vd S thr nb False (fun h => h.elim)) hS
    (fun _ _ _ _ _ => ho.zero)

/-- What the state at the end of the loop gives. -/
theorem ExInvG.final {n d : ℕ} {A : Mat Int} {track : Prop} {thr : ℝ} {dth : ℤ} {s0 : Lat ℝ} {δ : ℝ}
    {h : HState ℝ} (hA : FullColumnRank (toMatrix n d A))
    (hE : ExInvG n d A track (QP thr dth s0) s0 δ h) (hd : d ≤ h.kappa) :
    LovaszCond δ (toMatrix n d h.s.B) ∧
      (s0.seysenFlag < 1 → SizeReduced (toMatrix n d h.s.B)) ∧
      (¬ s0.seysenFlag < 1 → ∀ i : Fin d, dth < i → SeysenCol thr (toMatrix n d h.s.B) i) ∧
      (¬ s0.seysenFlag < 1 → SeqSey s0 → ∀ i : Fin d, (i : ℤ) ≤ dth →
        SeysenCol (1 / 2) (toMatrix n d h.s.B) i) := by
  have triv : ∀ (c : ℝ) (i : Fin d), (i : ℕ) = 0 → SeysenCol c (toMatrix n d h.s.B) i := by
    intro c i hi t
    have hm : ∀ j, j ∉ seysenBlk d i t := fun j hj => by
      have := ((mem_seysenBlk i t j).mp hj).2
      have := seyHi_le i t; omega
    exact ⟨fun _ => 0, fun j hj => absurd hj (hm j), fun j hj => absurd hj (hm j)⟩
  by_cases hd1 : d ≤ 1
  · refine ⟨fun i j hij => ?_, fun _ i j hij => ?_, fun _ i _ => triv _ i ?_, fun _ _ i _ => triv _ i ?_⟩
    · have := i.2; omega
    · have hij' : (j : ℕ) < i := hij
      have := i.2; omega
    · have := i.2; omega
    · have := i.2; omega
  · have hk := hE.kd
    have hκ : h.kappa = d := by omega
    have hg := hE.inv.geo hA
    have hdn : d ≤ n := by
      have := hg.diag (d - 1) (by omega); have := hg.le (d - 1) (by omega); omega
    have hq := (hE.head.full (by omega)).qr
    have hr := hE.red (by omega)
    rw [hκ] at hq hr
    have hru : RedUpTo δ (s0.seysenFlag < 1) d h.s.fp.R := fun k h1 h2 =>
      ⟨(hr k h1 h2).1.1, (hr k h1 h2).2⟩
    obtain ⟨a, b⟩ := hq.reduced hdn hru
    refine ⟨b, a, fun hf i hi => ?_, fun hf hs i hi => ?_⟩
    · by_cases h0 : (i : ℕ) = 0
      · exact triv _ i h0
      · exact hq.seysenCol hdn i ((hr i (by omega) i.2).1.2.1 hf hi)
    · by_cases h0 : (i : ℕ) = 0
      · exact triv _ i h0
      · exact hq.seysenCol hdn i ((hr i (by omega) i.2).1.2.2 hf (by omega) hs)

/-! ## C60: `hlll` with the Seysen method -/

/-- `hlll` as the loop of `hlllp` where the alternative reduction is never used. -/
theorem fresh_hlll_p (ho : Exact o) (junk : ℝ) (n d : ℕ) (A : Mat Int) (forU : Bool)
    (method : ℤ) (longFlag : Bool) (vd : ℤ) (S : ℕ) (hS : 0 < S) (thr : ℤ) (nb : ℕ)
    (hA : FullColumnRank (toMatrix n d A))
    (fuel : ℕ) (δ : ℝ) (v : Bool) (st : ℤ) (s' : Lat ℝ)
    (h : hlll o fuel δ v (fresh o junk n d A forU method longFlag vd S thr nb) = some (st, s')) :
    ∃ s0 s1 : Lat ℝ, s'.B = s1.B ∧ s'.nblov = s1.nblov ∧ s1.nblovMax = nb ∧ s0.seysenFlag = method ∧
      s0.fastLong = longFlag ∧ s0.numS = S ∧ s0.parThr = thr ∧ s0.d = d ∧
      ExExitG n d A False (QP (1 / 2) d s0) s0 δ (hlllInit o s0) st s1 := by
  obtain ⟨h0, s1, eB, _, _, enb, _, enm, _⟩ :=
    fresh_exExit ho junk n d A forU method longFlag vd S hS thr nb hA fuel δ v st s' h
  clear eB enb enm
  unfold hlll at h
  simp only [] at h
  split at h
  · simp at h
  · rename_i st1 s1 hl
    have hX := hlll_exit o fuel δ v _ s' st
      (fresh_inv o junk n d A forU method longFlag vd S thr nb False (fun h => h.elim)) (le_refl d) (by
        unfold hlll; simp only []; rw [hl]; exact h)
    simp only [Option.some.injEq, Prod.mk.injEq] at h
    obtain ⟨rfl, rfl⟩ := h
    have hE : ExInvG n d A False (QP (1 / 2) d (if v then { fresh o junk n d A forU method longFlag vd S
          thr nb with verboseDepth := vd - 1 } else fresh o junk n d A forU method longFlag vd S thr nb))
        (if v then { fresh o junk n d A forU method longFlag vd S
          thr nb with verboseDepth := vd - 1 } else fresh o junk n d A forU method longFlag vd S thr nb) δ
        (hlllInit o (if v then { fresh o junk n d A forU method longFlag vd S
          thr nb with verboseDepth := vd - 1 } else
            fresh o junk n d A forU method longFlag vd S thr nb)) := by
      have hI := fresh_inv o junk n d A forU method longFlag vd S thr nb False (fun h => h.elim)
      refine ExInvG.init ?_ ?_ ?_
      · cases v
        · exact hI
        · exact hI.congr rfl rfl rfl rfl rfl rfl rfl rfl
      · cases v <;> exact hS
      · intro c _ r _ _
        cases v <;> exact ho.zero
    rw [← hlllLoop_eq_p o (1 / 2) d δ fuel _ (by cases v <;> rfl)
      (by right; cases v <;> exact (by show (d : ℤ) - 1 ≤ d; omega)) (by simp [hlllInit])] at hl
    refine ⟨_, s1, ?_, ?_, ?_, ?_, ?_, ?_, ?_, ?_,
      ExInvG.loop ho (le_refl _) d (by cases v <;> exact hS) hA fuel _ hE _ _ hl⟩
    · cases v <;> rfl
    · cases v <;> rfl
    · have := hX.cfg.nblovMax; cases v <;> exact this
    all_goals cases v <;> rfl

/-- **C60.** `hlll(δ)` with the Seysen method (long flag, sequential): if it returns 0 within the test
budget, `getbase()` is a basis of the input lattice which satisfies the Lovász conditions and all of
whose columns are Seysen-reduced with constant 1/2. -/
theorem C60_seysen_output (ho : Exact o) (junk : ℝ) (n d : ℕ) (A : Mat Int) (forU : Bool)
    (method : ℤ) (hm : 1 ≤ method) (vd : ℤ) (S : ℕ) (hS : 0 < S) (thr : ℤ)
    (hseq : S = 1 ∨ (d : ℤ) ≤ thr) (nb : ℕ)
    (hA : FullColumnRank (toMatrix n d A))
    (fuel : ℕ) (δ : ℝ) (verbose : Bool) (s' : Lat ℝ)
    (h : hlll o fuel δ verbose (fresh o junk n d A forU method true vd S thr nb) = some (0, s'))
    (hb : s'.nblov < nb) :
    LovaszCond δ (toMatrix n d s'.getbase.M) ∧
      SeysenReduced (1 / 2) (toMatrix n d s'.getbase.M) ∧
      (∀ i j : Fin d, (j : ℕ) + 1 = i → |mu (toMatrix n d s'.getbase.M) i j| ≤ 1 / 2) ∧
      lattice (toMatrix n d s'.getbase.M) = lattice (toMatrix n d A) := by
  obtain ⟨s0, s1, eB, enb, enm, e1, e2, e3, e4, e5, hX⟩ :=
    fresh_hlll_p ho junk n d A forU method true vd S hS thr nb hA fuel δ verbose 0 s' h
  have hlat := (C01_hlll_preserves_lattice o junk n d A forU method true vd S thr nb fuel δ
    verbose 0 s' h).2.2
  obtain ⟨h', hE', rfl, hd⟩ := hX.done rfl (by omega)
  obtain ⟨a, -, -, b⟩ := ExInvG.final hA hE' hd
  have hsey : SeysenReduced (1 / 2) (toMatrix n d h'.s.B) := fun i =>
    b (by rw [e1]; omega) ⟨e2, by rw [e3, e4, e5]; exact hseq⟩ i (by have := i.2; omega)
  simp only [Lat.getbase] at hlat ⊢
  rw [eB] at hlat ⊢
  exact ⟨a, hsey, fun i j hij => SeysenCol.mu_prev (hsey i) hij, hlat⟩

/-- **C60.** The Seysen method terminates (`δ ≤ 1`, rounding with ties towards zero), with the bound of
C10, and the outcome does not depend on how long one waits. -/
theorem C60_seysen_terminates (ho : ExactTies o) (junk : ℝ) (n d : ℕ) (A : Mat Int) (forU : Bool)
    (method : ℤ) (vd : ℤ) (S : ℕ) (hS : 0 < S) (thr : ℤ)
    (hseq : S = 1 ∨ (d : ℤ) ≤ thr) (nb : ℕ)
    (hA : FullColumnRank (toMatrix n d A)) (δ : ℝ) (hδ : δ ≤ 1) (verbose : Bool) :
    ∃ s' : Lat ℝ, ∀ fuel : ℕ, 2 * potential n d A + d + 2 ≤ fuel →
      hlll o fuel δ verbose (fresh o junk n d A forU method true vd S thr nb) = some (0, s') := by
  have hp : 0 < pot n d A := prod_pos fun k hk => gd_pos (mem_range.mp hk).le hA
  set f0 : ℕ := (2 * pot n d A + d + 2).toNat with hf0
  have hf : (f0 : ℤ) = 2 * pot n d A + d + 2 := by omega
  set s0 : Lat ℝ := if verbose then { fresh o junk n d A forU method true vd S thr nb with
    verboseDepth := vd - 1 } else fresh o junk n d A forU method true vd S thr nb with hs0
  have hE : ExInvG n d A False (QP (1 / 2) d s0) s0 δ (hlllInit o s0) := by
    have hI := fresh_inv o junk n d A forU method true vd S thr nb False (fun h => h.elim)
    refine ExInvG.init ?_ ?_ ?_
    · rw [hs0]; cases verbose
      · exact hI
      · exact hI.congr rfl rfl rfl rfl rfl rfl rfl rfl
    · rw [hs0]; cases verbose <;> exact hS
    · intro c _ r _ _
      rw [hs0]; cases verbose <;> exact ho.zero
  have hq : SeqSey s0 := by
    rw [hs0]; cases verbose <;> exact ⟨rfl, hseq⟩
  obtain ⟨⟨st, s1⟩, hr⟩ := ExInvG.loop_term ho (le_refl (1 / 2 : ℝ)) d (by
      rw [hs0]; cases verbose <;> exact hS) hδ (.inr (.inr hq)) hA f0 _ hE (by
      have e : (hlllInit o s0).s.B = A := by rw [hs0]; cases verbose <;> rfl
      rw [e, hf]; simp [hlllInit])
  rw [hlllLoop_eq_p o (1 / 2) d δ f0 _ (by rw [hs0]; cases verbose <;> rfl)
      (by right; rw [hs0]; cases verbose <;> exact (by show (d : ℤ) - 1 ≤ d; omega))
      (by simp [hlllInit])] at hr
  have hh : ∃ s', hlll o f0 δ verbose (fresh o junk n d A forU method true vd S thr nb) =
      some (st, s') := by
    unfold hlll
    simp only []
    exact ⟨_, by
      rw [show (fresh o junk n d A forU method true vd S thr nb).verboseDepth = vd from rfl, hr]⟩
  obtain ⟨s', hs'⟩ := hh
  have h0 := C09_never_fails ho.toExact junk n d A forU method true vd S hS thr nb hA f0 δ hδ
    verbose st s' hs'
  subst h0
  refine ⟨s', fun fuel hfuel => ?_⟩
  have hpot : potential n d A = pot n d A := rfl
  rw [hpot] at hfuel
  obtain ⟨k, rfl⟩ : ∃ k, fuel = f0 + k := ⟨fuel - f0, by omega⟩
  exact hlll_mono o f0 k δ verbose _ _ hs'

/-- **C60.** Short first vector for the Seysen method. -/
theorem C60_seysen_short_first_vector (ho : Exact o) (junk : ℝ) (n d : ℕ) (hd : 0 < d) (A : Mat Int)
    (forU : Bool) (method : ℤ) (hm : 1 ≤ method) (vd : ℤ) (S : ℕ) (hS : 0 < S)
    (thr : ℤ) (hseq : S = 1 ∨ (d : ℤ) ≤ thr) (nb : ℕ) (hA : FullColumnRank (toMatrix n d A))
    (fuel : ℕ) (δ : ℝ) (h4 : 1 / 4 < δ) (hδ : δ ≤ 1) (verbose : Bool) (s' : Lat ℝ)
    (h : hlll o fuel δ verbose (fresh o junk n d A forU method true vd S thr nb) = some (0, s'))
    (hb : s'.nblov < nb) (v : Fin n → ℤ) (hv : v ∈ lattice (toMatrix n d A)) (hv0 : v ≠ 0) :
    ∑ i : Fin n, (s'.getbase.M 0 i : ℝ) ^ 2 ≤
      (1 / (δ - 1 / 4)) ^ (d - 1) * ∑ i : Fin n, (v i : ℝ) ^ 2 := by
  obtain ⟨a, -, b, c⟩ := C60_seysen_output ho junk n d A forU method hm vd S hS thr hseq nb hA fuel δ
    verbose s' h hb
  rw [← c] at hv
  have := lovasz_first_short (c := 1 / 2) (by norm_num; linarith) hδ a b ⟨0, hd⟩ rfl v hv hv0
  have e : δ - (1 / 2) ^ 2 = δ - 1 / 4 := by norm_num
  rw [e] at this
  exact this

/-- Total correctness of the Seysen method on a concrete basis (all hypotheses are met). -/
example : ∃ s' : Lat ℝ,
    hlll realOps 54 (99 / 100) true
      (fresh realOps 7 2 2 (ofCols [[5, 0], [3, 1]]) true 1 true 0 1 1000000 100) = some (0, s') ∧
    s'.nblov < 100 ∧ SeysenReduced (1 / 2) (toMatrix 2 2 s'.getbase.M) := by
  have hA : FullColumnRank (toMatrix 2 2 (ofCols [[5, 0], [3, 1]])) := by
    have : (toMatrix 2 2 (ofCols [[5, 0], [3, 1]])).det ≠ 0 := by
      rw [Matrix.det_fin_two]; decide
    exact Matrix.linearIndependent_cols_of_det_ne_zero this
  have hp : potential 2 2 (ofCols [[5, 0], [3, 1]]) = 25 := by
    unfold potential
    rw [prod_range_succ, prod_range_succ, prod_range_zero]
    simp [Matrix.det_unique, Matrix.mul_apply, toMatrix, ofCols]
  obtain ⟨s', h1⟩ := C60_seysen_terminates realOps_exact 7 2 2 (ofCols [[5, 0], [3, 1]]) true 1 0 1
    (by norm_num) 1000000 (.inl rfl) 100 hA (99 / 100) (by norm_num) true
  have h3 := h1 54 (by rw [hp]; norm_num)
  have h4 := (C10_swap_bound realOps_exact.toExact 7 2 2 (ofCols [[5, 0], [3, 1]]) true 1 true 0 1
    (by norm_num) 1000000 100 hA _ (99 / 100) (by norm_num) true s' h3).2 (by norm_num)
  rw [hp] at h4
  exact ⟨s', h3, by omega, (C60_seysen_output realOps_exact.toExact 7 2 2 (ofCols [[5, 0], [3, 1]]) true 1
    (by norm_num) 0 1 (by norm_num) 1000000 (.inl rfl) 100 hA _ _ true s' h3 (by omega)).2.1⟩

/-! ## C61: `hlllp` -/

section any
variable {F : Type} (o : FPOps F)

/-- **C61.** `hlllp` for every floating point behaviour: same lattice and volume, status 0 or -1, test
budget, global `verboseDepth` untouched, every index in range. -/
theorem C61_hlllp_lattice (junk : F) (n d : ℕ) (A : Mat Int) (forU : Bool) (method : ℤ)
    (longFlag : Bool) (vd : ℤ) (S : ℕ) (thr : ℤ) (nb : ℕ)
    (c501 : F) (dth : ℤ) (fuel : ℕ) (delta : F) (status : ℤ) (s' : Lat F)
    (h : hlllp o c501 dth fuel delta
      (fresh o junk n d A forU method longFlag vd S thr nb) = some (status, s')) :
    s'.getbase.rows = n ∧ s'.getbase.cols = d ∧
      lattice (toMatrix n d s'.getbase.M) = lattice (toMatrix n d A) ∧
      ((toMatrix n d s'.getbase.M).transpose * toMatrix n d s'.getbase.M).det =
        ((toMatrix n d A).transpose * toMatrix n d A).det ∧
      (status = 0 ∨ status = -1) ∧ s'.nblov ≤ nb ∧ s'.nbswaps ≤ s'.nblov ∧ s'.verboseDepth = vd ∧
      (d ≤ n → s'.ub = false) := by
  have hI := fresh_inv o junk n d A forU method longFlag vd S thr nb False (fun h => h.elim)
  have hE := hlllp_exit o c501 dth fuel delta _ s' status hI rfl h
  obtain ⟨W, hW, hB, -⟩ := hE.inv.uni
  have h1 := hE.lov
  have h2 := hE.sw
  simp only [fresh, newLattice, Lat.setNumS, Lat.setNblovMax] at h1 h2
  refine ⟨hE.inv.hn, hE.inv.hd, ?_, ?_, hE.status, by omega, by omega, hE.cfg.verboseDepth, fun hdn => ?_⟩
  · simp only [Lat.getbase]; rw [hB, lattice_mul_unit _ _ hW]
  · simp only [Lat.getbase]; rw [hB, gram_det_mul_unit _ _ hW]
  · unfold hlllp at h
    refine (Safe.ploop o c501 dth (n := n) (d := d) (A := A) (track := False) hdn delta fuel _ Nat.one_pos
      (hI.congr rfl rfl rfl rfl rfl rfl rfl rfl) ⟨rfl, fun c hc hk => ?_⟩ _ _ h).ub
    simp only [hlllInit] at hc hk
    rw [if_pos hc] at hk; simp at hk

/-- **C61.** `hlllp` and the transformation matrix. -/
theorem C61_hlllp_transformation (junk : F) (n d : ℕ) (A : Mat Int) (method : ℤ)
    (longFlag : Bool) (vd : ℤ) (S : ℕ) (thr : ℤ) (nb : ℕ)
    (hseq : S = 1 ∨ (d : ℤ) ≤ thr + 1) (hA : FullColumnRank (toMatrix n d A))
    (c501 : F) (dth : ℤ) (fuel : ℕ) (delta : F) (status : ℤ) (s' : Lat F)
    (h : hlllp o c501 dth fuel delta
      (fresh o junk n d A true method longFlag vd S thr nb) = some (status, s')) :
    toMatrix n d A * toMatrix d d s'.getU.M = toMatrix n d s'.getbase.M ∧
      Unimodular (toMatrix d d s'.getU.M) := by
  have hE := hlllp_exit o c501 dth fuel delta _ s' status
    (fresh_inv o junk n d A true method longFlag vd S thr nb True (fun _ => ⟨rfl, hA, hseq⟩)) rfl h
  obtain ⟨W, hW, hB, hU⟩ := hE.inv.uni
  have ht := hE.inv.tr trivial
  simp only [Lat.getU, ht, if_true, Lat.getbase]
  refine ⟨by rw [hU trivial, hB], ?_⟩
  rw [hU trivial]
  exact unimodular_of_isUnit hW

/-- **C61.** When the alternative reduction is never selected (size reduction, or a threshold at least
`d-1`) `hlllp(δ, dthreshold)` is `hlll(δ)`, for every arithmetic. -/
theorem C61_hlllp_is_hlll (junk : F) (n d : ℕ) (A : Mat Int) (forU : Bool) (method : ℤ)
    (longFlag : Bool) (vd : ℤ) (S : ℕ) (thr : ℤ) (nb : ℕ) (c501 : F) (dth : ℤ)
    (hd : method < 1 ∨ (d : ℤ) - 1 ≤ dth) (fuel : ℕ) (delta : F) :
    hlllp o c501 dth fuel delta (fresh o junk n d A forU method longFlag vd S thr nb) =
      hlll o fuel delta false (fresh o junk n d A forU method longFlag vd S thr nb) := by
  unfold hlllp hlll
  simp only [Bool.false_eq_true, if_false]
  rw [hlllLoop_eq_p o c501 dth delta fuel _ rfl hd (by simp [hlllInit])]
  cases hlllLoop o delta fuel (hlllInit o (fresh o junk n d A forU method longFlag vd S thr nb)) <;> rfl

end any

/-- **C61.** If `hlllp(δ, dthreshold)` returns 0 within the test budget: Lovász conditions; with the
size reduction method, LLL-reduced; with the Seysen method, every column beyond the threshold is
Seysen-reduced with the constant of the code (0.501), every other one (long flag, sequential) with
constant 1/2. -/
theorem C61_hlllp_output (ho : Exact o) (junk : ℝ) (n d : ℕ) (A : Mat Int) (forU : Bool)
    (method : ℤ) (longFlag : Bool) (vd : ℤ) (S : ℕ) (hS : 0 < S) (thr : ℤ) (nb : ℕ)
    (hA : FullColumnRank (toMatrix n d A)) (c501 : ℝ) (hc : 1 / 2 ≤ c501) (dth : ℤ)
    (fuel : ℕ) (δ : ℝ) (s' : Lat ℝ)
    (h : hlllp o c501 dth fuel δ
      (fresh o junk n d A forU method longFlag vd S thr nb) = some (0, s'))
    (hb : s'.nblov < nb) :
    LovaszCond δ (toMatrix n d s'.getbase.M) ∧
      (method < 1 → LLLReduced δ (toMatrix n d s'.getbase.M)) ∧
      (1 ≤ method → ∀ i : Fin d, dth < i → SeysenCol c501 (toMatrix n d s'.getbase.M) i) ∧
      (1 ≤ method → longFlag = true → (S = 1 ∨ (d : ℤ) ≤ thr) → ∀ i : Fin d, (i : ℤ) ≤ dth →
        SeysenCol (1 / 2) (toMatrix n d s'.getbase.M) i) := by
  have hX := ExInvG.loop ho hc dth (s0 := fresh o junk n d A forU method longFlag vd S thr nb) hS hA fuel _
    (fresh_exInvG ho _ junk n d A forU method longFlag vd S hS thr nb δ) _ _ h
  have hE := hlllp_exit o c501 dth fuel δ _ s' 0
    (fresh_inv o junk n d A forU method longFlag vd S thr nb False (fun h => h.elim)) rfl h
  obtain ⟨h', hE', rfl, hd⟩ := hX.done rfl (by have := hE.cfg.nblovMax; rw [this]; exact hb)
  obtain ⟨a, b, e, f⟩ := ExInvG.final hA hE' hd
  have hf : (fresh o junk n d A forU method longFlag vd S thr nb).seysenFlag = method := rfl
  rw [hf] at b e f
  exact ⟨a, fun hm => ⟨b hm, a⟩, fun hm => e (by omega), fun hm hl hs => f (by omega) ⟨hl, hs⟩⟩

/-- **C61.** With `δ ≤ 1`, `hlllp` never returns -1; swap and test bounds. -/
theorem C61_hlllp_never_fails (ho : Exact o) (junk : ℝ) (n d : ℕ) (A : Mat Int) (forU : Bool)
    (method : ℤ) (longFlag : Bool) (vd : ℤ) (S : ℕ) (hS : 0 < S) (thr : ℤ) (nb : ℕ)
    (hA : FullColumnRank (toMatrix n d A)) (c501 : ℝ) (hc : 1 / 2 ≤ c501) (dth : ℤ)
    (fuel : ℕ) (δ : ℝ) (h0 : 0 < δ) (hδ : δ ≤ 1) (status : ℤ) (s' : Lat ℝ)
    (h : hlllp o c501 dth fuel δ
      (fresh o junk n d A forU method longFlag vd S thr nb) = some (status, s')) :
    status = 0 ∧ (1 / δ) ^ s'.nbswaps ≤ potential n d A ∧ (s'.nblov : ℤ) < 2 * potential n d A + d := by
  have hX := ExInvG.loop ho hc dth (s0 := fresh o junk n d A forU method longFlag vd S thr nb) hS hA fuel _
    (fresh_exInvG ho _ junk n d A forU method longFlag vd S hS thr nb δ) _ _ h
  have hst : status = 0 := by
    rcases hX.two with e | e
    · exact e
    · exact absurd hδ (hX.fail e)
  refine ⟨hst, ?_, ?_⟩
  · obtain ⟨w, w1, w2, w3⟩ := hX.swaps hst
    have w1 : s'.nbswaps = 0 + w := w1
    have w2 : (pot n d s'.B : ℝ) ≤ δ ^ w * pot n d A := w2
    rw [w1, zero_add, one_div, inv_pow, inv_le_iff_one_le_mul₀ (pow_pos h0 w)]
    have h1 : (1 : ℝ) ≤ pot n d s'.B := by exact_mod_cast w3
    calc (1 : ℝ) ≤ _ := h1
      _ ≤ δ ^ w * pot n d A := w2
      _ = potential n d A * δ ^ w := mul_comm _ _
  · have : (s'.nblov : ℤ) + 1 ≤ 0 + (2 * pot n d A + (d - 1)) := hX.tests hδ
    have e : potential n d A = pot n d A := rfl
    rw [e]; omega

/-- **C61.** `hlllp` terminates when every column is reduced by size reduction, by the alternative
reduction (`dthreshold < 1`), or with the long flag and sequentially. -/
theorem C61_hlllp_terminates (ho : ExactTies o) (junk : ℝ) (n d : ℕ) (A : Mat Int) (forU : Bool)
    (method : ℤ) (longFlag : Bool) (vd : ℤ) (S : ℕ) (hS : 0 < S) (thr : ℤ) (nb : ℕ)
    (hA : FullColumnRank (toMatrix n d A)) (c501 : ℝ) (hc : 1 / 2 ≤ c501) (dth : ℤ)
    (hq : method < 1 ∨ dth < 1 ∨ (longFlag = true ∧ (S = 1 ∨ (d : ℤ) ≤ thr)))
    (δ : ℝ) (h0 : 0 < δ) (hδ : δ ≤ 1) :
    ∃ s' : Lat ℝ, ∀ fuel : ℕ, 2 * potential n d A + d + 2 ≤ fuel →
      hlllp o c501 dth fuel δ (fresh o junk n d A forU method longFlag vd S thr nb) = some (0, s') := by
  have hp : 0 < pot n d A := prod_pos fun k hk => gd_pos (mem_range.mp hk).le hA
  set f0 : ℕ := (2 * pot n d A + d + 2).toNat with hf0
  have hf : (f0 : ℤ) = 2 * pot n d A + d + 2 := by omega
  obtain ⟨⟨st, s1⟩, hr⟩ := ExInvG.loop_term ho hc dth
    (s0 := fresh o junk n d A forU method longFlag vd S thr nb) hS hδ hq hA f0 _
    (fresh_exInvG ho.toExact _ junk n d A forU method longFlag vd S hS thr nb δ) (by
      show 2 * pot n d A + (d - ((1 : ℕ) : ℤ)) + 2 ≤ f0
      rw [hf]; push_cast; omega)
  have h00 := (C61_hlllp_never_fails ho.toExact junk n d A forU method longFlag vd S hS thr nb hA c501 hc dth
    f0 δ h0 hδ st s1 hr).1
  subst h00
  refine ⟨s1, fun fuel hfuel => ?_⟩
  have hpot : potential n d A = pot n d A := rfl
  rw [hpot] at hfuel
  obtain ⟨k, rfl⟩ : ∃ k, fuel = f0 + k := ⟨fuel - f0, by omega⟩
  exact hlllpLoop_mono o c501 dth δ f0 k _ _ hr

/-- **C61.** Short first vector for `hlllp` with the alternative reduction on all columns. -/
theorem C61_hlllp_short_first_vector (ho : Exact o) (junk : ℝ) (n d : ℕ) (hd : 0 < d) (A : Mat Int)
    (forU : Bool) (method : ℤ) (hm : 1 ≤ method) (longFlag : Bool) (vd : ℤ) (S : ℕ) (hS : 0 < S)
    (thr : ℤ) (nb : ℕ) (hA : FullColumnRank (toMatrix n d A)) (c501 : ℝ) (hc : 1 / 2 ≤ c501) (dth : ℤ)
    (hq : dth < 1 ∨ (longFlag = true ∧ (S = 1 ∨ (d : ℤ) ≤ thr)))
    (fuel : ℕ) (δ : ℝ) (h4 : c501 ^ 2 < δ) (hδ : δ ≤ 1) (s' : Lat ℝ)
    (h : hlllp o c501 dth fuel δ
      (fresh o junk n d A forU method longFlag vd S thr nb) = some (0, s'))
    (hb : s'.nblov < nb) (v : Fin n → ℤ) (hv : v ∈ lattice (toMatrix n d A)) (hv0 : v ≠ 0) :
    ∑ i : Fin n, (s'.getbase.M 0 i : ℝ) ^ 2 ≤
      (1 / (δ - c501 ^ 2)) ^ (d - 1) * ∑ i : Fin n, (v i : ℝ) ^ 2 := by
  obtain ⟨a, -, b, e⟩ := C61_hlllp_output ho junk n d A forU method longFlag vd S hS thr nb hA c501 hc dth fuel δ
    s' h hb
  have hl := (C61_hlllp_lattice o junk n d A forU method longFlag vd S thr nb c501 dth fuel δ 0 s' h).2.2.1
  rw [← hl] at hv
  refine lovasz_first_short h4 hδ a (fun i j hij => ?_) ⟨0, hd⟩ rfl v hv hv0
  by_cases hi : dth < i
  · exact SeysenCol.mu_prev (b hm i hi) hij
  · rcases hq with hq | hq
    · omega
    · exact (SeysenCol.mu_prev (e hm hq.1 hq.2 i (by omega)) hij).trans hc

/-- All the hypotheses of C61 are met by this run of the alternative reduction (`dthreshold = 0`, constant
0.501, no long flag, 3 threads). -/
example : ∃ s' : Lat ℝ,
    hlllp realOps (501 / 1000) 0 54 (99 / 100)
      (fresh realOps 7 2 2 (ofCols [[5, 0], [3, 1]]) true 1 false 0 3 1 100) = some (0, s') ∧
    s'.nblov < 100 ∧ SeysenReduced (501 / 1000) (toMatrix 2 2 s'.getbase.M) := by
  have hA : FullColumnRank (toMatrix 2 2 (ofCols [[5, 0], [3, 1]])) := by
    have : (toMatrix 2 2 (ofCols [[5, 0], [3, 1]])).det ≠ 0 := by
      rw [Matrix.det_fin_two]; decide
    exact Matrix.linearIndependent_cols_of_det_ne_zero this
  have hp : potential 2 2 (ofCols [[5, 0], [3, 1]]) = 25 := by
    unfold potential
    rw [prod_range_succ, prod_range_succ, prod_range_zero]
    simp [Matrix.det_unique, Matrix.mul_apply, toMatrix, ofCols]
  obtain ⟨s', h1⟩ := C61_hlllp_terminates realOps_exact 7 2 2 (ofCols [[5, 0], [3, 1]]) true 1 false 0 3
    (by norm_num) 1 100 hA (501 / 1000) (by norm_num) 0 (.inr (.inl (by norm_num))) (99 / 100)
    (by norm_num) (by norm_num)
  have h3 := h1 54 (by rw [hp]; norm_num)
  have h4 := (C61_hlllp_never_fails realOps_exact.toExact 7 2 2 (ofCols [[5, 0], [3, 1]]) true 1 false 0 3
    (by norm_num) 1 100 hA (501 / 1000) (by norm_num) 0 _ (99 / 100) (by norm_num) (by norm_num) 0 s'
    h3).2.2
  rw [hp] at h4
  refine ⟨s', h3, by omega, fun i => ?_⟩
  have h6 := (C61_hlllp_output realOps_exact.toExact 7 2 2 (ofCols [[5, 0], [3, 1]]) true 1 false 0 3
    (by norm_num) 1 100 hA (501 / 1000) (by norm_num) 0 54 (99 / 100) s' h3 (by omega)).2.2.1 (by norm_num)
  by_cases hi : (0 : ℤ) < i
  · exact h6 i hi
  · intro t
    have hm : ∀ j, j ∉ seysenBlk 2 i t := fun j hj => by
      have := ((mem_seysenBlk i t j).mp hj).2
      have := seyHi_le i t; omega
    exact ⟨fun _ => 0, fun j hj => absurd hj (hm j), fun j hj => absurd hj (hm j)⟩

end HPLLL.Props
