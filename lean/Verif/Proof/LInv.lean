import Verif.Proof.ZStep
import Mathlib.LinearAlgebra.Dimension.StrongRankCondition
import Mathlib.LinearAlgebra.Dimension.Constructions
import Mathlib.Tactic.NormNum
/-! Invariants of the integer data, for every floating point behaviour. -/

namespace HPLLL
open Spec Matrix

variable {F : Type} (o : FPOps F)

/-! ### matrix_structure -/

theorem lastNonzero_lt (c : Nat → Int) (m : Nat) : lastNonzero c m < m := by
  induction m with
  | zero => simp [lastNonzero]
  | succ m ih => simp only [lastNonzero]; split <;> push_cast <;> omega

theorem lastNonzero_ge (c : Nat → Int) (m : Nat) : -1 ≤ lastNonzero c m := by
  induction m with
  | zero => simp [lastNonzero]
  | succ m ih => simp only [lastNonzero]; split <;> omega

theorem lastNonzero_supp (c : Nat → Int) (m r : Nat) (hr : r < m) (h : lastNonzero c m < r) :
    c r = 0 := by
  induction m with
  | zero => omega
  | succ m ih =>
    simp only [lastNonzero] at h
    split at h
    · rename_i h0
      by_cases hrm : r = m
      · subst hrm; exact h0
      · exact ih (by omega) h
    · omega

theorem lastNonzero_ne (c : Nat → Int) (m k : Nat) (h : lastNonzero c m = k) : c k ≠ 0 := by
  induction m with
  | zero => simp [lastNonzero] at h
  | succ m ih =>
    simp only [lastNonzero] at h
    split at h
    · exact ih h
    · rename_i h0
      have : m = k := by exact_mod_cast h
      subst this; exact h0

theorem matrixStructure_lt (n : Nat) (B : Mat Int) (k : Nat) : matrixStructure n B k < n := by
  induction k with
  | zero => exact lastNonzero_lt _ _
  | succ k ih => simp only [matrixStructure]; exact max_lt ih (lastNonzero_lt _ _)

theorem matrixStructure_ge (n : Nat) (B : Mat Int) (k : Nat) : -1 ≤ matrixStructure n B k := by
  induction k with
  | zero => exact lastNonzero_ge _ _
  | succ k ih => simp only [matrixStructure]; exact le_trans ih (le_max_left _ _)

theorem matrixStructure_mono (n : Nat) (B : Mat Int) {i j : Nat} (h : i ≤ j) :
    matrixStructure n B i ≤ matrixStructure n B j := by
  induction h with
  | refl => exact le_refl _
  | step _ ih => simp only [matrixStructure]; exact le_trans ih (le_max_left _ _)

theorem lastNonzero_le_structure (n : Nat) (B : Mat Int) (k : Nat) :
    lastNonzero (B k) n ≤ matrixStructure n B k := by
  cases k with
  | zero => exact le_refl _
  | succ k => exact le_max_right _ _

theorem matrixStructure_supp (n : Nat) (B : Mat Int) (k r : Nat) (hr : r < n)
    (h : matrixStructure n B k < r) : B k r = 0 :=
  lastNonzero_supp _ n r hr (lt_of_le_of_lt (lastNonzero_le_structure n B k) h)

/-- Independent columns have a profile on or below the diagonal. -/
theorem structure_ge_diag (n d : Nat) (A : Mat Int) (h : FullColumnRank (toMatrix n d A))
    (str : Nat → Int) (hmono : ∀ i j, i ≤ j → j < d → str i ≤ str j)
    (hlt : ∀ j < d, str j < n)
    (hsupp : ∀ j < d, ∀ r, r < n → str j < r → A j r = 0) (j : Nat) (hj : j < d) :
    (j : Int) ≤ str j := by
  set m := (str j + 1).toNat with hm
  have hmn : m ≤ n := by have := hlt j hj; omega
  -- restriction and extension maps
  let P : Fin (j + 1) → (Fin m → ℤ) := fun a r => A a r
  let E : (Fin m → ℤ) →ₗ[ℤ] (Fin n → ℤ) :=
    { toFun := fun v r => if h : (r : Nat) < m then v ⟨r, h⟩ else 0
      map_add' := by intro v w; ext r; simp only [Pi.add_apply]; split <;> simp
      map_smul' := by intro c v; ext r; simp only [Pi.smul_apply]; split <;> simp }
  have hE : (E ∘ P) = fun a : Fin (j + 1) => fun r : Fin n => A a r := by
    funext a r
    simp only [Function.comp, E, P, LinearMap.coe_mk, AddHom.coe_mk]
    split
    · rfl
    · rename_i hr
      have h1 : str a ≤ str j := hmono a j (by omega) hj
      exact (hsupp a (by omega) r r.2 (by omega)).symm
  have hli : LinearIndependent ℤ fun a : Fin (j + 1) => fun r : Fin n => A a r := by
    have := h.comp (fun a : Fin (j + 1) => (⟨a, by omega⟩ : Fin d))
      (fun a b hab => by simpa [Fin.ext_iff] using hab)
    exact this
  have hP : LinearIndependent ℤ P := by
    rw [← hE] at hli
    exact LinearIndependent.of_comp E hli
  have := hP.fintype_card_le_finrank
  simp at this
  omega

/-! ### Frame -/

/-- What a reduction of column `κ` leaves untouched. -/
structure Frame (κ : Nat) (s s' : Lat F) : Prop where
  n : s'.n = s.n
  d : s'.d = s.d
  transf : s'.transf = s.transf
  kappaMax : s'.kappaMax = s.kappaMax
  nblovMax : s'.nblovMax = s.nblovMax
  str : s'.str = s.str
  nblov : s'.nblov = s.nblov
  nbswaps : s'.nbswaps = s.nbswaps
  numS : s'.numS = s.numS
  parThr : s'.parThr = s.parThr
  seysenFlag : s'.seysenFlag = s.seysenFlag
  fastLong : s'.fastLong = s.fastLong
  verboseDepth : s'.verboseDepth = s.verboseDepth
  Bcol : ∀ j, j ≠ κ → s'.B j = s.B j

theorem ZStep.frame {κ : Nat} {s s' : Lat F} (h : ZStep κ s s') : Frame κ s s' := by
  cases h with
  | fp => constructor <;> intros <;> rfl
  | col p b i c h =>
    constructor <;> intros <;> try rfl
    rename_i hj; simp only [axpy]; rw [setCol_ne _ _ hj]
  | pcol i c l h hl hp =>
    constructor <;> intros <;> try rfl
    rename_i hj; simp only [axpy]; rw [setCol_ne _ _ hj]

theorem Frame.refl' {κ : Nat} (s : Lat F) : Frame κ s s := by
  constructor <;> intros <;> rfl

theorem Frame.trans' {κ : Nat} {s t u : Lat F} (h1 : Frame κ s t) (h2 : Frame κ t u) :
    Frame κ s u := by
  constructor
  · exact h2.n.trans h1.n
  · exact h2.d.trans h1.d
  · exact h2.transf.trans h1.transf
  · exact h2.kappaMax.trans h1.kappaMax
  · exact h2.nblovMax.trans h1.nblovMax
  · exact h2.str.trans h1.str
  · exact h2.nblov.trans h1.nblov
  · exact h2.nbswaps.trans h1.nbswaps
  · exact h2.numS.trans h1.numS
  · exact h2.parThr.trans h1.parThr
  · exact h2.seysenFlag.trans h1.seysenFlag
  · exact h2.fastLong.trans h1.fastLong
  · exact h2.verboseDepth.trans h1.verboseDepth
  · intro j hj; exact (h2.Bcol j hj).trans (h1.Bcol j hj)

theorem ZSteps.frame {κ : Nat} {s s' : Lat F} (h : ZSteps κ s s') : Frame κ s s' := by
  induction h with
  | refl => exact Frame.refl' s
  | tail _ h ih => exact ih.trans' h.frame

/-! ### Lattice invariant -/

/-- Lattice and structure invariant relative to the initial basis `A`; `track` says whether the
transformation matrix is required to follow. -/
structure LInv (n d : Nat) (A : Mat Int) (track : Prop) (s : Lat F) : Prop where
  hn : s.n = n
  hd : s.d = d
  lt : ∀ j < d, s.str j < n
  mono : ∀ i j, i ≤ j → j < d → s.str i ≤ s.str j
  supp : ∀ j < d, ∀ r, r < n → s.str j < r → s.B j r = 0
  seq : track → (s.numS = 1 ∨ (d : Int) ≤ s.parThr + 1)
  usupp : track → ∀ j < d, ∀ r, r < d → s.str j < r → s.U j r = 0
  tr : track → s.transf = true
  uni : ∃ W : Matrix (Fin d) (Fin d) ℤ, IsUnit W.det ∧ toMatrix n d s.B = toMatrix n d A * W ∧
    (track → toMatrix d d s.U = W)

theorem axpy_supp {n d κ i : Nat} (str : Nat → Int) (M : Mat Int) (c : Int) (l : Nat)
    (hi : i < κ) (hκ : κ < d) (hm : str i ≤ str κ)
    (h : ∀ j < d, ∀ r, r < n → str j < r → M j r = 0) :
    ∀ j < d, ∀ r, r < n → str j < r → axpy M κ i c l j r = 0 := by
  intro j hj r hr hs
  unfold axpy
  by_cases hjk : j = κ
  · subst hjk
    rw [setCol_same]
    rw [h j hj r hr hs, h i (by omega) r hr (by omega)]
    simp
  · rw [setCol_ne _ _ hjk]; exact h j hj r hr hs

theorem LInv.zstep {n d : Nat} {A : Mat Int} {track : Prop} {κ : Nat} {s s' : Lat F}
    (hκ : κ < d) (h : ZStep κ s s') (hI : LInv n d A track s) : LInv n d A track s' := by
  obtain ⟨hn, hd, hlt, hmono, hsupp, hseq, husupp, htr, W, hW, hB, hU⟩ := hI
  cases h with
  | fp p b => exact ⟨hn, hd, hlt, hmono, hsupp, hseq, husupp, htr, W, hW, hB, hU⟩
  | col p b i c h =>
    have hne : (⟨i, by omega⟩ : Fin d) ≠ ⟨κ, hκ⟩ := by simp [Fin.ext_iff]; omega
    refine ⟨hn, hd, hlt, hmono, ?_, hseq, ?_, htr,
      W * transvection ⟨i, by omega⟩ ⟨κ, hκ⟩ c, ?_, ?_, ?_⟩
    · exact axpy_supp s.str s.B c _ h hκ (hmono i κ (by omega) hκ) hsupp
    · intro ht
      simp only [htr ht, if_true]
      exact axpy_supp s.str s.U c _ h hκ (hmono i κ (by omega) hκ) (husupp ht)
    · rw [Matrix.det_mul, det_transvection_of_ne _ _ hne, mul_one]; exact hW
    · rw [← Matrix.mul_assoc, ← hB]
      refine toMatrix_axpy n d s.B ⟨κ, hκ⟩ ⟨i, by omega⟩ hne.symm.symm c _ ?_
      intro r hr hrn
      refine hsupp i (by omega) r hrn ?_
      unfold nmaxOf at hr; omega
    · intro ht
      simp only [htr ht, if_true]
      rw [← hU ht]
      refine toMatrix_axpy d d s.U ⟨κ, hκ⟩ ⟨i, by omega⟩ hne c _ ?_
      intro r hr hrn
      refine husupp ht i (by omega) r hrn ?_
      unfold nmaxOf at hr
      rw [hd] at hr
      omega
  | pcol i c l h hl hp =>
    have hne : (⟨i, by omega⟩ : Fin d) ≠ ⟨κ, hκ⟩ := by simp [Fin.ext_iff]; omega
    have hnt : ¬ track := by
      intro ht
      apply hp
      rcases hseq ht with h1 | h1
      · exact Or.inl h1
      · right; omega
    refine ⟨hn, hd, hlt, hmono, ?_, hseq, fun ht => absurd ht hnt, htr,
      W * transvection ⟨i, by omega⟩ ⟨κ, hκ⟩ c, ?_, ?_, fun ht => absurd ht hnt⟩
    · exact axpy_supp s.str s.B c _ h hκ (hmono i κ (by omega) hκ) hsupp
    · rw [Matrix.det_mul, det_transvection_of_ne _ _ hne, mul_one]; exact hW
    · rw [← Matrix.mul_assoc, ← hB]
      refine toMatrix_axpy n d s.B ⟨κ, hκ⟩ ⟨i, by omega⟩ hne c _ ?_
      intro r hr hrn
      refine hsupp i (by omega) r hrn ?_
      unfold nmaxOf at hl; omega

theorem LInv.zsteps {n d : Nat} {A : Mat Int} {track : Prop} {κ : Nat} {s s' : Lat F}
    (hκ : κ < d) (h : ZSteps κ s s') (hI : LInv n d A track s) : LInv n d A track s' := by
  induction h with
  | refl => exact hI
  | tail _ h ih => exact ih.zstep hκ h

theorem colswap_supp {n d κ : Nat} (str : Nat → Int) (M : Mat Int) (hκ : κ < d) (h0 : 0 < κ)
    (hm : str (κ - 1) ≤ str κ)
    (h : ∀ j < d, ∀ r, r < n → str j < r → M j r = 0) :
    ∀ j < d, ∀ r, r < n → setAt str (κ - 1) (str κ) j < r → colswap M (κ - 1) κ j r = 0 := by
  intro j hj r hr hs
  unfold colswap
  by_cases h1 : j = κ - 1
  · subst h1
    rw [setAt_same] at hs
    simp only [if_true]
    exact h κ hκ r hr hs
  · rw [setAt_ne _ _ h1] at hs
    simp only [h1, if_false]
    by_cases h2 : j = κ
    · subst h2
      simp only [if_true]
      exact h (j - 1) (by omega) r hr (by omega)
    · simp only [h2, if_false]
      exact h j hj r hr hs

theorem LInv.down {n d : Nat} {A : Mat Int} {track : Prop} {κ : Nat} {s : Lat F}
    (hκ : κ < d) (h0 : 0 < κ) (hI : LInv n d A track s) : LInv n d A track (hlllDown κ s) := by
  obtain ⟨hn, hd, hlt, hmono, hsupp, hseq, husupp, htr, W, hW, hB, hU⟩ := hI
  have hne : (⟨κ - 1, by omega⟩ : Fin d) ≠ ⟨κ, hκ⟩ := by simp [Fin.ext_iff]; omega
  have hmk : s.str (κ - 1) ≤ s.str κ := hmono _ _ (by omega) hκ
  refine ⟨hn, hd, ?_, ?_, ?_, hseq, ?_, htr,
    W * (Equiv.swap ⟨κ - 1, by omega⟩ ⟨κ, hκ⟩).permMatrix ℤ, ?_, ?_, ?_⟩
  · intro j hj
    simp only [hlllDown]
    by_cases h1 : j = κ - 1
    · subst h1; rw [setAt_same]; exact hlt κ hκ
    · rw [setAt_ne _ _ h1]; exact hlt j hj
  · intro i j hij hj
    simp only [hlllDown]
    by_cases h1 : i = κ - 1
    · subst h1
      rw [setAt_same]
      by_cases h2 : j = κ - 1
      · subst h2; rw [setAt_same]
      · rw [setAt_ne _ _ h2]; exact hmono κ j (by omega) hj
    · rw [setAt_ne _ _ h1]
      by_cases h2 : j = κ - 1
      · subst h2; rw [setAt_same]; exact hmono i κ (by omega) hκ
      · rw [setAt_ne _ _ h2]; exact hmono i j hij hj
  · exact colswap_supp s.str s.B hκ h0 hmk hsupp
  · intro ht
    simp only [hlllDown, htr ht, if_true]
    exact colswap_supp s.str s.U hκ h0 hmk (husupp ht)
  · rw [Matrix.det_mul, det_swapMat _ _ hne]
    exact hW.mul (by decide)
  · rw [← Matrix.mul_assoc, ← hB]
    exact toMatrix_colswap n d s.B ⟨κ - 1, by omega⟩ ⟨κ, hκ⟩
  · intro ht
    simp only [hlllDown, htr ht, if_true]
    rw [← hU ht]
    exact toMatrix_colswap d d s.U ⟨κ - 1, by omega⟩ ⟨κ, hκ⟩

/-- `LInv` does not depend on the floating point part or the counters. -/
theorem LInv.congr {n d : Nat} {A : Mat Int} {track : Prop} {s s' : Lat F}
    (hI : LInv n d A track s) (h1 : s'.n = s.n) (h2 : s'.d = s.d) (h3 : s'.str = s.str)
    (h4 : s'.B = s.B) (h5 : s'.U = s.U) (h6 : s'.transf = s.transf) (h7 : s'.numS = s.numS)
    (h8 : s'.parThr = s.parThr) : LInv n d A track s' := by
  obtain ⟨hn, hd, hlt, hmono, hsupp, hseq, husupp, htr, hW⟩ := hI
  constructor <;> simp only [h1, h2, h3, h4, h5, h6, h7, h8] <;> assumption

/-- Parameters that never change during `hlll`. -/
structure SameCfg (s s' : Lat F) : Prop where
  n : s'.n = s.n
  d : s'.d = s.d
  transf : s'.transf = s.transf
  kappaMax : s'.kappaMax = s.kappaMax
  nblovMax : s'.nblovMax = s.nblovMax
  numS : s'.numS = s.numS
  parThr : s'.parThr = s.parThr
  seysenFlag : s'.seysenFlag = s.seysenFlag
  fastLong : s'.fastLong = s.fastLong
  verboseDepth : s'.verboseDepth = s.verboseDepth

theorem SameCfg.rfl' (s : Lat F) : SameCfg s s := by constructor <;> rfl
theorem SameCfg.trans' {s t u : Lat F} (a : SameCfg s t) (b : SameCfg t u) : SameCfg s u :=
  ⟨b.n.trans a.n, b.d.trans a.d, b.transf.trans a.transf, b.kappaMax.trans a.kappaMax,
   b.nblovMax.trans a.nblovMax, b.numS.trans a.numS, b.parThr.trans a.parThr,
   b.seysenFlag.trans a.seysenFlag, b.fastLong.trans a.fastLong,
   b.verboseDepth.trans a.verboseDepth⟩
theorem Frame.cfg {κ} {s t : Lat F} (a : Frame κ s t) : SameCfg s t :=
  ⟨a.n, a.d, a.transf, a.kappaMax, a.nblovMax, a.numS, a.parThr, a.seysenFlag, a.fastLong,
   a.verboseDepth⟩

/-- Shape of one iteration of the main loop. -/
theorem hlllStep_cases (fuel : Nat) (δ : F) (h : HState F) (hκ : 0 < h.kappa) :
    (hlllStep o fuel δ h = .diverge) ∨
    (∃ s, ZSteps h.kappa h.s s ∧ hlllStep o fuel δ h = .fail s) ∨
    (∃ s, ZSteps h.kappa { h.s with nblov := h.s.nblov + 1 } s ∧
        hlllStep o fuel δ h = .fail s) ∨
    (∃ s pr, ZSteps h.kappa { h.s with nblov := h.s.nblov + 1 } s ∧
        hlllStep o fuel δ h = .next ⟨s, h.kappa + 1, h.kappa, pr⟩) ∨
    (∃ s, ZSteps h.kappa { h.s with nblov := h.s.nblov + 1 } s ∧
        hlllStep o fuel δ h = .next ⟨hlllDown h.kappa s, max (h.kappa - 1) 1, h.kappa, h.prevR⟩) := by
  -- adding a test to the counter commutes with the elementary steps
  have lift : ∀ {κ} {s t : Lat F}, ZSteps κ s t →
      ZSteps κ { s with nblov := s.nblov + 1 } { t with nblov := t.nblov + 1 } := by
    intro κ s t hst
    induction hst with
    | refl => exact .refl
    | tail _ hs ih =>
      refine ih.tail ?_
      cases hs with
      | fp p b => exact ZStep.fp _ p b
      | col p b i c hi => exact ZStep.col _ p b i c hi
      | pcol i c l hi hl hp => exact ZStep.pcol _ i c l hi hl hp
  unfold hlllStep
  simp only []
  cases hr : hlllReduce o fuel h.kappa (hlllPrep o h.kappa h.s) with
  | none => left; rfl
  | some r =>
    obtain ⟨flag, s⟩ := r
    have hz : ZSteps h.kappa h.s s :=
      (hlllPrep_zs o _ _).trans (hlllReduce_zs o hκ fuel _ _ _ hr)
    have hz' := lift hz
    simp only []
    split
    · right; left; exact ⟨s, hz, rfl⟩
    · split
      · split
        · right; right; left
          refine ⟨_, ?_, rfl⟩
          exact hz'.trans ((zs_fp _ _ _ _).trans (hhV_zs o _ _ _))
        · right; right; right; left
          refine ⟨_, _, ?_, rfl⟩
          exact hz'.trans ((zs_fp _ _ _ _).trans ((hhV_zs o _ _ _).trans (zs_fp _ _ _ _)))
      · right; right; right; right
        refine ⟨_, ?_, rfl⟩
        exact hz'.trans (zs_fp _ _ _ _)

theorem down_cfg (κ : Nat) (s : Lat F) : SameCfg s (hlllDown κ s) := by constructor <;> rfl

theorem cfg_nblov (s : Lat F) (k : Nat) : SameCfg s { s with nblov := k } := by
  constructor <;> rfl

/-- Counting facts over a run: tests done, swaps done, swaps at the first position. -/
structure Counts (s0 s : Lat F) (kappa : Nat) : Prop where
  ex : ∃ w w1 : Nat, s.nbswaps = s0.nbswaps + w ∧ w1 ≤ w ∧
    s.nblov + w1 + 1 = s0.nblov + kappa + 2 * w

/-- Everything known at the head of the main loop. -/
structure MainInv (n d : Nat) (A : Mat Int) (track : Prop) (s0 : Lat F) (h : HState F) : Prop where
  inv : LInv n d A track h.s
  cfg : SameCfg s0 h.s
  pos : 0 < h.kappa
  cnt : Counts s0 h.s h.kappa
  lov : s0.nblov ≤ h.s.nblov ∧ h.s.nblov ≤ max s0.nblov s0.nblovMax
  kle : h.kappa ≤ max s0.kappaMax 1

/-- What is known on return. -/
structure ExitInv (n d : Nat) (A : Mat Int) (track : Prop) (s0 : Lat F) (st : Int) (s : Lat F) :
    Prop where
  inv : LInv n d A track s
  cfg : SameCfg s0 s
  sw : s0.nbswaps ≤ s.nbswaps ∧ s.nbswaps - s0.nbswaps ≤ s.nblov - s0.nblov
  lov : s0.nblov ≤ s.nblov ∧ s.nblov ≤ max s0.nblov s0.nblovMax
  status : st = 0 ∨ st = -1
  done : st = 0 → s.nblov < s.nblovMax → Counts s0 s (max s0.kappaMax 1)

theorem MainInv.loop {n d : Nat} {A : Mat Int} {track : Prop} {s0 : Lat F} (δ : F) (fuel : Nat)
    (h : HState F) (hkm : s0.kappaMax ≤ d) (hM : MainInv n d A track s0 h) (st : Int) (s : Lat F)
    (hr : hlllLoop o δ fuel h = some (st, s)) : ExitInv n d A track s0 st s := by
  induction fuel generalizing h with
  | zero => simp [hlllLoop] at hr
  | succ fuel ih =>
    obtain ⟨hI, hcfg, hpos, ⟨w, w1, hw, hw1, hcnt⟩, hlov, hkle⟩ := hM
    simp only [hlllLoop] at hr
    split at hr
    · rename_i hcond
      have hκd : h.kappa < d := by
        have := hcond.1; rw [hcfg.kappaMax] at this; omega
      have hκm : h.kappa < s0.kappaMax := by have := hcond.1; rw [hcfg.kappaMax] at this; exact this
      have hbud : h.s.nblov < s0.nblovMax := by
        have := hcond.2; rw [hcfg.nblovMax] at this; exact this
      have hI1 : LInv n d A track { h.s with nblov := h.s.nblov + 1 } :=
        hI.congr rfl rfl rfl rfl rfl rfl rfl rfl
      rcases hlllStep_cases o (fuel + 1) δ h hpos with h1 | ⟨t, hz, h1⟩ | ⟨t, hz, h1⟩ |
        ⟨t, pr, hz, h1⟩ | ⟨t, hz, h1⟩
      · rw [h1] at hr; simp at hr
      · rw [h1] at hr
        obtain ⟨rfl, rfl⟩ := by simpa using hr
        have hf := hz.frame
        refine ⟨hI.zsteps hκd hz, hcfg.trans' hf.cfg, ?_, ?_, Or.inr rfl, by simp⟩
        · rw [hf.nbswaps, hf.nblov]; omega
        · rw [hf.nblov]; omega
      · rw [h1] at hr
        obtain ⟨rfl, rfl⟩ := by simpa using hr
        have hf := hz.frame
        refine ⟨hI1.zsteps hκd hz, (hcfg.trans' (cfg_nblov _ _)).trans' hf.cfg, ?_, ?_,
          Or.inr rfl, by simp⟩
        · rw [hf.nbswaps, hf.nblov]; simp only; omega
        · rw [hf.nblov]; simp only; omega
      · rw [h1] at hr
        have hf := hz.frame
        refine ih _ ?_ hr
        refine ⟨hI1.zsteps hκd hz, (hcfg.trans' (cfg_nblov _ _)).trans' hf.cfg, by simp, ?_, ?_, ?_⟩
        · refine ⟨w, w1, ?_, hw1, ?_⟩
          · simp only [hf.nbswaps]; exact hw
          · simp only [hf.nblov]; omega
        · simp only [hf.nblov]; omega
        · simp only []; omega
      · rw [h1] at hr
        have hf := hz.frame
        refine ih _ ?_ hr
        refine ⟨(hI1.zsteps hκd hz).down hκd hpos,
          ((hcfg.trans' (cfg_nblov _ _)).trans' hf.cfg).trans' (down_cfg _ _), by simp, ?_, ?_, ?_⟩
        · by_cases hk1 : h.kappa = 1
          · refine ⟨w + 1, w1 + 1, ?_, by omega, ?_⟩
            · simp only [hlllDown, hf.nbswaps]; omega
            · simp only [hlllDown, hf.nblov]; omega
          · refine ⟨w + 1, w1, ?_, by omega, ?_⟩
            · simp only [hlllDown, hf.nbswaps]; omega
            · simp only [hlllDown, hf.nblov]; omega
        · simp only [hlllDown, hf.nblov]; omega
        · simp only []; omega
    · rename_i hcond
      obtain ⟨rfl, rfl⟩ := by simpa using hr
      refine ⟨hI, hcfg, ?_, hlov, Or.inl rfl, ?_⟩
      · omega
      · intro _ hb
        have hκ : ¬ (h.kappa < h.s.kappaMax) := by
          intro hk; exact hcond ⟨hk, hb⟩
        rw [hcfg.kappaMax] at hκ
        exact ⟨w, w1, hw, hw1, by omega⟩

end HPLLL
