import Verif.Model.SlllWrap
import Verif.Props.Slll
import Verif.Props.Wrap
/-!
# The segment wrappers `slll_wrap_gap`, `slll_wrap`, `slll<mpz_t>` (C39)
-/

namespace HPLLL.Props
open HPLLL Spec Matrix

variable {F G H : Type} (w : SegArith F)

/-- Every schedule is an interleaving of the threads. -/
def SegArith.Ok (w : SegArith F) : Prop := ∀ p, (w.sched p).Ok

/-- Result of a wrapper on the `d` columns of `A`: always inside the lattice, a basis of it when no segment
reduction mixed its padding with the vectors returned; `verboseDepth` restored. -/
def WrapGood (n d : Nat) (A : Mat Int) (vd : Int) (r : Mat Int × Int × Bool) : Prop :=
  lattice (toMatrix n d r.1) ≤ lattice (toMatrix n d A) ∧
    (r.2.2 = false → lattice (toMatrix n d r.1) = lattice (toMatrix n d A)) ∧ r.2.1 = vd

theorem mixedPad_false {n k : Nat} {L : SLat F} (h : mixedPad n k L = false) :
    ∀ i, n ≤ i → i < L.lat.n → ∀ j < k, L.lat.B j i = 0 := by
  intro i hi hi' j hj
  unfold mixedPad at h
  rw [List.any_eq_false] at h
  have h1 := h i (by rw [List.mem_range'_1]; omega)
  simp only [List.any_eq_true, not_exists, not_and, Bool.not_eq_true] at h1
  have h2 := h1 j (List.mem_range.mpr hj)
  simpa using h2

theorem segReduce_ok (hw : SegArith.Ok w) (path : List Nat) (fuel S : Nat) (hS : 0 < S) (method : Int) (n k : Nat)
    (hk : 0 < k) (T : Mat Int) (vd : Int) (g : Nat) (B : Mat Int) (vd' : Int) (mx : Bool)
    (h : segReduce w path fuel S method n k T vd = some (g, B, vd', mx)) :
    (g = 0 ∨ 3 ≤ g ∧ g < k) ∧ WrapGood n k T vd (B, vd', mx) := by
  unfold segReduce at h
  split at h
  · simp at h
  rename_i g' L hL
  simp only [Option.some.injEq, Prod.mk.injEq] at h
  obtain ⟨rfl, rfl, rfl, rfl⟩ := h
  obtain ⟨h1, -, -, h4, h5, -, h7⟩ := C38_segment_lll w.o w.c (w.sched path) (hw path) w.junk n k hk T S false
    method true vd fuel w.delta S 1000000 hS g' L hL
  exact ⟨h1, h5, fun hm => h7 (mixedPad_false hm), h4⟩

theorem lattice_copy (n k : Nat) (A T : Mat Int) :
    lattice (toMatrix n k (copyCols n 0 k A T)) = lattice (toMatrix n k A) := by
  congr 1
  exact toMatrix_congr fun j hj i hi => by rw [copyCols_apply, if_pos ⟨hi, Nat.zero_le _, hj⟩]

/-- `[C | rest of A]`. -/
theorem concat_good {n a d : Nat} (had : a ≤ d) (A C : Mat Int) :
    (lattice (toMatrix n a C) ≤ lattice (toMatrix n a A) →
      lattice (toMatrix n d (copyCols n a d A (copyCols n 0 a C fun _ _ => 0))) ≤ lattice (toMatrix n d A)) ∧
    (lattice (toMatrix n a C) = lattice (toMatrix n a A) →
      lattice (toMatrix n d (copyCols n a d A (copyCols n 0 a C fun _ _ => 0))) = lattice (toMatrix n d A)) := by
  have e : lattice (toMatrix n a (copyCols n a d A (copyCols n 0 a C fun _ _ => 0))) =
      lattice (toMatrix n a C) := by
    congr 1
    refine toMatrix_congr fun j hj i hi => ?_
    rw [copyCols_apply, if_neg (by omega), copyCols_apply, if_pos ⟨hi, Nat.zero_le _, hj⟩]
  have hc : ∀ j, a ≤ j → j < d → ∀ i, i < n →
      copyCols n a d A (copyCols n 0 a C fun _ _ => 0) j i = A j i := by
    intro j h1 h2 i hi
    rw [copyCols_apply, if_pos ⟨hi, h1, h2⟩]
  exact ⟨fun h => lattice_split_le _ _ had hc (e.trans_le h), fun h => lattice_split _ _ had hc (e.trans h)⟩

theorem slllWrapGap_ok (hw : SegArith.Ok w) (fuel S : Nat) (hS : 0 < S) (method : Int) (n : Nat) (depth : Nat) :
    ∀ (path : List Nat) (d gap : Nat) (A : Mat Int) (vd : Int), 0 < gap → gap ≤ d →
    (gap ≤ depth → slllWrapGap w fuel S method n depth path d gap A vd ≠ .tooDeep) ∧
    ∀ r, slllWrapGap w fuel S method n depth path d gap A vd = .done r → WrapGood n d A vd r := by
  induction depth with
  | zero => intro path d gap A vd h0 _; exact ⟨fun h => by omega, fun r h => by simp [slllWrapGap] at h⟩
  | succ depth ih =>
    intro path d gap A vd h0 hgd
    simp only [slllWrapGap]
    cases hseg : segReduce w path fuel S method n gap (copyCols n 0 gap A fun _ _ => 0) vd with
    | none => simp
    | some q =>
      obtain ⟨g, B, vd1, mx⟩ := q
      simp only []
      obtain ⟨hg, s1, s2, s3⟩ := segReduce_ok w hw path fuel S hS method n gap h0 _ vd g B vd1 mx hseg
      rw [lattice_copy] at s1 s2
      simp only at s1 s2 s3
      -- the recursive call
      have hrec : (gap ≤ depth + 1 → (if 2 ≤ g then slllWrapGap w fuel S method n depth (1 :: path) gap g B vd1
             else .done (B, vd1, false)) ≠ .tooDeep) ∧
          ∀ r, (if 2 ≤ g then slllWrapGap w fuel S method n depth (1 :: path) gap g B vd1
             else .done (B, vd1, false)) = .done r → WrapGood n gap B vd1 r := by
        by_cases h2 : 2 ≤ g
        · rw [if_pos h2]
          obtain ⟨r1, r2⟩ := ih (1 :: path) gap g B vd1 (by omega) (by omega)
          exact ⟨fun h => r1 (by omega), r2⟩
        · rw [if_neg h2]
          refine ⟨fun _ => by simp, fun r h => ?_⟩
          simp only [WrapRes.done.injEq] at h
          subst h
          exact ⟨le_refl _, fun _ => rfl, rfl⟩
      generalize (if 2 ≤ g then slllWrapGap w fuel S method n depth (1 :: path) gap g B vd1
             else .done (B, vd1, false)) = q at hrec
      cases q with
      | loops => simp
      | tooDeep => exact ⟨fun h => absurd rfl (hrec.1 h), fun r h => by simp at h⟩
      | done q =>
        obtain ⟨B2, vd2, mx2⟩ := q
        obtain ⟨t1, t2, t3⟩ := hrec.2 _ rfl
        simp only at t1 t2 t3 ⊢
        cases hred : reducePhase w.o w.junk fuel w.d99 method n d
            (copyCols n gap d A (copyCols n 0 gap B2 fun _ _ => 0)) vd2 with
        | none => simp
        | some q =>
          obtain ⟨C, vd3⟩ := q
          refine ⟨fun _ => by simp, fun r h => ?_⟩
          simp only [WrapRes.done.injEq] at h
          subst h
          obtain ⟨e, hv⟩ := reducePhase_ok _ _ _ _ _ _ _ _ _ _ _ hred
          obtain ⟨c1, c2⟩ := concat_good (n := n) hgd A B2
          refine ⟨?_, fun hm => ?_, by show vd3 = vd; omega⟩
          · show lattice (toMatrix n d C) ≤ _
            rw [e]; exact c1 (t1.trans s1)
          · simp only [Bool.or_eq_false_iff] at hm
            show lattice (toMatrix n d C) = _
            rw [e]; exact c2 ((t2 hm.2).trans (s2 hm.1))

theorem sizeLast_ok (fuel : Nat) (method : Int) (n k : Nat) (hk : 1 < k) (B C : Mat Int) (vd vd' : Int)
    (h : sizeLast w fuel method n k B vd = some (C, vd')) :
    lattice (toMatrix n k C) = lattice (toMatrix n k B) ∧ vd' = vd := by
  unfold sizeLast at h
  simp only [] at h
  have h0 : LInv n k B False (newLattice w.o w.junk n k B false method true vd) :=
    LInv.of_basis B False _ rfl rfl rfl rfl (fun h => h.elim)
  have hz : ∀ (l : List Nat) (s : Lat F), ZSteps (k - 1) s (l.foldl (fun s i => (s.hhR w.o i).hhV w.o i) s) := by
    intro l
    induction l with
    | nil => exact fun s => .refl
    | cons i l ih =>
      intro s
      exact ((hhR_zs w.o (k - 1) i s).trans (hhV_zs w.o (k - 1) i _)).trans (ih _)
  have hz1 := hz (List.range (max 1 (k - 1))) (newLattice w.o w.junk n k B false method true vd)
  generalize (List.range (max 1 (k - 1))).foldl (fun s i => (s.hhR w.o i).hhV w.o i)
    (newLattice w.o w.junk n k B false method true vd) = s at h hz1
  split at h
  · simp at h
  rename_i st s2 hs2
  simp only [Option.some.injEq, Prod.mk.injEq] at h
  obtain ⟨rfl, rfl⟩ := h
  have hz2 : ZSteps (k - 1) s s2 := by
    split at hs2
    · exact hsizereduce_zs w.o (by omega) fuel 0 s st s2 hs2
    · exact (hhR_zs w.o (k - 1) (k - 1) s).trans (seysenLoop_zs w.o fuel _ _ _ _ _ _ _ hs2)
  have hz3 : ZSteps (k - 1) _ s2 := hz1.trans hz2
  have hI := h0.zsteps (by omega) hz3
  obtain ⟨W, hW, hB, -⟩ := hI.uni
  refine ⟨?_, hz3.frame.cfg.verboseDepth⟩
  show lattice (toMatrix n k s2.B) = _
  rw [hB, lattice_mul_unit _ _ hW]

theorem slllWrapStep_ok (hw : SegArith.Ok w) (depth fuel S : Nat) (hS : 0 < S) (method : Int) (n k : Nat)
    (hk : 1 < k) (A C : Mat Int) (vd : Int) (mx : Bool)
    (hC : WrapGood n (k - 1) A vd (C, vd, mx)) :
    (k ≤ depth → slllWrapStep w depth fuel S method n k A C vd ≠ .tooDeep) ∧
    ∀ r, slllWrapStep w depth fuel S method n k A C vd = .done r →
      WrapGood n k A vd (r.1, r.2.1, mx || r.2.2) := by
  unfold slllWrapStep
  cases hsz : sizeLast w fuel method n k (copyCols n (k - 1) k A (copyCols n 0 (k - 1) C fun _ _ => 0)) vd with
  | none => simp
  | some q =>
    obtain ⟨B, vd1⟩ := q
    obtain ⟨e1, rfl⟩ := sizeLast_ok w fuel method n k hk _ B vd vd1 hsz
    obtain ⟨c1, c2⟩ := concat_good (n := n) (show k - 1 ≤ k by omega) A C
    simp only []
    cases hseg : segReduce w [k] fuel S method n k B vd1 with
    | none => simp
    | some q =>
      obtain ⟨g, C2, vd2, mx2⟩ := q
      obtain ⟨hg, s1, s2, s3⟩ := segReduce_ok w hw [k] fuel S hS method n k (by omega) B vd1 g C2 vd2 mx2 hseg
      simp only at s1 s2 s3 ⊢
      rw [e1] at s1 s2
      have hC' : lattice (toMatrix n (k - 1) C) ≤ lattice (toMatrix n (k - 1) A) := hC.1
      have hC'' : mx = false → lattice (toMatrix n (k - 1) C) = lattice (toMatrix n (k - 1) A) := hC.2.1
      by_cases h2 : 2 ≤ g
      · rw [if_pos h2]
        obtain ⟨r1, r2⟩ := slllWrapGap_ok w hw fuel S hS method n depth [1, k] k g C2 vd2 (by omega) (by omega)
        cases hgap : slllWrapGap w fuel S method n depth [1, k] k g C2 vd2 with
        | loops => simp
        | tooDeep => exact ⟨fun h => absurd hgap (r1 (by omega)), fun r h => by simp at h⟩
        | done q =>
          obtain ⟨C3, vd3, mx3⟩ := q
          obtain ⟨t1, t2, t3⟩ := r2 _ hgap
          simp only at t1 t2 t3 ⊢
          refine ⟨fun _ => by simp, fun r h => ?_⟩
          simp only [WrapRes.done.injEq] at h
          subst h
          refine ⟨t1.trans (s1.trans (c1 hC')), fun hm => ?_, by show vd3 = vd1; omega⟩
          simp only [Bool.or_eq_false_iff] at hm
          exact (t2 hm.2.2).trans ((s2 hm.2.1).trans (c2 (hC'' hm.1)))
      · rw [if_neg h2]
        refine ⟨fun _ => by simp, fun r h => ?_⟩
        simp only [WrapRes.done.injEq] at h
        subst h
        refine ⟨s1.trans (c1 hC'), fun hm => ?_, s3⟩
        simp only [Bool.or_eq_false_iff] at hm
        exact (s2 hm.2).trans (c2 (hC'' hm.1))

theorem slllWrapLoop_ok (hw : SegArith.Ok w) (depth fuel S : Nat) (hS : 0 < S) (method : Int) (n : Nat)
    (A : Mat Int) (m : Nat) : ∀ (k : Nat) (C : Mat Int) (vd : Int) (mx : Bool), 1 < k →
    WrapGood n (k - 1) A vd (C, vd, mx) →
    (k + m - 1 ≤ depth → slllWrapLoop w depth fuel S method n A m k C vd mx ≠ .tooDeep) ∧
    ∀ r, slllWrapLoop w depth fuel S method n A m k C vd mx = .done r → WrapGood n (k - 1 + m) A vd r := by
  induction m with
  | zero =>
    intro k C vd mx hk hC
    refine ⟨fun _ => by simp [slllWrapLoop], fun r h => ?_⟩
    simp only [slllWrapLoop, WrapRes.done.injEq] at h
    subst h; exact hC
  | succ m ih =>
    intro k C vd mx hk hC
    obtain ⟨a1, a2⟩ := slllWrapStep_ok w hw depth fuel S hS method n k hk A C vd mx hC
    simp only [slllWrapLoop]
    cases hst : slllWrapStep w depth fuel S method n k A C vd with
    | loops => simp
    | tooDeep => exact ⟨fun h => absurd hst (a1 (by omega)), fun r h => by simp at h⟩
    | done q =>
      obtain ⟨C2, vd2, mx2⟩ := q
      have h2 := a2 _ hst
      have hv : vd2 = vd := h2.2.2
      subst hv
      obtain ⟨b1, b2⟩ := ih (k + 1) C2 vd2 (mx || mx2) (by omega) h2
      simp only []
      refine ⟨fun h => b1 (by omega), fun r h => ?_⟩
      have := b2 r h
      rw [show k - 1 + (m + 1) = k + 1 - 1 + m by omega]; exact this

theorem slllWrap_ok (hw : SegArith.Ok w) (depth fuel dthreshold S : Nat) (hS : 0 < S) (hdt : 0 < dthreshold)
    (method : Int) (n d : Nat) (A : Mat Int) (vd : Int) :
    (d ≤ depth → slllWrap w depth fuel dthreshold S method n d A vd ≠ .tooDeep) ∧
    ∀ r, slllWrap w depth fuel dthreshold S method n d A vd = .done r → WrapGood n d A vd r := by
  unfold slllWrap
  simp only []
  cases hred : reducePhase w.o w.junk fuel w.delta method n (min d dthreshold)
      (copyCols n 0 (min d dthreshold) A fun _ _ => 0) (vd - 1) with
  | none => simp
  | some q =>
    obtain ⟨C, vd1⟩ := q
    obtain ⟨e, rfl⟩ := reducePhase_ok _ _ _ _ _ _ _ _ _ _ _ hred
    rw [lattice_copy] at e
    simp only []
    rcases Nat.eq_zero_or_pos d with h0 | h0
    · subst h0
      simp only [Nat.zero_min, Nat.sub_zero, slllWrapLoop]
      refine ⟨fun _ => by simp, fun r h => ?_⟩
      simp only [WrapRes.done.injEq] at h
      subst h
      exact ⟨e.le, fun _ => e, by show vd - 1 + 1 = vd; omega⟩
    have hC : WrapGood n (min d dthreshold + 1 - 1) A (vd - 1) (C, vd - 1, false) := ⟨e.le, fun _ => e, rfl⟩
    obtain ⟨a1, a2⟩ := slllWrapLoop_ok w hw depth fuel S hS method n A (d - min d dthreshold)
      (min d dthreshold + 1) C (vd - 1) false (by omega) hC
    cases hl : slllWrapLoop w depth fuel S method n A (d - min d dthreshold) (min d dthreshold + 1) C (vd - 1)
        false with
    | loops => simp
    | tooDeep => exact ⟨fun h => absurd hl (a1 (by omega)), fun r h => by simp at h⟩
    | done q =>
      obtain ⟨C2, vd2, mx2⟩ := q
      have h2 := a2 _ hl
      rw [show min d dthreshold + 1 - 1 + (d - min d dthreshold) = d by omega] at h2
      refine ⟨fun _ => by simp, fun r h => ?_⟩
      simp only [WrapRes.done.injEq] at h
      subst h
      exact ⟨h2.1, h2.2.1, by have := h2.2.2; simp only at this ⊢; omega⟩

/-- **C39, `slll_wrap_gap`.** The recursion on the gap positions never nests deeper than `gap_position` calls,
whatever the floating point tests report; so the function returns as soon as the reductions it calls do.  Its
result always lies in the lattice of `A`, is a basis of it if no segment reduction mixed its padding with the
vectors it returned, and `verboseDepth` is unchanged. -/
theorem C39_slll_wrap_gap (hw : SegArith.Ok w) (fuel S : Nat) (hS : 0 < S) (method : Int) (n d gap : Nat)
    (h0 : 0 < gap) (hgap : gap ≤ d) (A : Mat Int) (vd : Int) :
    slllWrapGap w fuel S method n gap [] d gap A vd ≠ .tooDeep ∧
    ∀ C vd' mixed, slllWrapGap w fuel S method n gap [] d gap A vd = .done (C, vd', mixed) →
      lattice (toMatrix n d C) ≤ lattice (toMatrix n d A) ∧
      (mixed = false → SameBasisLattice n d A C) ∧ vd' = vd := by
  obtain ⟨h1, h2⟩ := slllWrapGap_ok w hw fuel S hS method n gap [] d gap A vd h0 hgap
  refine ⟨h1 (le_refl _), fun C vd' mixed h => ?_⟩
  obtain ⟨a, b, c⟩ := h2 _ h
  exact ⟨a, fun hm => sameBasisLattice_of_eq (b hm), c⟩

/-- **C39, `slll_wrap`.** The same for the wrapper that discovers the columns one at a time. -/
theorem C39_slll_wrap (hw : SegArith.Ok w) (fuel dthreshold S : Nat) (hS : 0 < S) (hdt : 0 < dthreshold)
    (method : Int) (n d : Nat) (A : Mat Int) (vd : Int) :
    slllWrap w d fuel dthreshold S method n d A vd ≠ .tooDeep ∧
    ∀ C vd' mixed, slllWrap w d fuel dthreshold S method n d A vd = .done (C, vd', mixed) →
      lattice (toMatrix n d C) ≤ lattice (toMatrix n d A) ∧
      (mixed = false → SameBasisLattice n d A C) ∧ vd' = vd := by
  obtain ⟨h1, h2⟩ := slllWrap_ok w hw d fuel dthreshold S hS hdt method n d A vd
  refine ⟨h1 (le_refl _), fun C vd' mixed h => ?_⟩
  obtain ⟨a, b, c⟩ := h2 _ h
  exact ⟨a, fun hm => sameBasisLattice_of_eq (b hm), c⟩

theorem good_concat {n a d : Nat} (had : a ≤ d) (A C : Mat Int) (vd vd' : Int) (mx : Bool)
    (h : WrapGood n a (setMat n a A fun _ _ => 0) vd (C, vd', mx)) :
    lattice (toMatrix n d (copyCols n a d A (setMat n a C fun _ _ => 0))) ≤ lattice (toMatrix n d A) ∧
    (mx = false → lattice (toMatrix n d (copyCols n a d A (setMat n a C fun _ _ => 0))) =
      lattice (toMatrix n d A)) := by
  obtain ⟨a1, a2, -⟩ := h
  rw [lattice_setMat] at a1 a2
  have hc : ∀ j, a ≤ j → j < d → ∀ i, i < n →
      copyCols n a d A (setMat n a C fun _ _ => 0) j i = A j i := by
    intro j h1 h2 i hi
    rw [copyCols_apply, if_pos ⟨hi, h1, h2⟩]
  have e : lattice (toMatrix n a (copyCols n a d A (setMat n a C fun _ _ => 0))) = lattice (toMatrix n a C) := by
    congr 1
    refine toMatrix_congr fun j hj i hi => ?_
    rw [copyCols_apply, if_neg (by omega), setMat_apply, if_pos ⟨hi, hj⟩]
  exact ⟨lattice_split_le _ _ had hc (e.trans_le a1), fun hm => lattice_split _ _ had hc (e.trans (a2 hm))⟩

/-- **C39, `slll<mpz_t>`.** The wrapper over one, two or three precisions, with or without the final check. -/
theorem C39_slll_wrapper (hw : SegArith.Ok w) (w2 : SegArith G) (hw2 : SegArith.Ok w2) (o3 : FPOps H)
    (junk3 delta3 : H) (fuel dthreshold S : Nat) (hS : 0 < S) (hdt : 0 < dthreshold) (n d : Nat) (check : Bool)
    (A : Mat Int) (vd : Int) :
    slllMpz w w2 o3 junk3 delta3 dimPrec1 dimPrec2 (max d dimPrec2) fuel dthreshold S n d check A vd ≠ .tooDeep ∧
    ∀ C vd' mixed,
      slllMpz w w2 o3 junk3 delta3 dimPrec1 dimPrec2 (max d dimPrec2) fuel dthreshold S n d check A vd =
        .done (C, vd', mixed) →
      lattice (toMatrix n d C) ≤ lattice (toMatrix n d A) ∧
      (mixed = false → SameBasisLattice n d A C) ∧ vd' = vd := by
  have h12 : dimPrec1 ≤ dimPrec2 := by decide
  have hp1 : 0 < dimPrec1 := by decide
  have key : slllPhases w w2 dimPrec1 dimPrec2 (max d dimPrec2) fuel dthreshold S n d A (vd - 1) ≠ .tooDeep ∧
      ∀ r, slllPhases w w2 dimPrec1 dimPrec2 (max d dimPrec2) fuel dthreshold S n d A (vd - 1) = .done r →
        WrapGood n d A (vd - 1) r := by
    generalize dimPrec1 = p1 at *
    generalize dimPrec2 = p2 at *
    generalize vd - 1 = vd
    generalize hdep : max d p2 = depth
    unfold slllPhases
    by_cases hd1 : d ≤ p1
    · rw [if_pos hd1]
      obtain ⟨a, b⟩ := slllWrap_ok w hw depth fuel dthreshold S hS hdt 0 n d A vd
      exact ⟨a (by omega), b⟩
    rw [if_neg hd1]
    obtain ⟨a, b⟩ := slllWrap_ok w hw depth fuel dthreshold S hS hdt 0 n p1 (setMat n p1 A fun _ _ => 0) vd
    cases h1 : slllWrap w depth fuel dthreshold S 0 n p1 (setMat n p1 A fun _ _ => 0) vd with
    | loops => simp
    | tooDeep => exact absurd h1 (a (by omega))
    | done q1 =>
    obtain ⟨C1, vd1, m1⟩ := q1
    have g1 := b _ h1
    have hv1 : vd1 = vd := g1.2.2
    subst hv1
    simp only []
    by_cases hd2 : d ≤ p2
    · rw [if_pos hd2]
      obtain ⟨c1, c2⟩ := good_concat (show p1 ≤ d by omega) A C1 _ _ _ g1
      obtain ⟨a, b⟩ := slllWrap_ok w hw depth fuel p1 S hS hp1 1 n d
        (copyCols n p1 d A (setMat n p1 C1 fun _ _ => 0)) vd1
      cases h2 : slllWrap w depth fuel p1 S 1 n d (copyCols n p1 d A (setMat n p1 C1 fun _ _ => 0)) vd1 with
      | loops => simp
      | tooDeep => exact absurd h2 (a (by omega))
      | done q2 =>
      obtain ⟨C2, vd2, m2⟩ := q2
      obtain ⟨g21, g22, g23⟩ := b _ h2
      refine ⟨by simp, fun r h => ?_⟩
      simp only [WrapRes.done.injEq] at h
      subst h
      refine ⟨g21.trans c1, fun hm => ?_, g23⟩
      simp only [Bool.or_eq_false_iff] at hm
      exact (g22 hm.2).trans (c2 hm.1)
    · rw [if_neg hd2]
      obtain ⟨c1, c2⟩ := good_concat (show p1 ≤ p2 by omega) A C1 _ _ _ g1
      obtain ⟨a, b⟩ := slllWrap_ok w hw depth fuel p1 S hS hp1 1 n p2
        (copyCols n p1 p2 A (setMat n p1 C1 fun _ _ => 0)) vd1
      cases h2 : slllWrap w depth fuel p1 S 1 n p2 (copyCols n p1 p2 A (setMat n p1 C1 fun _ _ => 0)) vd1 with
      | loops => simp
      | tooDeep => exact absurd h2 (a (by omega))
      | done q2 =>
      obtain ⟨C2, vd2, m2⟩ := q2
      obtain ⟨g21, g22, g23⟩ := b _ h2
      have hv2 : vd2 = vd1 := g23
      subst hv2
      have g2 : WrapGood n p2 (setMat n p2 A fun _ _ => 0) vd2 (C2, vd2, m1 || m2) := by
        refine ⟨?_, fun hm => ?_, rfl⟩
        · rw [lattice_setMat]; exact g21.trans c1
        · rw [lattice_setMat]
          simp only [Bool.or_eq_false_iff] at hm
          exact (g22 hm.2).trans (c2 hm.1)
      obtain ⟨e1, e2⟩ := good_concat (show p2 ≤ d by omega) A C2 _ _ _ g2
      obtain ⟨a, b⟩ := slllWrap_ok w2 hw2 depth fuel p2 S hS (by omega) 1 n d
        (copyCols n p2 d A (setMat n p2 C2 fun _ _ => 0)) vd2
      simp only []
      cases h3 : slllWrap w2 depth fuel p2 S 1 n d (copyCols n p2 d A (setMat n p2 C2 fun _ _ => 0)) vd2 with
      | loops => simp
      | tooDeep => exact absurd h3 (a (by omega))
      | done q3 =>
      obtain ⟨C3, vd3, m3⟩ := q3
      obtain ⟨g31, g32, g33⟩ := b _ h3
      refine ⟨by simp, fun r h => ?_⟩
      simp only [WrapRes.done.injEq] at h
      subst h
      refine ⟨g31.trans e1, fun hm => ?_, g33⟩
      rw [Bool.or_eq_false_iff] at hm
      exact (g32 hm.2).trans (e2 hm.1)
  unfold slllMpz
  cases hP : slllPhases w w2 dimPrec1 dimPrec2 (max d dimPrec2) fuel dthreshold S n d A (vd - 1) with
  | loops => simp
  | tooDeep => exact absurd hP key.1
  | done q =>
    obtain ⟨C1, vd1, m1⟩ := q
    obtain ⟨k1, k2, k3⟩ := key.2 _ hP
    simp only []
    cases hc : wrapCheck o3 junk3 delta3 fuel n d C1 check vd1 with
    | none => simp
    | some vd2 =>
      refine ⟨by simp, fun C vd' mixed h => ?_⟩
      simp only [WrapRes.done.injEq, Prod.mk.injEq] at h
      obtain ⟨rfl, rfl, rfl⟩ := h
      have hv := wrapCheck_ok _ _ _ _ _ _ _ _ _ _ hc
      exact ⟨k1, fun hm => sameBasisLattice_of_eq (k2 hm), by simp only at k3; omega⟩

/-- The toy arithmetic, threads one after the other. -/
def toySeg : SegArith Int := ⟨toyOps, toySC, 0, toy99, toy99, fun _ => Sched.seq⟩

/-- The hypotheses of the theorems are met: two columns, the second one discovered by the loop. -/
example : SegArith.Ok toySeg := fun _ => Sched.seq_ok

example : (match slllWrap toySeg 2 3 1 1 0 2 2 (ofCols [[1, 0], [1, 1]]) 5 with
    | .done (C, vd, mixed) => some (toCols 2 2 C, vd, mixed)
    | _ => none) = some ([[1, 0], [0, 1]], 5, false) := by decide +kernel

end HPLLL.Props
