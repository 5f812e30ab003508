import Verif.Model.ParSey
import Verif.Proof.Par
/-! The parallel update of the basis by the multipliers of a Seysen block. -/

namespace HPLLL
open Spec

variable {F : Type} (o : FPOps F)

/-- Multiple of column `i` added to a row. -/
def pseyMult (fl : Bool) (bounded : Nat → Bool) (vx : Nat → F) (xm : F) (i : Nat) : Int :=
  if bounded i then 0 else multOf o fl (vx i) xm

theorem predZxEntry_eq (fl : Bool) (xf xm : F) (a b : Int) :
    predZxEntry o fl xf xm a b = a + multOf o fl xf xm * b := by
  unfold predZxEntry multOf
  simp only []
  split
  · split
    · ring
    · split
      · ring
      · split <;> ring
  · split <;> ring

theorem predZx_eq (fl : Bool) (κ i ibeg nloc : Nat) (x xm : F) (M : Mat Int) :
    predZx o fl κ i ibeg nloc x xm M =
      setCol M κ fun r => if ibeg ≤ r ∧ r < nloc + ibeg then M κ r + multOf o fl x xm * M i r
        else M κ r := by
  unfold predZx multOf
  simp only []
  split
  · split
    · simp only [psubcol]; congr 1; funext r; split <;> ring
    · split
      · simp only [paddcol]; congr 1; funext r; split <;> ring
      · split
        · simp only [paddmulcolSi]; congr 1; funext r; split <;> ring
        · simp only [psubmulcol]; congr 1; funext r; split <;> ring
  · split
    · simp only [paddmulcolSi2exp]; congr 1; funext r; split <;> ring
    · simp only [psubmulcol]; congr 1; funext r; split <;> ring

theorem pseysen_exec_rows (fl : Bool) (κ i : Nat) (hi : i ≠ κ) (vx : Nat → F) (xm : F) :
    ∀ (nloc ibeg : Nat) (M : Mat Int),
    execAll (pseysenAct o fl κ vx xm) ((List.range' ibeg nloc).map fun r => (i, r)) M =
      predZx o fl κ i ibeg nloc (vx i) xm M := by
  intro nloc
  induction nloc with
  | zero =>
    intro ibeg M
    rw [predZx_eq]
    funext j; by_cases hj : j = κ
    · subst hj; rw [setCol_same]; funext r; rw [if_neg (by omega)]; rfl
    · rw [setCol_ne _ _ hj]; rfl
  | succ nloc ih =>
    intro ibeg M
    rw [List.range'_succ, List.map_cons]
    show execAll (pseysenAct o fl κ vx xm) _ (pseysenAct o fl κ vx xm (i, ibeg) M) = _
    rw [ih, predZx_eq, predZx_eq]
    funext j
    by_cases hj : j = κ
    · subst hj
      rw [setCol_same, setCol_same]
      funext r
      simp only [pseysenAct, setEntry, setCol_same, predZxEntry_eq]
      rw [setCol_ne _ _ hi]
      by_cases hr : r = ibeg
      · subst hr; rw [if_neg (by omega), setAt_same, if_pos (by omega)]
      · rw [setAt_ne _ _ hr]
        by_cases h2 : ibeg + 1 ≤ r ∧ r < nloc + (ibeg + 1)
        · rw [if_pos h2, if_pos (by omega)]
        · rw [if_neg h2, if_neg (by omega)]
    · rw [setCol_ne _ _ hj, setCol_ne _ _ hj]
      simp only [pseysenAct, setEntry]
      rw [setCol_ne _ _ hj]

theorem pseysen_exec_prog (fl : Bool) (κ lo : Nat) (bd : Nat → Bool) (vx : Nat → F) (xm : F)
    (ibeg nloc m : Nat) (hm : lo + m ≤ κ) :
    ∀ M : Mat Int, execAll (pseysenAct o fl κ vx xm) (pseysenProg lo bd ibeg nloc m) M =
      pseysenThread o fl κ lo bd vx xm ibeg nloc m M := by
  induction m with
  | zero => intro M; rfl
  | succ m ih =>
    intro M
    simp only [pseysenProg, pseysenThread]
    rw [execAll_append, ih (by omega)]
    split
    · rfl
    · rw [pseysen_exec_rows o fl κ (lo + m) (by omega)]

theorem pseysen_exec_threads (fl : Bool) (κ lo : Nat) (bd : Nat → Bool) (vx : Nat → F) (xm : F)
    (nmax S m k : Nat) (hm : lo + m ≤ κ) (M : Mat Int) :
    execAll (pseysenAct o fl κ vx xm)
      ((List.range k).map fun l => pseysenProg lo bd (sliceBeg nmax S l) (sliceLen nmax S l) m).flatten M =
    (List.range k).foldl
      (fun M l => pseysenThread o fl κ lo bd vx xm (sliceBeg nmax S l) (sliceLen nmax S l) m M) M := by
  induction k with
  | zero => rfl
  | succ k ih =>
    rw [List.range_succ, List.map_append, List.flatten_append, execAll_append, ih, List.foldl_append]
    simp only [List.map_cons, List.map_nil, List.flatten_cons, List.flatten_nil, List.append_nil,
      List.foldl_cons, List.foldl_nil]
    rw [pseysen_exec_prog o fl κ lo bd vx xm _ _ m hm]

theorem pseysen_act_comm (fl : Bool) (κ : Nat) (vx : Nat → F) (xm : F) (a b : Nat × Nat) (ha : a.1 ≠ κ)
    (hb : b.1 ≠ κ) (hr : a.2 ≠ b.2) (M : Mat Int) :
    pseysenAct o fl κ vx xm a (pseysenAct o fl κ vx xm b M) =
      pseysenAct o fl κ vx xm b (pseysenAct o fl κ vx xm a M) := by
  funext j
  by_cases hj : j = κ
  · subst hj
    simp only [pseysenAct, setEntry, setCol_same, setCol_ne _ _ ha, setCol_ne _ _ hb,
      setAt_ne _ _ hr, setAt_ne _ _ hr.symm]
    funext r
    simp only [setAt]
    by_cases h1 : r = a.2
    · subst h1; simp [hr]
    · by_cases h2 : r = b.2
      · subst h2; simp [hr.symm]
      · simp [h1, h2]
  · simp only [pseysenAct, setEntry, setCol_ne _ _ hj]

theorem mem_pseysenProg {lo : Nat} {bd : Nat → Bool} {ibeg nloc m : Nat} {a : Nat × Nat}
    (h : a ∈ pseysenProg lo bd ibeg nloc m) :
    a.1 < lo + m ∧ ibeg ≤ a.2 ∧ a.2 < ibeg + nloc := by
  induction m with
  | zero => simp [pseysenProg] at h
  | succ m ih =>
    simp only [pseysenProg, List.mem_append] at h
    rcases h with h | h
    · split at h
      · simp at h
      · simp only [List.mem_map, List.mem_range'_1] at h
        obtain ⟨r, hr, rfl⟩ := h
        exact ⟨by simp, hr.1, hr.2⟩
    · have := ih h; omega

/-- All schedules of the threads give `pseysenUpdateB`. -/
theorem pseysen_schedules (fl : Bool) (κ lo m : Nat) (bd : Nat → Bool) (str : Nat → Int) (vx : Nat → F)
    (xm : F) (S : Nat) (hm : lo + m ≤ κ) (T : List (Nat × Nat))
    (hT : Interleave (pseysenThreads (pseysenNmax str lo m) S lo bd m) T) (M : Mat Int) :
    execAll (pseysenAct o fl κ vx xm) T M = pseysenUpdateB o fl κ lo m bd str vx xm S M := by
  rw [hT.exec_eq (pseysenAct o fl κ vx xm) _ M]
  · exact pseysen_exec_threads o fl κ lo bd vx xm _ S m S hm M
  · unfold pseysenThreads
    rw [List.pairwise_map]
    refine List.Pairwise.imp ?_ (List.pairwise_lt_range (n := S))
    intro l k hlk a ha b hb s
    obtain ⟨a1, a2, a3⟩ := mem_pseysenProg ha
    obtain ⟨b1, b2, b3⟩ := mem_pseysenProg hb
    have h1 := sliceBeg_mono (pseysenNmax str lo m) S (l := l + 1) (k := k) hlk
    rw [sliceBeg_succ] at h1
    exact pseysen_act_comm o fl κ vx xm a b (by omega) (by omega) (by omega) s

/-! ### The sequential effect -/

/-- The columns `lo+m-1 .. lo` on rows `< l`. -/
def pseyCols (fl : Bool) (κ lo : Nat) (bd : Nat → Bool) (vx : Nat → F) (xm : F) (l : Nat) :
    Nat → Mat Int → Mat Int
  | 0, M => M
  | m + 1, M => pseyCols fl κ lo bd vx xm l m
      (if bd (lo + m) then M else axpy M κ (lo + m) (multOf o fl (vx (lo + m)) xm) l)

theorem pseyCols_eq (fl : Bool) (κ lo : Nat) (bd : Nat → Bool) (vx : Nat → F) (xm : F) (l m : Nat)
    (hm : lo + m ≤ κ) (M : Mat Int) :
    pseyCols o fl κ lo bd vx xm l m M = setCol M κ fun r =>
      if r < l then M κ r + ∑ j ∈ Finset.range m, pseyMult o fl bd vx xm (lo + j) * M (lo + j) r
      else M κ r := by
  induction m generalizing M with
  | zero =>
    funext j; by_cases hj : j = κ
    · subst hj; simp [pseyCols]
    · simp [pseyCols, setCol_ne _ _ hj]
  | succ m ih =>
    simp only [pseyCols]
    rw [ih (by omega)]
    funext j; by_cases hj : j = κ
    · subst hj
      simp only [setCol_same]
      funext r
      have hne : ∀ i ∈ Finset.range m, lo + i ≠ j := by
        intro i hi; have := Finset.mem_range.1 hi; omega
      by_cases hr : r < l
      · simp only [hr, if_true, Finset.sum_range_succ]
        by_cases hz : bd (lo + m)
        · simp only [hz, if_true, pseyMult]; ring
        · simp only [hz, Bool.false_eq_true, if_false, axpy, setCol_same, hr, if_true]
          have e : ∑ i ∈ Finset.range m, pseyMult o fl bd vx xm (lo + i) *
              setCol M j (fun r => if r < l then M j r + multOf o fl (vx (lo + m)) xm * M (lo + m) r
                else M j r) (lo + i) r =
              ∑ i ∈ Finset.range m, pseyMult o fl bd vx xm (lo + i) * M (lo + i) r :=
            Finset.sum_congr rfl fun i hi => by rw [setCol_ne _ _ (hne i hi)]
          rw [e]
          simp only [pseyMult, hz, Bool.false_eq_true, if_false]
          ring
      · simp only [hr, if_false]
        by_cases hz : bd (lo + m)
        · simp [hz]
        · simp [hz, axpy, hr]
    · rw [setCol_ne _ _ hj, setCol_ne _ _ hj]
      split
      · rfl
      · rw [axpy, setCol_ne _ _ hj]

theorem pseysenThread_eq (fl : Bool) (κ lo : Nat) (bd : Nat → Bool) (vx : Nat → F) (xm : F)
    (ibeg nloc m : Nat) (hm : lo + m ≤ κ) (M : Mat Int) :
    pseysenThread o fl κ lo bd vx xm ibeg nloc m M = setCol M κ fun r =>
      if ibeg ≤ r ∧ r < nloc + ibeg then
        M κ r + ∑ j ∈ Finset.range m, pseyMult o fl bd vx xm (lo + j) * M (lo + j) r
      else M κ r := by
  induction m generalizing M with
  | zero =>
    funext j; by_cases hj : j = κ
    · subst hj; simp [pseysenThread]
    · simp [pseysenThread, setCol_ne _ _ hj]
  | succ m ih =>
    simp only [pseysenThread]
    rw [ih (by omega)]
    by_cases hz : bd (lo + m)
    · simp only [hz, if_true]
      funext j; by_cases hj : j = κ
      · subst hj
        simp only [setCol_same, Finset.sum_range_succ, pseyMult, hz, if_true, zero_mul, add_zero]
      · rw [setCol_ne _ _ hj, setCol_ne _ _ hj]
    · simp only [hz, Bool.false_eq_true, if_false]
      rw [predZx_eq]
      funext j; by_cases hj : j = κ
      · subst hj
        simp only [setCol_same]
        funext r
        have hne : ∀ i ∈ Finset.range m, lo + i ≠ j := by
          intro i hi; have := Finset.mem_range.1 hi; omega
        by_cases hr : ibeg ≤ r ∧ r < nloc + ibeg
        · simp only [hr, and_self, if_true, Finset.sum_range_succ]
          have e : ∀ f : Nat → Int, ∑ i ∈ Finset.range m, pseyMult o fl bd vx xm (lo + i) *
              setCol M j f (lo + i) r =
              ∑ i ∈ Finset.range m, pseyMult o fl bd vx xm (lo + i) * M (lo + i) r :=
            fun f => Finset.sum_congr rfl fun i hi => by rw [setCol_ne _ _ (hne i hi)]
          rw [e]
          simp only [pseyMult, hz, Bool.false_eq_true, if_false]
          ring
        · simp [hr]
      · rw [setCol_ne _ _ hj, setCol_ne _ _ hj, setCol_ne _ _ hj]

theorem pseysenUpdateB_eq (fl : Bool) (κ lo m : Nat) (bd : Nat → Bool) (str : Nat → Int) (vx : Nat → F)
    (xm : F) (S : Nat) (M : Mat Int) (hm : lo + m ≤ κ) (hS : 0 < S) :
    pseysenUpdateB o fl κ lo m bd str vx xm S M =
      pseyCols o fl κ lo bd vx xm (pseysenNmax str lo m) m M := by
  unfold pseysenUpdateB
  simp only []
  generalize pseysenNmax str lo m = nmax
  have key : ∀ k, (List.range k).foldl
      (fun M l => pseysenThread o fl κ lo bd vx xm (sliceBeg nmax S l) (sliceLen nmax S l) m M) M =
      pseyCols o fl κ lo bd vx xm (sliceBeg nmax S k) m M := by
    intro k
    induction k with
    | zero =>
      rw [pseyCols_eq _ _ _ _ _ _ _ _ _ hm, sliceBeg_zero]
      funext j; by_cases hj : j = κ
      · subst hj; simp
      · simp [setCol_ne _ _ hj]
    | succ k ih =>
      rw [List.range_succ, List.foldl_append, ih]
      simp only [List.foldl_cons, List.foldl_nil]
      rw [pseysenThread_eq _ _ _ _ _ _ _ _ _ _ hm, pseyCols_eq _ _ _ _ _ _ _ _ _ hm,
        pseyCols_eq _ _ _ _ _ _ _ _ _ hm, sliceBeg_succ]
      funext j; by_cases hj : j = κ
      · subst hj
        simp only [setCol_same]
        funext r
        have hne : ∀ i ∈ Finset.range m, lo + i ≠ j := by
          intro i hi; have := Finset.mem_range.1 hi; omega
        have e : ∀ f : Nat → Int, ∑ i ∈ Finset.range m, pseyMult o fl bd vx xm (lo + i) *
            setCol M j f (lo + i) r =
            ∑ i ∈ Finset.range m, pseyMult o fl bd vx xm (lo + i) * M (lo + i) r :=
          fun f => Finset.sum_congr rfl fun i hi => by rw [setCol_ne _ _ (hne i hi)]
        rw [e]
        by_cases h1 : r < sliceBeg nmax S k
        · rw [if_neg (by omega), if_pos h1, if_pos (by omega)]
        · by_cases h2 : r < sliceBeg nmax S k + sliceLen nmax S k
          · rw [if_pos (by omega), if_neg h1, if_pos h2]
          · rw [if_neg (by omega), if_neg (by omega), if_neg (by omega)]
      · rw [setCol_ne _ _ hj, setCol_ne _ _ hj, setCol_ne _ _ hj]
  rw [key S, sliceBeg_S _ _ hS]

theorem nmaxOf_le_pseysenNmax (str : Nat → Int) (lo m i : Nat) (h1 : lo ≤ i) (h2 : i ≤ lo + m) :
    nmaxOf str i ≤ pseysenNmax str lo m := by
  unfold nmaxOf pseysenNmax
  have := (foldl_max_le str (List.range' lo (m + 1)) (str (lo + m - 1))).2 i
    (List.mem_range'_1.2 ⟨h1, by omega⟩)
  omega

end HPLLL
