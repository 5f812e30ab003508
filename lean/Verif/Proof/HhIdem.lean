import Verif.Proof.HistX
import Verif.Proof.MatH
/-!
# `householder_r` is idempotent

In any arithmetic, forgetting the cache of the column just computed and computing it again changes
nothing.  A pass of `seysenreduce0` in which nothing is marked as done changes nothing, when every
block takes the parallel branch.
-/

namespace HPLLL

variable {F : Type} (o : FPOps F)

/-- Step `k` of the computation of column `κ` has been done. -/
def HhDone (κ k : Nat) (p : FPart F) : Prop :=
  p.VR κ k = scalarprod o (getcol p.V k k) (hhSrc κ k p) (p.nmaxkappa - k) ∧
    ∀ r, k ≤ r → r < k + (p.nmaxkappa - k) →
      p.Rkept k r = o.submul (hhSrc κ k p (r - k)) (getcol p.V k k (r - k)) (p.VR κ k)

theorem hhCompute_of_done {κ k : Nat} {p : FPart F} (h : HhDone o κ k p) : hhCompute o κ k p = p := by
  obtain ⟨h1, h2⟩ := h
  have e1 : setEntry p.VR k κ (scalarprod o (getcol p.V k k) (hhSrc κ k p) (p.nmaxkappa - k)) = p.VR := by
    funext j r
    rw [setEntry_apply, ← h1]
    split
    · rename_i h; rw [h.1, h.2]
    · rfl
  have e2 : fmasub o p.Rkept k k (hhSrc κ k p) (getcol p.V k k) (p.VR κ k) (p.nmaxkappa - k) = p.Rkept := by
    funext j r
    unfold fmasub
    by_cases hj : j = k
    · subst hj
      rw [setCol_same]
      split
      · rename_i h; exact (h2 r h.1 h.2).symm
      · rfl
    · rw [setCol_ne _ _ hj]
  unfold hhCompute hhApply
  rw [e1]
  show { p with Rkept := fmasub o p.Rkept k k (hhSrc κ k p) (getcol p.V k k) (p.VR κ k) (p.nmaxkappa - k) } = p
  rw [e2]

theorem hhSrc_compute {κ j k : Nat} (hjk : j ≤ k) (p : FPart F) :
    hhSrc κ j (hhCompute o κ k p) = hhSrc κ j p := by
  unfold hhSrc
  split
  · rfl
  · funext r
    show fmasub o p.Rkept k k _ _ _ _ (j - 1) (j + r) = p.Rkept (j - 1) (j + r)
    unfold fmasub
    rw [setCol_ne _ _ (by omega)]

theorem hhDone_compute (κ k : Nat) (p : FPart F) : HhDone o κ k (hhCompute o κ k p) := by
  have e := hhSrc_compute o (κ := κ) (le_refl k) p
  refine ⟨?_, fun r h1 h2 => ?_⟩
  · rw [e]
    show setEntry p.VR k κ _ κ k = _
    rw [setEntry_apply, if_pos ⟨rfl, rfl⟩]
    rfl
  · rw [e]
    show fmasub o p.Rkept k k (hhSrc κ k p) (getcol p.V k k) _ (p.nmaxkappa - k) k r = _
    unfold fmasub
    rw [setCol_same, if_pos ⟨h1, h2⟩]
    rfl

theorem HhDone.compute {κ j k : Nat} {p : FPart F} (hjk : j < k) (h : HhDone o κ j p) :
    HhDone o κ j (hhCompute o κ k p) := by
  obtain ⟨h1, h2⟩ := h
  have e := hhSrc_compute o (κ := κ) (le_of_lt hjk) p
  have ev : (hhCompute o κ k p).VR κ j = p.VR κ j := by
    show setEntry p.VR k κ _ κ j = _
    rw [setEntry_apply, if_neg (by omega)]
  refine ⟨?_, fun r h3 h4 => ?_⟩
  · rw [e, ev]; exact h1
  · rw [e, ev]
    show fmasub o p.Rkept k k _ _ _ _ j r = _
    unfold fmasub
    rw [setCol_ne _ _ (by omega)]
    exact h2 r h3 h4

theorem hhComputeRange_done (κ a len : Nat) : ∀ p : FPart F, (∀ j < a, HhDone o κ j p) →
    ∀ j < a + len, HhDone o κ j ((List.range' a len).foldl (fun p k => hhCompute o κ k p) p) := by
  induction len generalizing a with
  | zero => intro p h j hj; exact h j (by omega)
  | succ len ih =>
    intro p h j hj
    rw [List.range'_succ, List.foldl_cons]
    refine ih (a + 1) _ (fun i hi => ?_) j (by omega)
    rcases Nat.lt_succ_iff_lt_or_eq.1 hi with hi | rfl
    · exact (h i hi).compute o hi
    · exact hhDone_compute o κ i p

theorem hhComputeRange_of_done (κ a len : Nat) (p : FPart F) (h : ∀ j < a + len, HhDone o κ j p) :
    (List.range' a len).foldl (fun p k => hhCompute o κ k p) p = p := by
  induction len generalizing a with
  | zero => rfl
  | succ len ih =>
    rw [List.range'_succ, List.foldl_cons, hhCompute_of_done o (h a (by omega))]
    exact ih (a + 1) fun j hj => h j (by omega)

/-- The parts of the object that the loops of `householder_r(κ)` leave unchanged. -/
theorem hhComputeRange_keep (κ : Nat) (l : List Nat) : ∀ p : FPart F,
    let q := l.foldl (fun p k => hhCompute o κ k p) p
    q.R = p.R ∧ q.V = p.V ∧ q.Bfp = p.Bfp ∧ q.normB2 = p.normB2 ∧ q.colKept = p.colKept ∧
      q.nmaxkappa = p.nmaxkappa ∧ q.kappamin = p.kappamin := by
  induction l with
  | nil => intro p; exact ⟨rfl, rfl, rfl, rfl, rfl, rfl, rfl⟩
  | cons a l ih =>
    intro p
    simp only [List.foldl_cons]
    exact ih (hhCompute o κ a p)

/-- **Idempotence.** `householder_r(κ)` with the cache of column `κ` dropped, twice: the second call
changes nothing. -/
theorem householderR_idem (str : Nat → Int) (B : Mat Int) (κ : Nat) (hκ : 0 < κ) (p : FPart F)
    (hp : p.colKept κ = false) :
    let q := householderR o str B κ p
    householderR o str B κ { q with colKept := setAt q.colKept κ false } = q := by
  intro q
  have e0 : κ ≠ 0 := by omega
  -- the start of the first computation
  set p0 : FPart F := { p with
    nmaxkappa := nmaxOf str κ
    colKept := setAt p.colKept κ true
    Bfp := fsetcolZ o p.Bfp κ (B κ) (nmaxOf str κ)
    normB2 := setAt p.normB2 κ
      (fpNormSq o (fsetcolZ o p.Bfp κ (B κ) (nmaxOf str κ) κ) (nmaxOf str κ)) } with hp0
  set m := min κ (nmaxOf str κ) with hm
  set q1 : FPart F := (List.range' 1 (m - 1)).foldl (fun p k => hhCompute o κ k p)
    (hhCompute o κ 0 p0) with hq1
  have hq : q = hhCopyR κ q1 := by
    show householderR o str B κ p = _
    unfold householderR
    simp only [if_neg e0, hp, Bool.false_eq_true, if_false]
    rfl
  have hdone : ∀ j < 1 + (m - 1), HhDone o κ j q1 := by
    refine hhComputeRange_done o κ 1 (m - 1) _ fun j hj => ?_
    obtain rfl : j = 0 := by omega
    exact hhDone_compute o κ 0 p0
  obtain ⟨kR, kV, kB, kn, kc, km, kk⟩ := hhComputeRange_keep o κ (List.range' 1 (m - 1)) (hhCompute o κ 0 p0)
  rw [← hq1] at kR kV kB kn kc km kk
  have kB' : q1.Bfp = fsetcolZ o p.Bfp κ (B κ) (nmaxOf str κ) := kB
  have kn' : q1.normB2 = setAt p.normB2 κ
      (fpNormSq o (fsetcolZ o p.Bfp κ (B κ) (nmaxOf str κ) κ) (nmaxOf str κ)) := kn
  have kc' : q1.colKept = setAt p.colKept κ true := kc
  have km' : q1.nmaxkappa = nmaxOf str κ := km
  -- the start of the second computation
  have hst : ({ q with
      nmaxkappa := nmaxOf str κ
      colKept := setAt (setAt q.colKept κ false) κ true
      Bfp := fsetcolZ o q.Bfp κ (B κ) (nmaxOf str κ)
      normB2 := setAt q.normB2 κ
        (fpNormSq o (fsetcolZ o q.Bfp κ (B κ) (nmaxOf str κ) κ) (nmaxOf str κ)) } : FPart F) = q := by
    have b : fsetcolZ o q.Bfp κ (B κ) (nmaxOf str κ) = q.Bfp := by
      rw [hq]
      show fsetcolZ o q1.Bfp κ (B κ) (nmaxOf str κ) = q1.Bfp
      rw [kB']
      funext j r
      unfold fsetcolZ
      by_cases hj : j = κ
      · subst hj
        rw [setCol_same, setCol_same]
        split <;> rfl
      · rw [setCol_ne _ _ hj]
    have c : setAt (setAt q.colKept κ false) κ true = q.colKept := by
      rw [hq]
      show setAt (setAt q1.colKept κ false) κ true = q1.colKept
      rw [kc']
      funext j
      by_cases hj : j = κ
      · subst hj; simp [setAt]
      · simp [setAt, hj]
    have nn : setAt q.normB2 κ (fpNormSq o (q.Bfp κ) (nmaxOf str κ)) = q.normB2 := by
      rw [hq]
      show setAt q1.normB2 κ (fpNormSq o (q1.Bfp κ) (nmaxOf str κ)) = q1.normB2
      rw [kn', kB']
      funext j
      by_cases hj : j = κ
      · subst hj; simp [setAt]
      · simp [setAt, hj]
    have mm : nmaxOf str κ = q.nmaxkappa := by
      rw [hq]; exact km'.symm
    rw [b, c, nn, mm]
  have hdoneq : ∀ j < 1 + (m - 1), HhDone o κ j q := by
    intro j hj
    rw [hq]
    exact hdone j hj
  have hcopy : hhCopyR κ q = q := by
    rw [hq]
    unfold hhCopyR
    have r1 : fsetcol (fsetcol q1.R κ (fun i => if i < κ then q1.Rkept i i
          else if κ < q1.nmaxkappa then q1.Rkept (κ - 1) i else q1.Rkept i i) q1.nmaxkappa) κ
        (fun i => if i < κ then q1.Rkept i i
          else if κ < q1.nmaxkappa then q1.Rkept (κ - 1) i else q1.Rkept i i) q1.nmaxkappa =
        fsetcol q1.R κ (fun i => if i < κ then q1.Rkept i i
          else if κ < q1.nmaxkappa then q1.Rkept (κ - 1) i else q1.Rkept i i) q1.nmaxkappa := by
      funext j r
      unfold fsetcol
      by_cases hj : j = κ
      · subst hj
        rw [setCol_same, setCol_same]
        split <;> rfl
      · rw [setCol_ne _ _ hj]
    have r2 : setAt (setAt q1.kappamin κ (κ : Int)) κ (κ : Int) = setAt q1.kappamin κ (κ : Int) := by
      funext j
      by_cases hj : j = κ
      · subst hj; simp [setAt]
      · simp [setAt, hj]
    simp only [r1, r2]
  unfold householderR
  simp only [if_neg e0]
  have hf : setAt q.colKept κ false κ = false := by simp [setAt]
  simp only [hf, Bool.false_eq_true, if_false]
  unfold hhFull hhComputeRange
  simp only []
  rw [hst, hhCompute_of_done o (hdoneq 0 (by omega)), hhComputeRange_of_done o κ 1 (m - 1) q hdoneq]
  exact hcopy

/-! ### A pass of `seysenreduce0` with nothing done -/

theorem sey0Solve_done (thr theta : F) (R : Mat F) (lo m : Nat) :
    ∀ q : (Nat → F) × (Nat → F) × (Nat → Bool) × Bool,
      (sey0Solve o thr theta R lo m q).2.2.2 = false → q.2.2.2 = false ∧
      (∀ i, lo ≤ i → i < lo + m → (sey0Solve o thr theta R lo m q).2.2.1 i = true) ∧
      (∀ i, ¬(lo ≤ i ∧ i < lo + m) → (sey0Solve o thr theta R lo m q).2.2.1 i = q.2.2.1 i) := by
  induction m with
  | zero => intro q h; exact ⟨h, fun i h1 h2 => by omega, fun _ _ => rfl⟩
  | succ m ih =>
    intro q h
    simp only [sey0Solve] at h ⊢
    obtain ⟨h1, h2, h3⟩ := ih _ h
    simp only [Bool.or_eq_false_iff] at h1
    refine ⟨h1.1, fun i h4 h5 => ?_, fun i h4 => ?_⟩
    · by_cases hi : i < lo + m
      · exact h2 i h4 hi
      · obtain rfl : i = lo + m := by omega
        rw [h3 _ (by omega)]
        simp only [setAt, if_true]
        rw [h1.2]; rfl
    · rw [h3 _ (by omega)]
      simp only [setAt]
      rw [if_neg (by omega)]

theorem seysenUpdateRLoop_bounded (κ lo : Nat) (bd : Nat → Bool) (m : Nat) :
    ∀ q : Lat F × (Nat → F), (∀ i, lo ≤ i → i < lo + m → bd i = true) →
      (seysenUpdateRLoop o κ lo bd m q).1 = q.1 := by
  induction m with
  | zero => intro q _; rfl
  | succ m ih =>
    intro q h
    simp only [seysenUpdateRLoop]
    rw [ih _ fun i h1 h2 => h i h1 (by omega)]
    simp only [h (lo + m) (by omega) (by omega), if_true]

theorem pseysenThread_bounded (fl : Bool) (κ lo : Nat) (bd : Nat → Bool) (vx : Nat → F) (xm : F)
    (ib nl m : Nat) (M : Mat Int) (h : ∀ i, lo ≤ i → i < lo + m → bd i = true) :
    pseysenThread o fl κ lo bd vx xm ib nl m M = M := by
  induction m with
  | zero => rfl
  | succ m ih =>
    simp only [pseysenThread, h (lo + m) (by omega) (by omega), if_true]
    exact ih fun i h1 h2 => h i h1 (by omega)

theorem pseysenUpdateB_bounded (fl : Bool) (κ lo m : Nat) (bd : Nat → Bool) (str : Nat → Int)
    (vx : Nat → F) (xm : F) (S : Nat) (M : Mat Int) (h : ∀ i, lo ≤ i → i < lo + m → bd i = true) :
    pseysenUpdateB o fl κ lo m bd str vx xm S M = M := by
  unfold pseysenUpdateB
  simp only []
  generalize List.range S = l
  induction l with
  | nil => rfl
  | cons a l ih => rw [List.foldl_cons, pseysenThread_bounded o _ _ _ _ _ _ _ _ _ _ h, ih]

/-- Everything but the flag `ub` is the same. -/
def SameBut (s s' : Lat F) : Prop := ∃ b, s' = { s with ub := b }

/-- The part of the object read by the choice of the branch. -/
def AllPar (s : Lat F) : Prop := s.numS ≠ 1 ∧ s.parThr ≤ 1

theorem sey0Block_quiet (thr theta : F) (κ ld idx : Nat) (hld : 0 < ld) (q : SeyState F × (Nat → Bool))
    (hp : AllPar q.1.s) (h : (sey0Block o thr theta κ ld idx q).1.somedone = false) :
    q.1.somedone = false ∧ SameBut q.1.s (sey0Block o thr theta κ ld idx q).1.s := by
  unfold sey0Block at h ⊢
  simp only [] at h ⊢
  have hb : (if κ / ld % 2 = 0 then 0 else ld) = 0 ∨ 1 ≤ (if κ / ld % 2 = 0 then 0 else ld) := by omega
  generalize (if κ / ld % 2 = 0 then 0 else ld) = bd at hb h ⊢
  generalize htv : (sey0Solve o thr theta q.1.s.fp.R (κ - idx - bd) (κ - idx - (κ - idx - bd))
      (fun i => if κ - idx - bd ≤ i ∧ i < κ - idx then q.1.s.fp.R κ i else q.1.tmpcol i,
        q.1.vectx, q.2, q.1.somedone)) = tv at h ⊢
  have hs : tv.2.2.2 = false := by
    revert h; split <;> exact fun h => h
  rw [← htv] at hs
  obtain ⟨h1, h2, h3⟩ := sey0Solve_done o _ _ _ _ _ _ hs
  rw [htv] at h2
  refine ⟨h1, ?_⟩
  split
  · rename_i hc
    rcases hc with hc | hc
    · exact absurd hc hp.1
    · have : bd = 0 := by
        rcases hb with hb | hb
        · exact hb
        · have := hp.2; omega
      subst this
      have hm : κ - idx - (κ - idx - 0) = 0 := by omega
      rw [hm]
      exact ⟨q.1.s.ub, rfl⟩
  · simp only []
    rw [seysenUpdateRLoop_bounded o _ _ _ _ _ h2, pseysenUpdateB_bounded o _ _ _ _ _ _ _ _ _ _ h2]
    exact ⟨_, rfl⟩

theorem SameBut.par {s s' : Lat F} (h : SameBut s s') (hp : AllPar s) : AllPar s' := by
  obtain ⟨b, rfl⟩ := h; exact hp

theorem SameBut.trans {s s' s'' : Lat F} (h : SameBut s s') (h' : SameBut s' s'') : SameBut s s'' := by
  obtain ⟨b, rfl⟩ := h; obtain ⟨c, rfl⟩ := h'; exact ⟨c, rfl⟩

theorem sey0Blocks_quiet (thr theta : F) (κ fuel : Nat) : ∀ (ld idx : Nat) (q : SeyState F × (Nat → Bool)),
    0 < ld → AllPar q.1.s → (sey0Blocks o thr theta κ fuel ld idx q).1.somedone = false →
    q.1.somedone = false ∧ SameBut q.1.s (sey0Blocks o thr theta κ fuel ld idx q).1.s := by
  induction fuel with
  | zero => intro ld idx q _ _ h; exact ⟨h, q.1.s.ub, rfl⟩
  | succ fuel ih =>
    intro ld idx q hld hp h
    simp only [sey0Blocks] at h ⊢
    split
    · rename_i hk
      rw [if_pos hk] at h
      have f := (sey0Block_zsX o (idx := idx) thr theta hk q).frame
      obtain ⟨h1, h2⟩ := ih _ _ _ (by omega) ⟨by rw [f.numS]; exact hp.1, by rw [f.parThr]; exact hp.2⟩ h
      obtain ⟨h3, h4⟩ := sey0Block_quiet o thr theta κ ld idx hld q hp h1
      exact ⟨h3, h4.trans h2⟩
    · rename_i hk
      rw [if_neg hk] at h
      exact ⟨h, q.1.s.ub, rfl⟩

/-- State after a call in parallel mode: what `householder_r` produced in some state with the cache of
the column dropped, unchanged since. -/
theorem sey0Loop_quiet {κ : Nat} (thr : F) (fuel : Nat) :
    ∀ (t v : Nat → F) (bd : Nat → Bool) (u s : Lat F) (st : Int) (s' : Lat F), AllPar s →
    s = u.hhR o κ → u.fp.colKept κ = false →
    sey0Loop o thr κ fuel t v bd s = some (st, s') →
    st = 0 ∧ ∃ u : Lat F, u.fp.colKept κ = false ∧ SameBut (u.hhR o κ) s' := by
  induction fuel with
  | zero => intro t v bd u s st s' _ _ _ h; simp [sey0Loop] at h
  | succ fuel ih =>
    intro t v bd u s st s' hp hs hu h
    simp only [sey0Loop] at h
    split at h
    · have f := (sey0Blocks_zsX o (κ := κ) thr (o.mul (o.sqrt (s.fp.normB2 κ)) o.eps) (κ + 1) 1 0
        ({ s := s, tmpcol := t, vectx := v, somedone := false }, bd)).frame
      refine ih _ _ _ _ _ st s' ⟨?_, ?_⟩ rfl ?_ h
      · exact fun e => hp.1 (f.numS.symm.trans e)
      · exact le_of_eq_of_le f.parThr hp.2
      · simp [setAt]
    · rename_i hd
      have h1 := sey0Blocks_quiet o thr (o.mul (o.sqrt (s.fp.normB2 κ)) o.eps) κ (κ + 1) 1 0
        ({ s := s, tmpcol := t, vectx := v, somedone := false }, bd) one_pos hp (by simpa using hd)
      simp only [Option.some.injEq, Prod.mk.injEq] at h
      obtain ⟨rfl, rfl⟩ := h
      refine ⟨rfl, u, hu, ?_⟩
      rw [← hs]
      exact h1.2

theorem seysenreduce0_quiet {κ : Nat} (thr : F) (fuel : Nat) (s : Lat F) (st : Int) (s' : Lat F)
    (hp : AllPar s) (hc : s.fp.colKept κ = false) (h : seysenreduce0 o thr fuel κ s = some (st, s')) :
    st = 0 ∧ ∃ u : Lat F, u.fp.colKept κ = false ∧ SameBut (u.hhR o κ) s' := by
  unfold seysenreduce0 at h
  simp only [] at h
  refine sey0Loop_quiet o thr fuel _ _ _ _ _ st s' ?_ rfl ?_ h
  · exact hp
  · exact hc

end HPLLL
