import Verif.Proof.HlllExit
import Verif.Proof.UInv
import Mathlib.Data.Nat.Log
/-! Index safety: the flag `ub` stays false. -/

namespace HPLLL
open Spec

variable {F : Type} (o : FPOps F)

/-- Dimensions and profile in range. -/
structure Rng (n d : Nat) (s : Lat F) : Prop where
  hn : s.n = n
  hd : s.d = d
  lt : ∀ j < d, s.str j < n

/-- No range violation so far; kept columns have a nonnegative `kappamin`. -/
structure Safe (s : Lat F) : Prop where
  ub : s.ub = false
  km : ∀ c < s.d, s.fp.colKept c = true → 0 ≤ s.fp.kappamin c

theorem Rng.nmax {n d : Nat} {s : Lat F} (h : Rng n d s) (j : Nat) (hj : j < d) :
    nmaxOf s.str j ≤ n := by have := h.lt j hj; unfold nmaxOf; omega

theorem LInv.rng {n d : Nat} {A : Mat Int} {track : Prop} {s : Lat F} (h : LInv n d A track s) :
    Rng n d s := ⟨h.hn, h.hd, h.lt⟩

/-- `householder_r` writes only these bookkeeping entries. -/
theorem householderR_keep (str : Nat → Int) (B : Mat Int) (κ : Nat) (p : FPart F) :
    (householderR o str B κ p).nmaxkappa = nmaxOf str κ ∧
    (∀ c, c ≠ κ → (householderR o str B κ p).colKept c = p.colKept c) ∧
    (householderR o str B κ p).kappamin = setAt p.kappamin κ κ := by
  have c1 : ∀ (l : List Nat) (p : FPart F),
      (l.foldl (fun p k => hhCompute o κ k p) p).nmaxkappa = p.nmaxkappa ∧
      (l.foldl (fun p k => hhCompute o κ k p) p).colKept = p.colKept ∧
      (l.foldl (fun p k => hhCompute o κ k p) p).kappamin = p.kappamin := by
    intro l
    induction l with
    | nil => intro p; exact ⟨rfl, rfl, rfl⟩
    | cons a l ih => intro p; rw [List.foldl_cons]; exact ih _
  have c2 : ∀ (l : List Nat) (p : FPart F),
      (l.foldl (fun p k => hhApply o κ k p) p).nmaxkappa = p.nmaxkappa ∧
      (l.foldl (fun p k => hhApply o κ k p) p).colKept = p.colKept ∧
      (l.foldl (fun p k => hhApply o κ k p) p).kappamin = p.kappamin := by
    intro l
    induction l with
    | nil => intro p; exact ⟨rfl, rfl, rfl⟩
    | cons a l ih => intro p; rw [List.foldl_cons]; exact ih _
  unfold householderR
  simp only []
  split
  · rename_i h0; subst h0
    split
    · exact ⟨rfl, fun _ _ => rfl, rfl⟩
    · refine ⟨rfl, fun c hc => ?_, rfl⟩
      simp only []; exact setAt_ne _ _ hc
  · simp only [hhCopyR]
    split
    · unfold hhKept
      split
      · split
        · unfold hhComputeRange
          refine ⟨(c1 _ _).1, fun c hc => ?_, ?_⟩
          · exact congrFun (c1 _ _).2.1 c
          · rw [(c1 _ _).2.2]; rfl
        · simp only []
          unfold hhComputeRange hhApplyRange
          refine ⟨(c1 _ _).1.trans (c2 _ _).1, fun c hc => ?_, ?_⟩
          · exact congrFun ((c1 _ _).2.1.trans (c2 _ _).2.1) c
          · rw [(c1 _ _).2.2, (c2 _ _).2.2]; rfl
      · exact ⟨rfl, fun _ _ => rfl, rfl⟩
    · unfold hhFull hhComputeRange
      simp only []
      refine ⟨(c1 _ _).1, fun c hc => ?_, ?_⟩
      · rw [(c1 _ _).2.1]
        show setAt p.colKept κ true c = _
        exact setAt_ne _ _ hc
      · rw [(c1 _ _).2.2]; rfl

theorem Safe.hhR {n d κ : Nat} {s : Lat F} (hdn : d ≤ n) (hκ : κ < d) (hr : Rng n d s) (h : Safe s) :
    Safe (s.hhR o κ) ∧ (s.hhR o κ).fp.nmaxkappa ≤ n := by
  obtain ⟨k1, k2, k3⟩ := householderR_keep o s.str s.B κ s.fp
  refine ⟨⟨?_, ?_⟩, ?_⟩
  · simp only [Lat.hhR, h.ub, Bool.false_or, Bool.not_eq_false']
    unfold hhRIdx
    have := hr.nmax κ hκ
    have hkm := h.km κ (by rw [hr.hd]; exact hκ)
    rw [hr.hn, hr.hd]
    simp only [Bool.and_eq_true, decide_eq_true_eq, Bool.or_eq_true, Bool.not_eq_true']
    refine ⟨⟨⟨hκ, by omega⟩, this⟩, ?_⟩
    cases hc : s.fp.colKept κ
    · left; right; rfl
    · right; exact hkm hc
  · intro c hc hk
    show 0 ≤ (householderR o s.str s.B κ s.fp).kappamin c
    rw [k3]
    by_cases hcκ : c = κ
    · subst hcκ; rw [setAt_same]; omega
    · rw [setAt_ne _ _ hcκ]
      exact h.km c hc (by rw [← k2 c hcκ]; exact hk)
  · show (householderR o s.str s.B κ s.fp).nmaxkappa ≤ n
    rw [k1]; exact hr.nmax κ hκ

theorem Safe.hhV {n d κ : Nat} {s : Lat F} (hdn : d ≤ n) (hκ : κ < d) (hr : Rng n d s) (h : Safe s)
    (hnm : s.fp.nmaxkappa ≤ n) : Safe (s.hhV o κ) := by
  refine ⟨?_, fun c hc hk => h.km c hc hk⟩
  simp only [Lat.hhV, h.ub, Bool.false_or, Bool.not_eq_false']
  unfold hhVIdx
  rw [hr.hn, hr.hd]
  simp only [Bool.and_eq_true, decide_eq_true_eq]
  exact ⟨⟨hκ, by omega⟩, hnm⟩

theorem Rng.zs {n d κ : Nat} {s s' : Lat F} (hr : Rng n d s) (h : ZSteps κ s s') : Rng n d s' := by
  have f := h.frame
  exact ⟨f.n.trans hr.hn, f.d.trans hr.hd, by rw [f.str]; exact hr.lt⟩

/-- Bundle preserved by the column operations: safety and `nmaxkappa`. -/
def SN (n : Nat) (s : Lat F) : Prop := Safe s ∧ s.fp.nmaxkappa ≤ n

theorem SN.sizeUpdateStep {n d κ i : Nat} {q : Lat F × Bool} (hdn : d ≤ n) (hκ : κ < d)
    (hi : i < κ) (hr : Rng n d q.1) (h : SN n q.1) : SN n (HPLLL.sizeUpdateStep o κ i q).1 := by
  unfold HPLLL.sizeUpdateStep
  simp only []
  split
  · exact ⟨⟨h.1.ub, h.1.km⟩, h.2⟩
  · refine ⟨⟨?_, h.1.km⟩, h.2⟩
    have := hr.nmax i (by omega)
    simp only [h.1.ub, Bool.false_or, Bool.not_eq_false', decide_eq_true_eq]
    rw [hr.hn, hr.hd]; exact ⟨hκ, by omega, by omega, this⟩

theorem SN.sizeUpdateLoop {n d κ : Nat} (hdn : d ≤ n) (hκ : κ < d) (m : Nat) (hm : m ≤ κ) :
    ∀ q : Lat F × Bool, Rng n d q.1 → SN n q.1 → SN n (HPLLL.sizeUpdateLoop o κ m q).1 := by
  induction m with
  | zero => intro q _ h; exact h
  | succ m ih =>
    intro q hr h
    simp only [HPLLL.sizeUpdateLoop]
    exact ih (by omega) _ (hr.zs (sizeUpdateStep_zs o (by omega) q))
      (SN.sizeUpdateStep o hdn hκ (by omega) hr h)

theorem SN.sizeUpdateRStep {n d κ i : Nat} {q : Lat F × (Nat → F) × Bool} (hdn : d ≤ n) (hκ : κ < d)
    (hi : i < κ) (hr : Rng n d q.1) (h : SN n q.1) :
    SN n (HPLLL.sizeUpdateRStep o κ i q).1 ∧ Rng n d (HPLLL.sizeUpdateRStep o κ i q).1 := by
  unfold HPLLL.sizeUpdateRStep
  simp only []
  split
  · exact ⟨⟨⟨h.1.ub, h.1.km⟩, h.2⟩, ⟨hr.hn, hr.hd, hr.lt⟩⟩
  · refine ⟨⟨⟨?_, h.1.km⟩, h.2⟩, ⟨hr.hn, hr.hd, hr.lt⟩⟩
    simp only [h.1.ub, Bool.false_or, Bool.not_eq_false', decide_eq_true_eq]
    rw [hr.hn, hr.hd]; exact ⟨hκ, by omega, by omega⟩

theorem SN.sizeUpdateRLoop {n d κ : Nat} (hdn : d ≤ n) (hκ : κ < d) (m : Nat) (hm : m ≤ κ) :
    ∀ q : Lat F × (Nat → F) × Bool, Rng n d q.1 → SN n q.1 →
      SN n (HPLLL.sizeUpdateRLoop o κ m q).1 ∧ Rng n d (HPLLL.sizeUpdateRLoop o κ m q).1 := by
  induction m with
  | zero => intro q hr h; exact ⟨h, hr⟩
  | succ m ih =>
    intro q hr h
    simp only [HPLLL.sizeUpdateRLoop]
    obtain ⟨a, b⟩ := SN.sizeUpdateRStep o hdn hκ (i := m) (by omega) hr h
    exact ih (by omega) _ b a

theorem psizeNmax_le {n d m : Nat} {s : Lat F} (hr : Rng n d s) (hm : m < d) :
    psizeNmax s.str m ≤ n := by
  have key : ∀ (l : List Nat) (a : Int), a < n → (∀ i ∈ l, s.str i < n) →
      l.foldl (fun a i => max a (s.str i)) a < n := by
    intro l
    induction l with
    | nil => intro a h _; exact h
    | cons b l ih =>
      intro a h h2
      rw [List.foldl_cons]
      exact ih _ (max_lt h (h2 b (by simp))) (fun i hi => h2 i (by simp [hi]))
  have := key (List.range (m + 1)) (s.str (m - 1)) (hr.lt _ (by omega))
    (fun i hi => hr.lt i (by simp at hi; omega))
  unfold psizeNmax; omega

theorem SN.hsizePass {n d κ m : Nat} {s : Lat F} (hdn : d ≤ n) (hκ : κ < d) (hm : m ≤ κ)
    (hr : Rng n d s) (h : SN n s) : SN n (HPLLL.hsizePass o κ m s).1 := by
  unfold HPLLL.hsizePass
  split
  · exact SN.sizeUpdateLoop o hdn hκ m hm (s, false) hr h
  · obtain ⟨a, b⟩ := SN.sizeUpdateRLoop o hdn hκ m hm (s, fun _ => o.zero, false) hr h
    refine ⟨⟨?_, a.1.km⟩, a.2⟩
    have := psizeNmax_le (m := m) b (by omega)
    simp only [a.1.ub, Bool.false_or, Bool.not_eq_false', decide_eq_true_eq]
    rw [b.hn, b.hd]; exact ⟨hκ, by omega, this⟩

theorem SN.drop {n κ : Nat} {s : Lat F} (h : SN n s) :
    SN n { s with fp := { s.fp with colKept := setAt s.fp.colKept κ false } } := by
  refine ⟨⟨h.1.ub, fun c hc hk => ?_⟩, h.2⟩
  simp only [setAt] at hk
  split at hk
  · simp at hk
  · exact h.1.km c hc hk

theorem SN.hsizeLoop {n d κ m : Nat} (hdn : d ≤ n) (hκ : κ < d) (hm : m ≤ κ) (fuel : Nat) :
    ∀ (b : Bool) (s s' : Lat F) (st : Int), Rng n d s → SN n s →
    HPLLL.hsizeLoop o κ m fuel b s = some (st, s') → SN n s' := by
  induction fuel with
  | zero => intro b s s' st _ _ h; simp [HPLLL.hsizeLoop] at h
  | succ fuel ih =>
    intro b s s' st hr hs h
    simp only [HPLLL.hsizeLoop] at h
    have h1 := SN.hsizePass o hdn hκ hm hr hs
    have r1 : Rng n d (HPLLL.hsizePass o κ m s).1 := hr.zs (hsizePass_zs o hm s)
    have h2 := h1.drop (κ := κ)
    have r2 : Rng n d { (HPLLL.hsizePass o κ m s).1 with
      fp := { (HPLLL.hsizePass o κ m s).1.fp with
        colKept := setAt (HPLLL.hsizePass o κ m s).1.fp.colKept κ false } } := ⟨r1.hn, r1.hd, r1.lt⟩
    have h3 : SN n _ := Safe.hhR o hdn hκ r2 h2.1
    split at h
    · split at h
      · split at h <;>
        · simp only [Option.some.injEq, Prod.mk.injEq] at h
          obtain ⟨rfl, rfl⟩ := h
          exact h3
      · refine ih _ _ _ _ ?_ h3 h
        exact ⟨r2.hn, r2.hd, r2.lt⟩
    · simp only [Option.some.injEq, Prod.mk.injEq] at h
      obtain ⟨rfl, rfl⟩ := h
      exact h1

theorem SN.seysenUpdateLoop {n d κ rd : Nat} (hdn : d ≤ n) (hκ : κ < d) (m : Nat) (hm : rd + m ≤ κ) :
    ∀ q : Lat F × (Nat → F) × Bool, Rng n d q.1 → SN n q.1 →
      SN n (HPLLL.seysenUpdateLoop o κ rd m q).1 := by
  induction m with
  | zero => intro q hr h; exact h
  | succ m ih =>
    intro q hr h
    simp only [HPLLL.seysenUpdateLoop]
    refine ih (by omega) _ ?_ ?_
    · exact hr.zs (seysenUpdateStep_zs o (by omega) q)
    · unfold seysenUpdateStep
      simp only []
      split
      · exact h
      · refine ⟨⟨?_, h.1.km⟩, h.2⟩
        have := hr.nmax (rd + m) (by omega)
        simp only [h.1.ub, Bool.false_or, Bool.not_eq_false', decide_eq_true_eq]
        rw [hr.hn, hr.hd]; exact ⟨hκ, by omega, by omega, this⟩

theorem SN.seysenBlocks {n d κ : Nat} (hdn : d ≤ n) (hκ : κ < d) (fuel : Nat) :
    ∀ (ld idx : Nat) (q : SeyState F), Rng n d q.s → SN n q.s →
      SN n (HPLLL.seysenBlocks o κ fuel ld idx q).s := by
  induction fuel with
  | zero => intro ld idx q _ h; exact h
  | succ fuel ih =>
    intro ld idx q hr h
    simp only [HPLLL.seysenBlocks]
    split
    · refine ih _ _ _ (hr.zs (seysenBlock_zs o q)) ?_
      unfold seysenBlock
      simp only []
      generalize (if κ / ld % 2 = 0 then 0 else ld) = bd
      split
      · exact SN.seysenUpdateLoop o hdn hκ _ (by omega) (q.s, _, false) hr h
      · exact h
    · exact h

theorem SN.seysenLoop {n d κ : Nat} (hdn : d ≤ n) (hκ : κ < d) (fuel : Nat) :
    ∀ (a b : Bool) (t v : Nat → F) (s s' : Lat F) (st : Int), Rng n d s → SN n s →
    HPLLL.seysenLoop o κ fuel a b t v s = some (st, s') → SN n s' := by
  induction fuel with
  | zero => intro a b t v s s' st _ _ h; simp [HPLLL.seysenLoop] at h
  | succ fuel ih =>
    intro a b t v s s' st hr hs h
    simp only [HPLLL.seysenLoop] at h
    have h1 := SN.seysenBlocks o hdn hκ (κ + 1) 1 0
      { s := s, tmpcol := t, vectx := v, somedone := false } hr hs
    have r1 := hr.zs (seysenBlocks_zs o (κ := κ) (κ + 1) 1 0
      { s := s, tmpcol := t, vectx := v, somedone := false })
    set q := HPLLL.seysenBlocks o κ (κ + 1) 1 0
      { s := s, tmpcol := t, vectx := v, somedone := false } with hq
    have h2 := h1.drop (κ := κ)
    have r2 : Rng n d { q.s with fp := { q.s.fp with colKept := setAt q.s.fp.colKept κ false } } :=
      ⟨r1.hn, r1.hd, r1.lt⟩
    have h3 : SN n _ := Safe.hhR o hdn hκ r2 h2.1
    split at h
    · split at h
      · refine ih _ _ _ _ _ _ _ ?_ h3 h
        exact ⟨r2.hn, r2.hd, r2.lt⟩
      · simp only [Option.some.injEq, Prod.mk.injEq] at h
        obtain ⟨rfl, rfl⟩ := h
        exact h3
    · simp only [Option.some.injEq, Prod.mk.injEq] at h
      obtain ⟨rfl, rfl⟩ := h
      exact h1

theorem SN.hlllReduce {n d κ : Nat} (hdn : d ≤ n) (h0 : 0 < κ) (hκ : κ < d) (fuel : Nat)
    (s s' : Lat F) (st : Int) (hr : Rng n d s) (hs : Safe s)
    (h : HPLLL.hlllReduce o fuel κ s = some (st, s')) : SN n s' := by
  have h1 := Safe.hhR o hdn hκ hr hs
  have r1 : Rng n d (s.hhR o κ) := ⟨hr.hn, hr.hd, hr.lt⟩
  unfold HPLLL.hlllReduce at h
  split at h
  · unfold hsizereduce at h
    simp only [Nat.lt_irrefl, if_false] at h
    exact SN.hsizeLoop o hdn hκ (by omega) fuel _ _ _ _ r1 h1 h
  · exact SN.seysenLoop o hdn hκ fuel _ _ _ _ _ _ _ r1 h1 h

theorem Safe.hlllPrep {n d κ : Nat} {s : Lat F} (hdn : d ≤ n) (h0 : 0 < κ) (hκ : κ < d)
    (hr : Rng n d s) (hs : Safe s) : Safe (HPLLL.hlllPrep o κ s) := by
  unfold HPLLL.hlllPrep
  split
  · simp only []
    have ha : Safe { s with fp := { s.fp with
        kappamin := fun i => if i < s.d then min (s.fp.kappamin i) 0 else s.fp.kappamin i } } := by
      refine ⟨hs.ub, fun c hc hk => ?_⟩
      have hc' : c < s.d := hc
      have := hs.km c hc hk
      simp only [if_pos hc']; omega
    set t : Lat F := { s with fp := { s.fp with
        kappamin := fun i => if i < s.d then min (s.fp.kappamin i) 0 else s.fp.kappamin i } } with ht
    have rt : Rng n d t := ⟨hr.hn, hr.hd, hr.lt⟩
    obtain ⟨b1, b2⟩ := Safe.hhR o (κ := 0) hdn (by omega) rt ha
    have rt' : Rng n d (t.hhR o 0) := ⟨hr.hn, hr.hd, hr.lt⟩
    exact Safe.hhV o hdn (by omega) rt' b1 b2
  · refine ⟨hs.ub, fun c hc hk => ?_⟩
    have := hs.km c hc hk
    simp only []
    split <;> omega

/-- One iteration keeps the flag clear. -/
theorem Safe.step {n d : Nat} (hdn : d ≤ n) (fuel : Nat) (δ : F)
    (h : HState F) (h0 : 0 < h.kappa) (hκ : h.kappa < d) (hI : Rng n d h.s)
    (hs : Safe h.s) :
    match hlllStep o fuel δ h with
    | .diverge => True
    | .fail s => Safe s
    | .next h' => Safe h'.s := by
  have hp := Safe.hlllPrep o hdn h0 hκ hI hs
  have rp := hI.zs (hlllPrep_zs o h.kappa h.s)
  unfold hlllStep
  simp only []
  cases hq : HPLLL.hlllReduce o fuel h.kappa (HPLLL.hlllPrep o h.kappa h.s) with
  | none => trivial
  | some r =>
    obtain ⟨flag, s⟩ := r
    simp only []
    have h1 := SN.hlllReduce o hdn h0 hκ fuel _ _ _ rp hp hq
    have r1 := rp.zs (hlllReduce_zs o h0 fuel _ _ _ hq)
    have h2 : SN n { s with
        nblov := s.nblov + 1
        ub := s.ub || !(decide (h.kappa < s.d ∧ h.kappa < s.n ∧ nmaxOf s.str h.kappa ≤ s.n)) } := by
      refine ⟨⟨?_, h1.1.km⟩, h1.2⟩
      have := r1.nmax h.kappa hκ
      simp only [h1.1.ub, Bool.false_or, Bool.not_eq_false', decide_eq_true_eq]
      rw [r1.hn, r1.hd]; exact ⟨hκ, by omega, this⟩
    have r2 : Rng n d { s with
        nblov := s.nblov + 1
        ub := s.ub || !(decide (h.kappa < s.d ∧ h.kappa < s.n ∧ nmaxOf s.str h.kappa ≤ s.n)) } :=
      ⟨r1.hn, r1.hd, r1.lt⟩
    split
    · rename_i heq; split at heq
      · exact trivial
      · split at heq
        · split at heq <;> simp at heq
        · simp at heq
    · rename_i t heq
      split at heq
      · simp only [HStep.fail.injEq] at heq; subst heq; exact h1.1
      · split at heq
        · split at heq
          · simp only [HStep.fail.injEq] at heq; subst heq
            exact Safe.hhV o hdn hκ r2 h2.1 h2.2
          · simp at heq
        · simp at heq
    · rename_i t heq
      split at heq
      · simp at heq
      · split at heq
        · split at heq
          · simp at heq
          · simp only [HStep.next.injEq] at heq; subst heq
            have := Safe.hhV o hdn hκ r2 h2.1 h2.2
            exact ⟨this.ub, this.km⟩
        · simp only [HStep.next.injEq] at heq; subst heq
          refine ⟨?_, h2.1.km⟩
          have hu := h2.1.ub
          simp only [] at hu
          simp only [hlllDown, hu, Bool.false_or, Bool.not_eq_false', decide_eq_true_eq]
          rw [r1.hd]; exact hκ

theorem Rng.down {n d κ : Nat} {s : Lat F} (h : Rng n d s) (hκ : κ < d) : Rng n d (hlllDown κ s) := by
  refine ⟨h.hn, h.hd, fun j hj => ?_⟩
  simp only [hlllDown, setAt]
  split
  · exact h.lt _ hκ
  · exact h.lt _ hj

theorem Safe.loop {n d : Nat} (hdn : d ≤ n) (δ : F) (fuel : Nat) :
    ∀ (h : HState F), 0 < h.kappa → h.s.kappaMax ≤ d → Rng n d h.s → Safe h.s →
    ∀ st s', hlllLoop o δ fuel h = some (st, s') → Safe s' := by
  induction fuel with
  | zero => intro h _ _ _ _ st s' hl; simp [hlllLoop] at hl
  | succ fuel ih =>
    intro h h0 hkm hI hs st s' hl
    simp only [hlllLoop] at hl
    split at hl
    · rename_i hc
      have hκ : h.kappa < d := by omega
      have hst := Safe.step o hdn (fuel + 1) δ h h0 hκ hI hs
      rcases hlllStep_cases o (fuel + 1) δ h h0 with e | ⟨s, _, e⟩ | ⟨s, _, e⟩ | ⟨s, pr, hz, e⟩ |
        ⟨s, hz, e⟩
      · rw [e] at hl; simp at hl
      · rw [e] at hl hst
        simp only [Option.some.injEq, Prod.mk.injEq] at hl
        obtain ⟨rfl, rfl⟩ := hl
        exact hst
      · rw [e] at hl hst
        simp only [Option.some.injEq, Prod.mk.injEq] at hl
        obtain ⟨rfl, rfl⟩ := hl
        exact hst
      · rw [e] at hl hst
        have hI0 : Rng n d { h.s with nblov := h.s.nblov + 1 } := ⟨hI.hn, hI.hd, hI.lt⟩
        refine ih ⟨s, h.kappa + 1, h.kappa, pr⟩ (Nat.succ_pos _) ?_ (hI0.zs hz) hst st s' hl
        show s.kappaMax ≤ d
        rw [hz.frame.kappaMax]; exact hkm
      · rw [e] at hl hst
        have hI0 : Rng n d { h.s with nblov := h.s.nblov + 1 } := ⟨hI.hn, hI.hd, hI.lt⟩
        refine ih ⟨hlllDown h.kappa s, max (h.kappa - 1) 1, h.kappa, h.prevR⟩ ?_ ?_
          ((hI0.zs hz).down hκ) hst st s' hl
        · show 0 < max (h.kappa - 1) 1; omega
        · show s.kappaMax ≤ d
          rw [hz.frame.kappaMax]; exact hkm
    · simp only [Option.some.injEq, Prod.mk.injEq] at hl
      obtain ⟨rfl, rfl⟩ := hl
      exact hs

/-- `hlll` keeps the flag clear and leaves a nonnegative `kappamin` on the kept columns. -/
theorem hlll_safe_exit {n d : Nat} (hdn : d ≤ n) (fuel : Nat) (δ : F)
    (v : Bool) (s s' : Lat F) (st : Int) (hI : Rng n d s) (hkm : s.kappaMax ≤ d)
    (hu : s.ub = false) (h : hlll o fuel δ v s = some (st, s')) : Safe s' := by
  unfold hlll at h
  simp only [] at h
  split at h
  · simp at h
  · rename_i st1 s1 hl
    simp only [Option.some.injEq, Prod.mk.injEq] at h
    obtain ⟨rfl, rfl⟩ := h
    have : Safe s1 := by
      refine Safe.loop o (n := n) (d := d) hdn δ fuel _ ?_ ?_ ?_ ?_ _ _ hl
      · exact Nat.one_pos
      · cases v <;> exact hkm
      · cases v <;> exact ⟨hI.hn, hI.hd, hI.lt⟩
      · refine ⟨by cases v <;> exact hu, fun c hc hk => ?_⟩
        have hd : c < s.d := by cases v <;> exact hc
        exfalso
        cases v
        · simp [hlllInit, hd] at hk
        · simp [hlllInit, hd] at hk
    cases v
    · exact this
    · exact ⟨this.ub, this.km⟩

/-- `hlll` keeps the flag clear. -/
theorem hlll_safe_rng {n d : Nat} (hdn : d ≤ n) (fuel : Nat) (δ : F)
    (v : Bool) (s s' : Lat F) (st : Int) (hI : Rng n d s) (hkm : s.kappaMax ≤ d)
    (hu : s.ub = false) (h : hlll o fuel δ v s = some (st, s')) : s'.ub = false :=
  (hlll_safe_exit o hdn fuel δ v s s' st hI hkm hu h).ub

theorem hlll_safe {n d : Nat} {A : Mat Int} {track : Prop} (hdn : d ≤ n) (fuel : Nat) (δ : F)
    (v : Bool) (s s' : Lat F) (st : Int) (hI : LInv n d A track s) (hkm : s.kappaMax ≤ d)
    (hu : s.ub = false) (h : hlll o fuel δ v s = some (st, s')) : s'.ub = false :=
  hlll_safe_rng o hdn fuel δ v s s' st hI.rng hkm hu h

theorem hlll_rng {n d : Nat} (fuel : Nat) (δ : F) (v : Bool) (s s' : Lat F) (st : Int) (hI : Rng n d s)
    (hkm : s.kappaMax ≤ d) (h : hlll o fuel δ v s = some (st, s')) : Rng n d s' :=
  hlll_induct o (fun t => Rng n d t) d
    (fun κ _ s s' h1 h2 => ⟨by rw [h1.frame.n]; exact h2.hn, by rw [h1.frame.d]; exact h2.hd,
      fun j hj => by rw [h1.frame.str]; exact h2.lt j hj⟩)
    (fun κ hκ _ s h => h.down hκ) (fun s k h => ⟨h.hn, h.hd, h.lt⟩) (fun s p b h => ⟨h.hn, h.hd, h.lt⟩)
    (fun s k h => ⟨h.hn, h.hd, h.lt⟩) δ fuel v s s' st hkm hI h

/-- The blocks of the Seysen reduction: iteration `t` handles the block of size `bit t of κ`, at
offset `κ mod 2^t` from the end; the subtraction `κ - indexdec - bdim` never underflows. -/
theorem seysen_offset (κ t : Nat) :
    κ % 2 ^ t + (if κ / 2 ^ t % 2 = 0 then 0 else 2 ^ t) = κ % 2 ^ (t + 1) ∧
    κ % 2 ^ t + (if κ / 2 ^ t % 2 = 0 then 0 else 2 ^ t) ≤ κ := by
  have h := Nat.mod_mul (x := κ) (a := 2 ^ t) (b := 2)
  rw [← pow_succ] at h
  have h2 := Nat.mod_le κ (2 ^ (t + 1))
  have h3 : κ / 2 ^ t % 2 < 2 := Nat.mod_lt _ (by decide)
  split
  · rename_i h0; rw [h0] at h; constructor <;> omega
  · have : κ / 2 ^ t % 2 = 1 := by omega
    rw [this] at h; constructor <;> omega

theorem seysenBlocks_eq (κ : Nat) : ∀ (fuel t : Nat) (q : SeyState F), κ < 2 ^ (t + fuel) →
    HPLLL.seysenBlocks o κ fuel (2 ^ t) (κ % 2 ^ t) q =
      ((List.range' t fuel).filter fun t => 2 ^ t ≤ κ).foldl
        (fun q t => seysenBlock o κ (2 ^ t) (κ % 2 ^ t) q) q := by
  intro fuel
  induction fuel with
  | zero => intro t q _; rfl
  | succ fuel ih =>
    intro t q h
    simp only [HPLLL.seysenBlocks]
    rw [List.range'_succ, List.filter_cons]
    split
    · rename_i hle
      simp only [decide_eq_true_eq]
      rw [if_pos hle, List.foldl_cons, (seysen_offset κ t).1, ← pow_succ]
      exact ih (t + 1) _ (by rw [show t + 1 + fuel = t + (fuel + 1) by omega]; exact h)
    · rename_i hle
      simp only [decide_eq_true_eq]
      rw [if_neg hle]
      have : (List.range' (t + 1) fuel).filter (fun t => decide (2 ^ t ≤ κ)) = [] := by
        rw [List.filter_eq_nil_iff]
        intro a ha
        simp only [decide_eq_true_eq, not_le]
        have := (List.mem_range'_1.mp ha).1
        calc κ < 2 ^ t := by omega
          _ ≤ 2 ^ a := Nat.pow_le_pow_right (by decide) (by omega)
      rw [this]; rfl

end HPLLL
