import Verif.Proof.ParSey
import Verif.Proof.HlllpAny
import Verif.Proof.History
/-! `seysenreduce0`, and the invariant of an object over histories with column reductions. -/

namespace HPLLL
open Spec Matrix

variable {F : Type}

/-- Elementary effects of `seysenreduce0`: those of the other reductions, and updates of the basis alone
in the parallel branch, taken when `num_S ≠ 1` and `par_reduce_threshold ≤ kappa`. -/
inductive ZStepX (κ : Nat) : Lat F → Lat F → Prop
  | z (s s' : Lat F) (h : ZStep κ s s') : ZStepX κ s s'
  | pcol (s : Lat F) (i : Nat) (c : Int) (l : Nat) (h : i < κ)
      (hl : nmaxOf s.str i ≤ l) (hp : ¬(s.numS = 1 ∨ (κ : Int) < s.parThr)) :
      ZStepX κ s { s with B := axpy s.B κ i c l }

abbrev ZStepsX (κ : Nat) : Lat F → Lat F → Prop := Relation.ReflTransGen (ZStepX κ)

theorem ZSteps.toX {κ : Nat} {s s' : Lat F} (h : ZSteps κ s s') : ZStepsX κ s s' := by
  induction h with
  | refl => exact .refl
  | tail _ h ih => exact ih.tail (.z _ _ h)

theorem ZStepX.frame {κ : Nat} {s s' : Lat F} (h : ZStepX κ s s') : Frame κ s s' := by
  cases h with
  | z _ h => exact h.frame
  | pcol i c l h hl hp =>
    constructor <;> intros <;> try rfl
    rename_i hj; simp only [axpy]; rw [setCol_ne _ _ hj]

/-- Strict sequential condition. -/
def Seq' (d : Nat) (s : Lat F) : Prop := s.numS = 1 ∨ (d : Int) ≤ s.parThr

theorem LInv.pcol {n d : Nat} {A : Mat Int} {track : Prop} {κ i : Nat} {c : Int} {l : Nat} {s : Lat F}
    (hκ : κ < d) (h : i < κ) (hl : nmaxOf s.str i ≤ l) (hnt : ¬ track) (hI : LInv n d A track s) :
    LInv n d A track { s with B := axpy s.B κ i c l } := by
  obtain ⟨hn, hd, hlt, hmono, hsupp, hseq, husupp, htr, W, hW, hB, hU⟩ := hI
  have hne : (⟨i, by omega⟩ : Fin d) ≠ ⟨κ, hκ⟩ := by simp [Fin.ext_iff]; omega
  refine ⟨hn, hd, hlt, hmono, ?_, hseq, fun ht => absurd ht hnt, htr,
    W * transvection ⟨i, by omega⟩ ⟨κ, hκ⟩ c, ?_, ?_, fun ht => absurd ht hnt⟩
  · exact axpy_supp s.str s.B c _ h hκ (hmono i κ (by omega) hκ) hsupp
  · rw [Matrix.det_mul, det_transvection_of_ne _ _ hne, mul_one]; exact hW
  · rw [← Matrix.mul_assoc, ← hB]
    refine toMatrix_axpy n d s.B ⟨κ, hκ⟩ ⟨i, by omega⟩ hne c _ ?_
    intro r hr hrn
    refine hsupp i (by omega) r hrn ?_
    unfold nmaxOf at hl; omega

theorem LInv.zstepX {n d : Nat} {A : Mat Int} {track : Prop} {κ : Nat} {s s' : Lat F}
    (hκ : κ < d) (h : ZStepX κ s s') (hI : LInv n d A track s) (hx : track → Seq' d s) :
    LInv n d A track s' := by
  cases h with
  | z _ h => exact hI.zstep hκ h
  | pcol i c l h hl hp =>
    refine hI.pcol hκ h hl fun ht => hp ?_
    rcases hx ht with h1 | h1
    · exact Or.inl h1
    · right; omega

theorem UInv.zstepX {d κ : Nat} {s s' : Lat F} (hκ : κ < d) (h : ZStepX κ s s') (hI : UInv d s) :
    UInv d s' := by
  cases h with
  | z _ h => exact hI.zstep hκ h
  | pcol i c l h hl hp =>
    obtain ⟨hd, htr, hmono, husupp, hU⟩ := hI
    exact ⟨hd, htr, hmono, husupp, hU⟩

theorem ZStepsX.frame {κ : Nat} {s s' : Lat F} (h : ZStepsX κ s s') : Frame κ s s' := by
  induction h with
  | refl => constructor <;> intros <;> rfl
  | tail _ h ih => exact ih.trans' h.frame

theorem LInv.zstepsX {n d : Nat} {A : Mat Int} {track : Prop} {κ : Nat} {s s' : Lat F}
    (hκ : κ < d) (h : ZStepsX κ s s') (hI : LInv n d A track s) (hx : track → Seq' d s) :
    LInv n d A track s' := by
  induction h with
  | refl => exact hI
  | tail h0 h ih =>
    refine ih.zstepX hκ h fun ht => ?_
    have f := ZStepsX.frame h0
    unfold Seq'; rw [f.numS, f.parThr]; exact hx ht

theorem UInv.zstepsX {d κ : Nat} {s s' : Lat F} (hκ : κ < d) (h : ZStepsX κ s s') (hI : UInv d s) :
    UInv d s' := by
  induction h with
  | refl => exact hI
  | tail _ h ih => exact ih.zstepX hκ h

theorem Rng.zsX {n d κ : Nat} {s s' : Lat F} (hr : Rng n d s) (h : ZStepsX κ s s') : Rng n d s' := by
  have f := h.frame
  exact ⟨f.n.trans hr.hn, f.d.trans hr.hd, by rw [f.str]; exact hr.lt⟩

/-! ### seysenreduce0 -/

variable (o : FPOps F)

theorem seysenUpdateRLoop_fp (κ lo : Nat) (bd : Nat → Bool) (m : Nat) :
    ∀ q : Lat F × (Nat → F), ∃ R b, (seysenUpdateRLoop o κ lo bd m q).1 =
      { q.1 with fp := { q.1.fp with R := R }, ub := b } := by
  induction m with
  | zero => intro q; exact ⟨_, _, rfl⟩
  | succ m ih =>
    intro q
    simp only [seysenUpdateRLoop]
    split
    · exact ih _
    · obtain ⟨R, b, h⟩ := ih ({ q.1 with
        fp := { q.1.fp with R := redR o κ (lo + m) lo (o.rnd (q.2 (lo + m))) q.1.fp.R }
        ub := q.1.ub || !(decide (κ < q.1.d ∧ lo + m < q.1.d ∧ lo ≤ q.1.n)) },
          setAt q.2 (lo + m) (o.rnd (q.2 (lo + m))))
      exact ⟨R, b, h⟩

theorem pseyCols_zsX {κ lo : Nat} (fl : Bool) (bd : Nat → Bool) (vx : Nat → F) (xm : F) (l m : Nat)
    (s : Lat F) (hm : lo + m ≤ κ) (hl : ∀ i < m, nmaxOf s.str (lo + i) ≤ l)
    (hp : ¬(s.numS = 1 ∨ (κ : Int) < s.parThr)) :
    ZStepsX κ s { s with B := pseyCols o fl κ lo bd vx xm l m s.B } := by
  induction m generalizing s with
  | zero => exact .refl
  | succ m ih =>
    simp only [pseyCols]
    split
    · exact ih s (by omega) (fun i hi => hl i (by omega)) hp
    · exact (Relation.ReflTransGen.single
        (ZStepX.pcol s (lo + m) _ l (by omega) (hl m (by omega)) hp)).trans
        (ih { s with B := axpy s.B κ (lo + m) (multOf o fl (vx (lo + m)) xm) l } (by omega)
          (fun i hi => hl i (by omega)) hp)

theorem sey0Block_zsX {κ ld idx : Nat} (thr theta : F) (hld : ld ≤ κ) (q : SeyState F × (Nat → Bool)) :
    ZStepsX κ q.1.s (sey0Block o thr theta κ ld idx q).1.s := by
  unfold sey0Block
  simp only []
  have hb : (if κ / ld % 2 = 0 then 0 else ld) ≤ κ := by split <;> omega
  generalize (if κ / ld % 2 = 0 then 0 else ld) = bd at hb ⊢
  split
  · exact (seysenUpdateLoop_zs o _ (by omega) (q.1.s, _, false)).toX
  · rename_i hp
    generalize (sey0Solve o thr theta q.1.s.fp.R (κ - idx - bd) (κ - idx - (κ - idx - bd))
      (fun i => if κ - idx - bd ≤ i ∧ i < κ - idx then q.1.s.fp.R κ i else q.1.tmpcol i,
        q.1.vectx, q.2, q.1.somedone)) = tv
    generalize hu : seysenUpdateRLoop o κ (κ - idx - bd) tv.2.2.1 (κ - idx - (κ - idx - bd))
      (q.1.s, tv.2.1) = u
    obtain ⟨R, b, h⟩ := seysenUpdateRLoop_fp o κ (κ - idx - bd) tv.2.2.1
      (κ - idx - (κ - idx - bd)) (q.1.s, tv.2.1)
    rw [hu] at h
    simp only [h]
    refine (zs_fp κ q.1.s { q.1.s.fp with R := R } b).toX.trans ?_
    rcases Nat.eq_zero_or_pos q.1.s.numS with h0 | hS
    · have hz : ∀ vx, pseysenUpdateB o q.1.s.fastLong κ (κ - idx - bd) (κ - idx - (κ - idx - bd)) tv.2.2.1
          q.1.s.str vx q.1.s.fp.x q.1.s.numS q.1.s.B = q.1.s.B := by
        intro vx; rw [h0]; rfl
      rw [hz]
      exact (zs_fp κ { q.1.s with fp := { q.1.s.fp with R := R }, ub := b } { q.1.s.fp with R := R } _).toX
    · rw [pseysenUpdateB_eq o _ _ _ _ _ _ _ _ _ _ (by omega) hS]
      refine (pseyCols_zsX o q.1.s.fastLong tv.2.2.1 u.2 q.1.s.fp.x
        (pseysenNmax q.1.s.str (κ - idx - bd) (κ - idx - (κ - idx - bd))) (κ - idx - (κ - idx - bd))
        { q.1.s with fp := { q.1.s.fp with R := R }, ub := b } (by omega) ?_ ?_).trans
        (zs_fp κ _ { q.1.s.fp with R := R } _).toX
      · intro i hi
        exact nmaxOf_le_pseysenNmax _ _ _ _ (by omega) (by omega)
      · rintro (h1 | h1)
        · exact hp (Or.inl h1)
        · exact hp (Or.inr (by have h1' : (κ : Int) < q.1.s.parThr := h1; omega))

theorem sey0Blocks_zsX {κ : Nat} (thr theta : F) (fuel : Nat) :
    ∀ (ld idx : Nat) (q : SeyState F × (Nat → Bool)),
    ZStepsX κ q.1.s (sey0Blocks o thr theta κ fuel ld idx q).1.s := by
  induction fuel with
  | zero => intro ld idx q; exact .refl
  | succ fuel ih =>
    intro ld idx q
    simp only [sey0Blocks]
    split
    · rename_i h; exact (sey0Block_zsX o thr theta h q).trans (ih _ _ _)
    · exact .refl

theorem sey0Loop_zsX {κ : Nat} (thr : F) (fuel : Nat) :
    ∀ (t v : Nat → F) (bd : Nat → Bool) (s : Lat F) (st : Int) (s' : Lat F),
    sey0Loop o thr κ fuel t v bd s = some (st, s') → ZStepsX κ s s' := by
  induction fuel with
  | zero => intro t v bd s st s' h; simp [sey0Loop] at h
  | succ fuel ih =>
    intro t v bd s st s' h
    simp only [sey0Loop] at h
    have h1 := sey0Blocks_zsX o (κ := κ) thr (o.mul (o.sqrt (s.fp.normB2 κ)) o.eps) (κ + 1) 1 0
      ({ s := s, tmpcol := t, vectx := v, somedone := false }, bd)
    split at h
    · exact h1.trans ((zs_fp κ _ _ _).toX.trans ((hhR_zs o κ κ _).toX.trans (ih _ _ _ _ _ _ h)))
    · simp only [Option.some.injEq, Prod.mk.injEq] at h
      obtain ⟨-, rfl⟩ := h
      exact h1

theorem seysenreduce0_zsX {κ : Nat} (thr : F) (fuel : Nat) (s : Lat F) (st : Int) (s' : Lat F)
    (h : seysenreduce0 o thr fuel κ s = some (st, s')) : ZStepsX κ s s' := by
  unfold seysenreduce0 at h
  simp only [] at h
  exact (zs_fp κ s _ _).toX.trans ((hhR_zs o κ κ _).toX.trans (sey0Loop_zsX o thr fuel _ _ _ _ _ _ h))

/-! ### Ranges -/

theorem SN.seysenUpdateRLoop {n d κ lo : Nat} (hdn : d ≤ n) (hκ : κ < d) (bd : Nat → Bool)
    (m : Nat) (hm : lo + m ≤ κ) : ∀ q : Lat F × (Nat → F), Rng n d q.1 → SN n q.1 →
    SN n (HPLLL.seysenUpdateRLoop o κ lo bd m q).1 ∧
      Rng n d (HPLLL.seysenUpdateRLoop o κ lo bd m q).1 := by
  induction m with
  | zero => intro q hr h; exact ⟨h, hr⟩
  | succ m ih =>
    intro q hr h
    simp only [HPLLL.seysenUpdateRLoop]
    split
    · exact ih (by omega) _ hr h
    · refine ih (by omega) _ ⟨hr.hn, hr.hd, hr.lt⟩ ⟨⟨?_, h.1.km⟩, h.2⟩
      simp only [h.1.ub, Bool.false_or, Bool.not_eq_false', decide_eq_true_eq]
      rw [hr.hn, hr.hd]; exact ⟨hκ, by omega, by omega⟩

theorem pseysenNmax_le {n d lo m : Nat} {s : Lat F} (hr : Rng n d s) (hm : lo + m < d) :
    pseysenNmax s.str lo m ≤ n := by
  have key : ∀ (l : List Nat) (a : Int), a < n → (∀ i ∈ l, s.str i < n) →
      l.foldl (fun a i => max a (s.str i)) a < n := by
    intro l
    induction l with
    | nil => intro a h _; exact h
    | cons b l ih =>
      intro a h h2
      rw [List.foldl_cons]
      exact ih _ (max_lt h (h2 b (by simp))) (fun i hi => h2 i (by simp [hi]))
  have := key (List.range' lo (m + 1)) (s.str (lo + m - 1)) (hr.lt _ (by omega))
    (fun i hi => hr.lt i (by have := (List.mem_range'_1.1 hi).2; omega))
  unfold pseysenNmax; omega

theorem SN.sey0Blocks {n d κ : Nat} (thr theta : F) (hdn : d ≤ n) (hκ : κ < d) (fuel : Nat) :
    ∀ (ld idx : Nat) (q : SeyState F × (Nat → Bool)), Rng n d q.1.s → SN n q.1.s →
      SN n (HPLLL.sey0Blocks o thr theta κ fuel ld idx q).1.s := by
  induction fuel with
  | zero => intro ld idx q _ h; exact h
  | succ fuel ih =>
    intro ld idx q hr h
    simp only [HPLLL.sey0Blocks]
    split
    · rename_i hld
      refine ih _ _ _ (hr.zsX (sey0Block_zsX o thr theta hld q)) ?_
      unfold sey0Block
      simp only []
      generalize (if κ / ld % 2 = 0 then 0 else ld) = bd
      split
      · exact SN.seysenUpdateLoop o hdn hκ _ (by omega) (q.1.s, _, false) hr h
      · generalize (sey0Solve o thr theta q.1.s.fp.R (κ - idx - bd) (κ - idx - (κ - idx - bd))
          (fun i => if κ - idx - bd ≤ i ∧ i < κ - idx then q.1.s.fp.R κ i else q.1.tmpcol i,
            q.1.vectx, q.2, q.1.somedone)) = tv
        obtain ⟨a, b⟩ := SN.seysenUpdateRLoop o (lo := κ - idx - bd) hdn hκ tv.2.2.1
          (κ - idx - (κ - idx - bd)) (by omega) (q.1.s, tv.2.1) hr h
        refine ⟨⟨?_, a.1.km⟩, a.2⟩
        have := pseysenNmax_le (lo := κ - idx - bd) (m := κ - idx - (κ - idx - bd)) b (by omega)
        simp only [a.1.ub, Bool.false_or, Bool.not_eq_false', decide_eq_true_eq]
        rw [b.hn, b.hd]; exact ⟨hκ, by omega, this⟩
    · exact h

theorem SN.sey0Loop {n d κ : Nat} (thr : F) (hdn : d ≤ n) (hκ : κ < d) (fuel : Nat) :
    ∀ (t v : Nat → F) (bd : Nat → Bool) (s s' : Lat F) (st : Int), Rng n d s → SN n s →
    HPLLL.sey0Loop o thr κ fuel t v bd s = some (st, s') → SN n s' := by
  induction fuel with
  | zero => intro t v bd s s' st _ _ h; simp [HPLLL.sey0Loop] at h
  | succ fuel ih =>
    intro t v bd s s' st hr hs h
    simp only [HPLLL.sey0Loop] at h
    have h1 := SN.sey0Blocks o thr (o.mul (o.sqrt (s.fp.normB2 κ)) o.eps) hdn hκ (κ + 1) 1 0
      ({ s := s, tmpcol := t, vectx := v, somedone := false }, bd) hr hs
    have r1 := hr.zsX (sey0Blocks_zsX o (κ := κ) thr (o.mul (o.sqrt (s.fp.normB2 κ)) o.eps) (κ + 1) 1 0
      ({ s := s, tmpcol := t, vectx := v, somedone := false }, bd))
    set q := HPLLL.sey0Blocks o thr (o.mul (o.sqrt (s.fp.normB2 κ)) o.eps) κ (κ + 1) 1 0
      ({ s := s, tmpcol := t, vectx := v, somedone := false }, bd) with hq
    have h2 := h1.drop (κ := κ)
    have r2 : Rng n d { q.1.s with fp := { q.1.s.fp with colKept := setAt q.1.s.fp.colKept κ false } } :=
      ⟨r1.hn, r1.hd, r1.lt⟩
    have h3 : SN n _ := Safe.hhR o hdn hκ r2 h2.1
    split at h
    · refine ih _ _ _ _ _ _ ?_ h3 h
      exact ⟨r2.hn, r2.hd, r2.lt⟩
    · simp only [Option.some.injEq, Prod.mk.injEq] at h
      obtain ⟨rfl, rfl⟩ := h
      exact h1

/-! ### The invariant -/

/-- Basis given by the last assignment of a history. -/
def lastBasisX (A : Mat Int) : List (XCall F) → Mat Int
  | [] => A
  | c :: cs => lastBasisX (match c with
      | .base c => lastBasis A [c]
      | _ => A) cs

theorem lastBasisX_snoc (A : Mat Int) (cs : List (XCall F)) (c : XCall F) :
    lastBasisX A (cs ++ [c]) = (match c with
      | .base c => lastBasis (lastBasisX A cs) [c]
      | _ => lastBasisX A cs) := by
  induction cs generalizing A with
  | nil => cases c <;> rfl
  | cons a cs ih => exact ih _

/-- All `set_num_S` calls of the history are sequential for dimension `d`. -/
def SeqHistX (d : Nat) (cs : List (XCall F)) : Prop :=
  ∀ S thr, XCall.base (.setNumS S thr) ∈ cs → S = 1 ∨ (d : Int) ≤ thr

structure HistX (n d : Nat) (A : Mat Int) (forU : Bool) (vd : Int) (seq : Prop) (s : Lat F) :
    Prop where
  inv : HistInv n d A forU vd seq s
  sq : seq → Seq' d s
  km : d ≤ n → ∀ c < s.d, s.fp.colKept c = true → 0 ≤ s.fp.kappamin c

theorem HistX.reduce {n d : Nat} {A : Mat Int} {forU : Bool} {vd : Int} {seq : Prop} {κ : Nat}
    {s s' : Lat F} (h : HistX n d A forU vd seq s) (hκ : κ < d) (hz : ZStepsX κ s s')
    (hs : d ≤ n → Rng n d s → Safe s → Safe s') : HistX n d A forU vd seq s' := by
  have f := hz.frame
  have hsafe : d ≤ n → Safe s' := fun hdn => hs hdn h.inv.inv.rng ⟨h.inv.ub hdn, h.km hdn⟩
  refine ⟨⟨h.inv.inv.zstepsX hκ hz fun ht => h.sq ht.2.2, ?_, ?_, ?_, ?_, fun hdn => (hsafe hdn).ub,
    fun h1 h2 => (h.inv.uinv h1 h2).zstepsX hκ hz⟩, ?_, fun hdn => (hsafe hdn).km⟩
  · rw [f.numS, f.parThr]; exact h.inv.seqS
  · rw [f.kappaMax]; exact h.inv.km
  · rw [f.verboseDepth]; exact h.inv.vd
  · rw [f.transf]; exact h.inv.tr
  · unfold Seq'; rw [f.numS, f.parThr]; exact h.sq

theorem UInv.hlllp {d : Nat} (thr : F) (dth : Int) (δ : F) (fuel : Nat) (s s' : Lat F) (st : Int)
    (hI : UInv d s) (hr : HPLLL.hlllp o thr dth fuel δ s = some (st, s')) : UInv d s' := by
  have key : ∀ (fuel : Nat) (h : HState F), 0 < h.kappa → UInv d h.s → ∀ st s',
      hlllpLoop o thr dth δ fuel h = some (st, s') → UInv d s' := by
    intro fuel
    induction fuel with
    | zero => intro h _ _ st s' hl; simp [hlllpLoop] at hl
    | succ fuel ih =>
      intro h h0 hI st s' hl
      simp only [hlllpLoop] at hl
      split at hl
      · rename_i hc
        have hκ : h.kappa < d := by rw [← hI.hd]; exact hc.1
        have hI0 : UInv d { h.s with nblov := h.s.nblov + 1 } := hI.congr rfl rfl rfl rfl
        have zs : ∀ {s t : Lat F}, UInv d s → ZSteps h.kappa s t → UInv d t :=
          fun hu hz => hu.zstepsX hκ hz.toX
        rcases hlllpStep_cases o thr dth (fuel + 1) δ h h0 with e | ⟨s, hz, e⟩ | ⟨s, hz, e⟩ |
          ⟨s, pr, hz, e⟩ | ⟨s, hz, e⟩
        · rw [e] at hl; simp at hl
        · rw [e] at hl
          simp only [Option.some.injEq, Prod.mk.injEq] at hl
          obtain ⟨rfl, rfl⟩ := hl
          exact zs hI hz
        · rw [e] at hl
          simp only [Option.some.injEq, Prod.mk.injEq] at hl
          obtain ⟨rfl, rfl⟩ := hl
          exact zs hI0 hz
        · rw [e] at hl
          exact ih ⟨s, h.kappa + 1, h.kappa, pr⟩ (Nat.succ_pos _) (zs hI0 hz) st s' hl
        · rw [e] at hl
          refine ih ⟨hlllDown h.kappa s, max (h.kappa - 1) 1, h.kappa, h.prevR⟩ ?_
            ((zs hI0 hz).down hκ h0) st s' hl
          show 0 < max (h.kappa - 1) 1; omega
      · simp only [Option.some.injEq, Prod.mk.injEq] at hl
        obtain ⟨rfl, rfl⟩ := hl
        exact hI
  unfold HPLLL.hlllp at hr
  exact key fuel _ Nat.one_pos (hI.congr rfl rfl rfl rfl) st s' hr

/-- `householder()` does not touch the bookkeeping vectors. -/
theorem householder_keep (s : Lat F) : (s.householder o).fp.colKept = s.fp.colKept ∧
    (s.householder o).fp.kappamin = s.fp.kappamin := by
  have a1 : ∀ (n κ : Nat) (l : List Nat) (p : FPart F),
      (l.foldl (fun p k => hhAllApply o n κ k p) p).colKept = p.colKept ∧
      (l.foldl (fun p k => hhAllApply o n κ k p) p).kappamin = p.kappamin := by
    intro n κ l
    induction l with
    | nil => intro p; exact ⟨rfl, rfl⟩
    | cons a l ih => intro p; rw [List.foldl_cons]; exact ih _
  have a2 : ∀ (n d : Nat) (B : Mat Int) (l : List Nat) (p : FPart F),
      (l.foldl (fun p κ => hhAllCol o n d B κ p) p).colKept = p.colKept ∧
      (l.foldl (fun p κ => hhAllCol o n d B κ p) p).kappamin = p.kappamin := by
    intro n d B l
    induction l with
    | nil => intro p; exact ⟨rfl, rfl⟩
    | cons a l ih =>
      intro p; rw [List.foldl_cons]
      obtain ⟨b1, b2⟩ := ih (hhAllCol o n d B a p)
      obtain ⟨c1, c2⟩ := a1 n a (List.range a) { p with R := fsetcolZ o p.R a (B a) n }
      exact ⟨b1.trans c1, b2.trans c2⟩
  exact a2 s.n s.d s.B (List.range s.d) s.fp

theorem HistX.does {n d : Nat} {A : Mat Int} {forU : Bool} {vd : Int} {seq : Prop}
    {s s' : Lat F} {c : XCall F} (h : HistX n d A forU vd seq s) (hc : XDoes s c s')
    (hs : seq → ∀ S thr, c = .base (.setNumS S thr) → S = 1 ∨ (d : Int) ≤ thr) :
    HistX n d (lastBasisX A [c]) forU vd seq s' := by
  have hd := h.inv.inv.hd
  cases hc with
  | base c _ _ hc =>
    have h1 := h.inv.does hc (fun q S thr e => by
      subst e
      rcases hs q S thr rfl with h | h
      · exact Or.inl h
      · right; omega)
    refine ⟨h1, ?_, ?_⟩
    · cases hc with
      | hlll o δ v _ _ fuel st hl =>
        have hE := hlll_exit o fuel δ v s s' st h.inv.inv (le_of_eq h.inv.km) hl
        unfold Seq'; rw [hE.cfg.numS, hE.cfg.parThr]; exact h.sq
      | setNumS S thr => exact fun q => hs q S thr rfl
      | _ => exact h.sq
    · intro hdn
      cases hc with
      | hlll o δ v _ _ fuel st hl =>
        exact (hlll_safe_exit o hdn fuel δ v s s' st h.inv.inv.rng (le_of_eq h.inv.km) (h.inv.ub hdn) hl).km
      | assign A' =>
        intro c hc hk
        have hc' : c < s.d := hc
        simp [Lat.assign, hc'] at hk
      | shiftAssign A' sh =>
        intro c hc hk
        have hc' : c < s.d := hc
        simp [Lat.shiftAssign, Lat.assign, hc'] at hk
      | setNblovMax nb => exact h.km hdn
      | setNumS S thr => exact h.km hdn
      | setprec o junk => exact h.km hdn
      | householder o =>
        intro c hc hk
        obtain ⟨e1, e2⟩ := householder_keep o s
        rw [e2]; rw [e1] at hk
        exact h.km hdn c hc hk
  | householderR o κ _ hκ =>
    exact h.reduce (hd ▸ hκ) (hhR_zs o κ κ s).toX fun hdn hr hs => (Safe.hhR o hdn (hd ▸ hκ) hr hs).1
  | hsizereduce o κ fromk _ _ hκ fuel st hl =>
    refine h.reduce (hd ▸ hκ.2) (hsizereduce_zs o hκ.1 fuel fromk s st s' hl).toX fun hdn hr hs => ?_
    have h1 := Safe.hhR o hdn (hd ▸ hκ.2) hr hs
    have r1 : Rng n d (s.hhR o κ) := ⟨hr.hn, hr.hd, hr.lt⟩
    unfold HPLLL.hsizereduce at hl
    exact (SN.hsizeLoop o hdn (hd ▸ hκ.2) (by have := hκ.1; split <;> omega) fuel _ _ _ _ r1 h1 hl).1
  | seysenreduce o κ _ _ hκ fuel st hl =>
    unfold HPLLL.seysenreduce at hl
    refine h.reduce (hd ▸ hκ.2) (ZSteps.toX ((hhR_zs o κ κ s).trans (seysenLoop_zs o fuel _ _ _ _ _ _ _ hl)))
      fun hdn hr hs => ?_
    have h1 := Safe.hhR o hdn (hd ▸ hκ.2) hr hs
    have r1 : Rng n d (s.hhR o κ) := ⟨hr.hn, hr.hd, hr.lt⟩
    exact (SN.seysenLoop o hdn (hd ▸ hκ.2) fuel _ _ _ _ _ _ _ r1 h1 hl).1
  | seysenreduce0 o thr κ _ _ hκ fuel st hl =>
    refine h.reduce (hd ▸ hκ.2) (seysenreduce0_zsX o thr fuel s st s' hl) fun hdn hr hs => ?_
    unfold HPLLL.seysenreduce0 at hl
    simp only [] at hl
    set t : Lat F := { s with fp := { s.fp with nmaxkappa := nmaxOf s.str κ } } with ht
    have rt : Rng n d t := ⟨hr.hn, hr.hd, hr.lt⟩
    have st' : Safe t := ⟨hs.ub, hs.km⟩
    have h1 := Safe.hhR o hdn (hd ▸ hκ.2) rt st'
    have r1 : Rng n d (t.hhR o κ) := ⟨hr.hn, hr.hd, hr.lt⟩
    exact (SN.sey0Loop o thr hdn (hd ▸ hκ.2) fuel _ _ _ _ _ _ r1 h1 hl).1
  | newseysenreduce o thr κ _ _ hκ fuel st hl =>
    unfold HPLLL.newseysenreduce at hl
    refine h.reduce (hd ▸ hκ.2) (ZSteps.toX ((hhR_zs o κ κ s).trans (nsLoop_zs o thr fuel _ _ _ _ _ hl)))
      fun hdn hr hs => ?_
    have h1 := Safe.hhR o hdn (hd ▸ hκ.2) hr hs
    have r1 : Rng n d (s.hhR o κ) := ⟨hr.hn, hr.hd, hr.lt⟩
    exact (SN.nsLoop o thr hdn (hd ▸ hκ.2) fuel _ _ _ _ _ r1 h1 hl).1
  | hlllp o thr dth δ _ _ fuel st hl =>
    have hE := hlllp_exit o thr dth fuel δ s s' st h.inv.inv (h.inv.km.trans hd.symm) hl
    have hsafe : d ≤ n → Safe s' := by
      intro hdn
      unfold HPLLL.hlllp at hl
      refine Safe.ploop o thr dth (n := n) (d := d) hdn δ fuel _ Nat.one_pos
        (h.inv.inv.congr rfl rfl rfl rfl rfl rfl rfl rfl) ⟨h.inv.ub hdn, fun c hc hk => ?_⟩ _ _ hl
      simp only [hlllInit] at hc hk
      rw [if_pos hc] at hk; simp at hk
    refine ⟨⟨hE.inv, ?_, ?_, ?_, ?_, fun hdn => (hsafe hdn).ub,
      fun h1 h2 => UInv.hlllp o thr dth δ fuel s s' st (h.inv.uinv h1 h2) hl⟩, ?_,
      fun hdn => (hsafe hdn).km⟩
    · rw [hE.cfg.numS, hE.cfg.parThr]; exact h.inv.seqS
    · rw [hE.cfg.kappaMax]; exact h.inv.km
    · rw [hE.cfg.verboseDepth]; exact h.inv.vd
    · rw [hE.cfg.transf]; exact h.inv.tr
    · unfold Seq'; rw [hE.cfg.numS, hE.cfg.parThr]; exact h.sq

theorem HistX.runs {n d : Nat} {A : Mat Int} {forU : Bool} {vd : Int} {s s' : Lat F}
    {cs : List (XCall F)} (h : HistX n d A forU vd True s) (hr : XRuns s cs s') :
    HistX n d (lastBasisX A cs) forU vd (SeqHistX d cs) s' := by
  have key : ∀ seq : Prop, (seq → SeqHistX d cs) → HistX n d (lastBasisX A cs) forU vd seq s' := by
    intro seq hq
    induction hr with
    | nil =>
      refine ⟨?_, fun _ => h.sq trivial, h.km⟩
      obtain ⟨h1, h2, h3, h4, h5, h6, h7⟩ := h.inv
      obtain ⟨hn, hd, hlt, hmono, hsupp, hseq, husupp, htr, W, hW, hB, hU⟩ := h1
      have k : ∀ {A : Mat Int}, (forU = true ∧ FullColumnRank (toMatrix n d A) ∧ seq) →
        (forU = true ∧ FullColumnRank (toMatrix n d A) ∧ True) := fun h => ⟨h.1, h.2.1, trivial⟩
      exact ⟨⟨hn, hd, hlt, hmono, hsupp, fun a => hseq (k a), fun a => husupp (k a),
        fun a => htr (k a), W, hW, hB, fun a => hU (k a)⟩, fun _ => h2 trivial, h3, h4, h5, h6, h7⟩
    | snoc t u cs c hr hd ih =>
      have h1 := ih (fun q S thr hm => hq q S thr (List.mem_append_left _ hm))
      have h2 := h1.does hd (fun q S thr hc => hq q S thr (by simp [hc]))
      rw [lastBasisX_snoc]
      cases c <;> exact h2
  exact key _ id

end HPLLL
