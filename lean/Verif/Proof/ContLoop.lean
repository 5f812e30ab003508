import Verif.Proof.ContMain
/-! The run over a lawful matrix class follows the run of the plain model: reduction of a column. -/

namespace HPLLL
open Spec

variable {F M W G : Type}

namespace Sim

variable {o : FPOps F} {c : Cont F M W G} {n : Nat} {E : Bool → F → F → Prop}

theorem z_fields {S : LatG F M} {s : Lat F} (h : S.z = s.z) :
    S.z.n = s.n ∧ S.z.d = s.d ∧ S.z.transf = s.transf ∧ S.z.B = s.B ∧ S.z.U = s.U ∧
    S.z.kappaMax = s.kappaMax ∧ S.z.nblovMax = s.nblovMax ∧ S.z.str = s.str ∧
    S.z.nblov = s.nblov ∧ S.z.numS = s.numS ∧ S.z.parThr = s.parThr ∧
    S.z.seysenFlag = s.seysenFlag ∧ S.z.fastLong = s.fastLong ∧ S.z.ub = s.ub := by
  rw [h]; exact ⟨rfl, rfl, rfl, rfl, rfl, rfl, rfl, rfl, rfl, rfl, rfl, rfl, rfl, rfl⟩

theorem hsizeLoop_sim (hc : c.Lawful o n E) {d κ : Nat} {A : Mat Int} {track : Prop} (hκ : 0 < κ)
    (hκd : κ < d) (hA : FullColumnRank (toMatrix n d A)) (fuel : Nat) :
    ∀ (b : Bool) (S : LatG F M) (s : Lat F), LInv n d A track s → Post c E n d κ S s →
    ORel (Post c E n d κ) (Gen.hsizeLoop o c κ κ fuel b S) (hsizeLoop o κ κ fuel b s) := by
  induction fuel with
  | zero => intro b S s _ _; exact trivial
  | succ fuel ih =>
    intro b S s hI hP
    have hg := hI.geom hA
    have hdg := hg.diag κ hκd
    obtain ⟨e1, e2⟩ := hsizePass_sim hc (m := κ) (le_refl κ) S s hP.same.z
      (fun k hk => hP.post.r k (by omega)) hP.oth.r
    have hzs : ZSteps κ s (hsizePass o κ κ s).1 := hsizePass_zs o (le_refl κ) s
    have hIq := hI.zsteps hκd hzs
    simp only [Gen.hsizeLoop, hsizeLoop]
    rw [e1]
    by_cases hd : (hsizePass o κ κ s).2 = true
    · rw [if_pos hd, if_pos hd]
      have hmid := hP.drop e2 hκd hzs.frame.cfg.seysenFlag hzs.frame.cfg.fastLong
      have hIt : LInv n d A track { (hsizePass o κ κ s).1 with fp :=
          { (hsizePass o κ κ s).1.fp with colKept := setAt (hsizePass o κ κ s).1.fp.colKept κ false } } :=
        hIq.congr rfl rfl rfl rfl rfl rfl rfl rfl
      have hpost := hmid.hhR hc hκ hκd (hIt.geom hA)
      have hIp : LInv n d A track (Lat.hhR o κ { (hsizePass o κ κ s).1 with fp :=
          { (hsizePass o κ κ s).1.fp with colKept := setAt (hsizePass o κ κ s).1.fp.colKept κ false } }) :=
        hIt.congr rfl rfl rfl rfl rfl rfl rfl rfl
      have hn1 := hpost.post.nrm
      have hn0 : (Gen.hsizePass o c κ κ S).1.fp.normB2 κ = (hsizePass o κ κ s).1.fp.normB2 κ := by
        obtain ⟨_, _, a, _⟩ := e2.g
        obtain ⟨_, _, a', _⟩ := e2.p
        rw [a, a']; exact hP.post.nrm
      have han := sizeAnomaly_sim (o := o) (by have := (hIp.geom hA).diag κ hκd; omega) hpost
      simp only [] at hn1 han ⊢
      rw [hn0, hn1, han]
      split
      · split
        · exact ⟨rfl, hpost⟩
        · exact ⟨rfl, hpost⟩
      · exact ih _ _ _ hIp hpost
    · rw [if_neg hd, if_neg hd]
      exact ⟨rfl, hP.keep e2 (by simpa using hd) hzs.frame.cfg.seysenFlag hzs.frame.cfg.fastLong⟩

/-! ### Seysen -/

theorem redZ_fast (x y y' : F) (κ i l : Nat) (m : Mat Int) :
    redZ o true κ i l x y m = redZ o true κ i l x y' m := rfl

theorem redZ_sim {fl : Bool} {y y' : F} (h : fl = false → y = y') (x : F) (κ i l : Nat) (m : Mat Int) :
    redZ o fl κ i l x y m = redZ o fl κ i l x y' m := by
  cases fl
  · rw [h rfl]
  · rfl

theorem seysenUpdateStep_sim (hc : c.Lawful o n E) {κ rd i : Nat} (hi : i < κ) (hrd : rd ≤ i)
    (S : LatG F M) (s : Lat F)
    (vx : Nat → F) (b : Bool) (hz : S.z = s.z) (hx : s.fastLong = false → S.fp.x = s.fp.x)
    (h1 : ∀ k < rd, c.get S.fp.R κ k = s.fp.R κ k)
    (h2 : ∀ k ≤ i, c.get S.fp.R i k = s.fp.R i k) :
    (Gen.seysenUpdateStep o c κ rd i (S, vx, b)).2 = (seysenUpdateStep o κ rd i (s, vx, b)).2 ∧
    RX c κ S (Gen.seysenUpdateStep o c κ rd i (S, vx, b)).1 s (seysenUpdateStep o κ rd i (s, vx, b)).1 b
      (seysenUpdateStep o κ rd i (s, vx, b)).2.2 ∧
    (∀ k < rd, c.get (Gen.seysenUpdateStep o c κ rd i (S, vx, b)).1.fp.R κ k =
      (seysenUpdateStep o κ rd i (s, vx, b)).1.fp.R κ k) ∧
    (seysenUpdateStep o κ rd i (s, vx, b)).1.fastLong = s.fastLong ∧
    (Gen.seysenUpdateStep o c κ rd i (S, vx, b)).1.fp.x = S.fp.x ∧
    (seysenUpdateStep o κ rd i (s, vx, b)).1.fp.x = s.fp.x := by
  unfold Gen.seysenUpdateStep seysenUpdateStep
  simp only []
  split
  · exact ⟨rfl, .rfl' κ S s b, h1, rfl, rfl, rfl⟩
  · refine ⟨rfl, ⟨⟨_, _, rfl, fun j hj k => redR_col hc _ _ hj k⟩,
      ⟨_, _, rfl, fun j hj => redR_pcol _ _ hj⟩, fun h => h, fun h => by simp at h, fun _ => ?_, rfl⟩,
      ?_, rfl, rfl, rfl⟩
    · simp only [Lat.z, hz]
      rw [redZ_sim hx, redZ_sim hx]
    · intro k hk
      exact redR_sim hc (by omega) _ h1 (fun k hk => h2 k (by omega)) k hk

theorem seysenUpdateLoop_sim (hc : c.Lawful o n E) {κ rd : Nat} (m : Nat) (hm : rd + m ≤ κ) :
    ∀ (S : LatG F M) (s : Lat F) (vx : Nat → F) (b : Bool), S.z = s.z →
    (s.fastLong = false → S.fp.x = s.fp.x) →
    (∀ k < rd, c.get S.fp.R κ k = s.fp.R κ k) →
    (∀ i < κ, ∀ k ≤ i, c.get S.fp.R i k = s.fp.R i k) →
    (Gen.seysenUpdateLoop o c κ rd m (S, vx, b)).2 = (seysenUpdateLoop o κ rd m (s, vx, b)).2 ∧
    RX c κ S (Gen.seysenUpdateLoop o c κ rd m (S, vx, b)).1 s (seysenUpdateLoop o κ rd m (s, vx, b)).1 b
      (seysenUpdateLoop o κ rd m (s, vx, b)).2.2 ∧
    (∀ k < rd, c.get (Gen.seysenUpdateLoop o c κ rd m (S, vx, b)).1.fp.R κ k =
      (seysenUpdateLoop o κ rd m (s, vx, b)).1.fp.R κ k) ∧
    (seysenUpdateLoop o κ rd m (s, vx, b)).1.fastLong = s.fastLong ∧
    (Gen.seysenUpdateLoop o c κ rd m (S, vx, b)).1.fp.x = S.fp.x ∧
    (seysenUpdateLoop o κ rd m (s, vx, b)).1.fp.x = s.fp.x := by
  induction m with
  | zero => intro S s vx b _ _ h1 _; exact ⟨rfl, .rfl' κ S s b, h1, rfl, rfl, rfl⟩
  | succ m ih =>
    intro S s vx b hz hx h1 h2
    obtain ⟨a1, a2, a3, a4, a5, a6⟩ := seysenUpdateStep_sim hc (i := rd + m) (rd := rd) (by omega)
      (by omega) S s vx b hz hx h1 (h2 (rd + m) (by omega))
    simp only [Gen.seysenUpdateLoop, seysenUpdateLoop]
    obtain ⟨b1, b2, b3, b4, b5, b6⟩ := ih (by omega) (Gen.seysenUpdateStep o c κ rd (rd + m) (S, vx, b)).1
      (seysenUpdateStep o κ rd (rd + m) (s, vx, b)).1 (seysenUpdateStep o κ rd (rd + m) (s, vx, b)).2.1
      (seysenUpdateStep o κ rd (rd + m) (s, vx, b)).2.2 (a2.same hz)
      (fun h => by rw [a5, a6]; exact hx (by rw [← a4]; exact h))
      a3 (fun i hi k hk => a2.col (by omega) (h2 i hi k hk))
    have e : (Gen.seysenUpdateStep o c κ rd (rd + m) (S, vx, b)) =
      ((Gen.seysenUpdateStep o c κ rd (rd + m) (S, vx, b)).1,
        (seysenUpdateStep o κ rd (rd + m) (s, vx, b)).2) := by rw [← a1]
    rw [e]
    exact ⟨b1, a2.trans' b2, b3, b4.trans a4, b5.trans a5, b6.trans a6⟩

theorem seysenSolve_sim (R : M) (r : Mat F) (rd m κ : Nat) (hm : rd + m ≤ κ)
    (h : ∀ i < κ, ∀ k ≤ i, c.get R i k = r i k) :
    ∀ q, Gen.seysenSolve o c R rd m q = seysenSolve o r rd m q := by
  induction m with
  | zero => intro q; rfl
  | succ m ih =>
    intro q
    simp only [Gen.seysenSolve, seysenSolve]
    rw [ih (by omega), h (rd + m) (by omega) _ (le_refl _)]
    congr 2
    funext k
    split
    · rw [h (rd + m) (by omega) k (by omega)]
    · rfl

/-- Invariant of the block loop. -/
structure SRel (c : Cont F M W G) (κ idx : Nat) (S0 : LatG F M) (s0 : Lat F)
    (Q : Gen.SeyState F M) (q : SeyState F) : Prop where
  tmp : Q.tmpcol = q.tmpcol
  vx : Q.vectx = q.vectx
  done : Q.somedone = q.somedone
  rx : RX c κ S0 Q.s s0 q.s false q.somedone
  row : ∀ k < κ - idx, c.get Q.s.fp.R κ k = q.s.fp.R κ k
  fl : q.s.fastLong = s0.fastLong
  x : Q.s.fp.x = S0.fp.x
  px : q.s.fp.x = s0.fp.x

theorem RX.or {κ : Nat} {S S' T : LatG F M} {s s' t : Lat F} {a b : Bool}
    (h1 : RX c κ S T s t false a) (h2 : RX c κ T S' t s' false b) :
    RX c κ S S' s s' false (a || b) := by
  obtain ⟨R1, x1, e1, f1⟩ := h1.g
  obtain ⟨R2, x2, e2, f2⟩ := h2.g
  obtain ⟨R3, x3, e3, f3⟩ := h1.p
  obtain ⟨R4, x4, e4, f4⟩ := h2.p
  refine ⟨⟨R2, x2, by rw [e2, e1], fun j hj i => ?_⟩, ⟨R4, x4, by rw [e4, e3], fun j hj => ?_⟩,
    fun h => h2.x (h1.x h), fun h => ?_, fun h => h2.same (h1.same h), h2.str.trans h1.str⟩
  · rw [f2 j hj i, e1]; exact f1 j hj i
  · rw [f4 j hj, e3]; exact f3 j hj
  · rw [Bool.or_eq_false_iff] at h
    obtain ⟨_, a2, a3⟩ := h2.nc h.2
    obtain ⟨b1, b2, b3⟩ := h1.nc h.1
    exact ⟨b1, a2.trans b2, a3.trans b3⟩

theorem seysenBlock_sim (hc : c.Lawful o n E) {κ ld idx : Nat} {S0 : LatG F M} {s0 : Lat F}
    {Q : Gen.SeyState F M} {q : SeyState F} (h : SRel c κ idx S0 s0 Q q) (hz : S0.z = s0.z)
    (hx : s0.fastLong = false → S0.fp.x = s0.fp.x)
    (h2 : ∀ i < κ, ∀ k ≤ i, c.get S0.fp.R i k = s0.fp.R i k) :
    SRel c κ (idx + if κ / ld % 2 = 0 then 0 else ld) S0 s0 (Gen.seysenBlock o c κ ld idx Q)
      (seysenBlock o κ ld idx q) := by
  obtain ⟨ht, hv, hd, hr, hrow, hfl, hx1, hx2⟩ := h
  have hzq := hr.same hz
  have hcol : ∀ i < κ, ∀ k ≤ i, c.get Q.s.fp.R i k = q.s.fp.R i k :=
    fun i hi k hk => hr.col (by omega) (h2 i hi k hk)
  unfold Gen.seysenBlock seysenBlock
  simp only []
  generalize hbd : (if κ / ld % 2 = 0 then 0 else ld) = bd
  obtain ⟨rd, hrd⟩ : ∃ rd, rd = κ - idx - bd := ⟨_, rfl⟩
  rw [show κ - idx - bd = rd from hrd.symm]
  have htmp : (fun i => if rd ≤ i ∧ i < κ - idx then c.get Q.s.fp.R κ i else Q.tmpcol i) =
      (fun i => if rd ≤ i ∧ i < κ - idx then q.s.fp.R κ i else q.tmpcol i) := by
    funext i
    split
    · rename_i hi; exact hrow i hi.2
    · rw [ht]
  rw [htmp, hv, seysenSolve_sim Q.s.fp.R q.s.fp.R rd (κ - idx - rd) κ (by omega) hcol]
  generalize (seysenSolve o q.s.fp.R rd (κ - idx - rd)
    ((fun i => if rd ≤ i ∧ i < κ - idx then q.s.fp.R κ i else q.tmpcol i), q.vectx)) = tv
  have hcond : (Q.s.z.numS = 1 ∨ (bd : Int) < Q.s.z.parThr) =
      (q.s.numS = 1 ∨ (bd : Int) < q.s.parThr) := by rw [hzq]; rfl
  simp only [hcond]
  split
  · obtain ⟨a1, a2, a3, a4, a5, a6⟩ := seysenUpdateLoop_sim hc (rd := rd) (κ - idx - rd) (by omega) Q.s q.s
      tv.2 false hzq (fun h => by rw [hx1, hx2]; exact hx (by rw [← hfl]; exact h))
      (fun k hk => hrow k (by omega)) hcol
    refine ⟨rfl, by rw [a1], by rw [a1, hd], hr.or a2, fun k hk => a3 k (by omega), a4.trans hfl,
      a5.trans hx1, a6.trans hx2⟩
  · exact ⟨rfl, rfl, hd, hr, fun k hk => hrow k (by omega), hfl, hx1, hx2⟩

theorem seysenBlocks_sim (hc : c.Lawful o n E) {κ : Nat} (fuel : Nat) {S0 : LatG F M} {s0 : Lat F}
    (hz : S0.z = s0.z) (hx : s0.fastLong = false → S0.fp.x = s0.fp.x)
    (h2 : ∀ i < κ, ∀ k ≤ i, c.get S0.fp.R i k = s0.fp.R i k) :
    ∀ (ld idx : Nat) (Q : Gen.SeyState F M) (q : SeyState F), SRel c κ idx S0 s0 Q q →
    ∃ idx', SRel c κ idx' S0 s0 (Gen.seysenBlocks o c κ fuel ld idx Q) (seysenBlocks o κ fuel ld idx q) := by
  induction fuel with
  | zero => intro ld idx Q q h; exact ⟨idx, h⟩
  | succ fuel ih =>
    intro ld idx Q q h
    simp only [Gen.seysenBlocks, seysenBlocks]
    split
    · exact ih _ _ _ _ (seysenBlock_sim hc h hz hx h2)
    · exact ⟨idx, h⟩

theorem seysenLoop_sim (hc : c.Lawful o n E) {d κ : Nat} {A : Mat Int} {track : Prop} (hκ : 0 < κ)
    (hκd : κ < d) (hA : FullColumnRank (toMatrix n d A)) (fuel : Nat) :
    ∀ (n0 n1 : Bool) (tmp vx : Nat → F) (S : LatG F M) (s : Lat F), ¬ s.seysenFlag < 1 →
    LInv n d A track s → Post c E n d κ S s →
    ORel (Post c E n d κ) (Gen.seysenLoop o c κ fuel n0 n1 tmp vx S)
      (seysenLoop o κ fuel n0 n1 tmp vx s) := by
  induction fuel with
  | zero => intro n0 n1 tmp vx S s _ _ _; exact trivial
  | succ fuel ih =>
    intro n0 n1 tmp vx S s hsf hI hP
    have hg := hI.geom hA
    have hdg := hg.diag κ hκd
    have h0 : SRel c κ 0 S s { s := S, tmpcol := tmp, vectx := vx, somedone := false }
        { s := s, tmpcol := tmp, vectx := vx, somedone := false } :=
      ⟨rfl, rfl, rfl, .rfl' κ S s false, fun k hk => hP.post.r k (by omega), rfl, rfl, rfl⟩
    obtain ⟨idx, hS⟩ := seysenBlocks_sim hc (κ := κ) (κ + 1) hP.same.z (hP.same.x hsf) hP.oth.r 1 0 _ _ h0
    have hzs : ZSteps κ s _ := seysenBlocks_zs o (κ := κ) (κ + 1) 1 0
      { s := s, tmpcol := tmp, vectx := vx, somedone := false }
    simp only [Gen.seysenLoop, seysenLoop]
    generalize Gen.seysenBlocks o c κ (κ + 1) 1 0
      { s := S, tmpcol := tmp, vectx := vx, somedone := false } = Q at hS ⊢
    generalize seysenBlocks o κ (κ + 1) 1 0
      { s := s, tmpcol := tmp, vectx := vx, somedone := false } = q at hS hzs ⊢
    have hIq := hI.zsteps hκd hzs
    rw [hS.done]
    by_cases hd : q.somedone = true
    · rw [if_pos hd, if_pos hd]
      have hmid := hP.drop hS.rx hκd hzs.frame.cfg.seysenFlag hzs.frame.cfg.fastLong
      have hIt : LInv n d A track { q.s with fp :=
          { q.s.fp with colKept := setAt q.s.fp.colKept κ false } } :=
        hIq.congr rfl rfl rfl rfl rfl rfl rfl rfl
      have hpost := hmid.hhR hc hκ hκd (hIt.geom hA)
      have hIp : LInv n d A track (Lat.hhR o κ { q.s with fp :=
          { q.s.fp with colKept := setAt q.s.fp.colKept κ false } }) :=
        hIt.congr rfl rfl rfl rfl rfl rfl rfl rfl
      have hn1 := hpost.post.nrm
      have hn0 : Q.s.fp.normB2 κ = q.s.fp.normB2 κ := by
        obtain ⟨_, _, a, _⟩ := hS.rx.g
        obtain ⟨_, _, a', _⟩ := hS.rx.p
        rw [a, a']; exact hP.post.nrm
      simp only [] at hn1 ⊢
      rw [hn0, hn1, hS.tmp, hS.vx]
      split
      · refine ih _ _ _ _ _ _ ?_ hIp hpost
        show ¬ q.s.seysenFlag < 1
        rw [hzs.frame.cfg.seysenFlag]; exact hsf
      · exact ⟨rfl, hpost⟩
    · rw [if_neg hd, if_neg hd]
      exact ⟨rfl, hP.keep hS.rx (by simpa using hd) hzs.frame.cfg.seysenFlag hzs.frame.cfg.fastLong⟩

/-- Reduction of a column. -/
theorem hlllReduce_sim (hc : c.Lawful o n E) {d κ : Nat} {A : Mat Int} {track : Prop} (hκ : 0 < κ)
    (hκd : κ < d) (hA : FullColumnRank (toMatrix n d A)) (fuel : Nat) (S : LatG F M) (s : Lat F)
    (hI : LInv n d A track s) (hM : Mid c E n d κ S s) :
    ORel (Post c E n d κ) (Gen.hlllReduce o c fuel κ S) (hlllReduce o fuel κ s) := by
  have hpost := hM.hhR hc hκ hκd (hI.geom hA)
  have hI' : LInv n d A track (s.hhR o κ) := hI.congr rfl rfl rfl rfl rfl rfl rfl rfl
  unfold Gen.hlllReduce hlllReduce
  have hcond : (S.z.seysenFlag < 1) = (s.seysenFlag < 1) := by rw [hM.same.z]; rfl
  simp only [hcond]
  split
  · unfold Gen.hsizereduce hsizereduce
    simp only [Nat.lt_irrefl, if_false]
    rw [show κ - 1 + 1 = κ by omega]
    exact hsizeLoop_sim hc hκ hκd hA fuel _ _ _ hI' hpost
  · rename_i hf
    unfold Gen.seysenreduce seysenreduce
    exact seysenLoop_sim hc hκ hκd hA fuel _ _ _ _ _ _ hf hI' hpost

end Sim
end HPLLL
