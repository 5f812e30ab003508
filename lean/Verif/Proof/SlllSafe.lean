import Verif.Proof.Slll
import Verif.Proof.Safe
/-!
# Indices used by the segment LLL
-/

namespace HPLLL
variable {F : Type} (o : FPOps F) (c : SCst F)

/-- Ranges, safety, and `nmaxkappa`. -/
structure SR (n d : Nat) (s : Lat F) : Prop where
  rng : Rng n d s
  sn : SN n s

theorem SR.sseyUpdateStep {n d κ rd i : Nat} {vx : Nat → F} {bd : Nat → Bool} {s : Lat F} (hdn : d ≤ n) (hκ : κ < d)
    (h1 : rd ≤ i) (hi : i < κ) (h : SR n d s) : SR n d (HPLLL.sseyUpdateStep o κ rd vx bd i s) := by
  unfold HPLLL.sseyUpdateStep
  split
  · exact h
  · refine ⟨⟨h.rng.hn, h.rng.hd, h.rng.lt⟩, ⟨?_, h.sn.1.km⟩, h.sn.2⟩
    have := h.rng.nmax i (by omega)
    simp only [h.sn.1.ub, Bool.false_or, Bool.not_eq_false', decide_eq_true_eq]
    rw [h.rng.hn, h.rng.hd]; exact ⟨hκ, by omega, by omega, this⟩

theorem SR.sseyUpdate {n d κ rd : Nat} {vx : Nat → F} {bd : Nat → Bool} (hdn : d ≤ n) (hκ : κ < d) (m : Nat)
    (hm : rd + m ≤ κ) : ∀ s : Lat F, SR n d s → SR n d (HPLLL.sseyUpdate o κ rd vx bd m s) := by
  induction m with
  | zero => exact fun s h => h
  | succ m ih =>
    exact fun s h => ih (by omega) _ (SR.sseyUpdateStep o hdn hκ (by omega) (by omega) h)

theorem SR.sseyUpdateR {n d κ rd : Nat} {vx : Nat → F} {bd : Nat → Bool} (hdn : d ≤ n) (hκ : κ < d) (m : Nat)
    (hm : rd + m ≤ κ) : ∀ s : Lat F, SR n d s → SR n d (HPLLL.sseyUpdateR o κ rd vx bd m s) := by
  induction m with
  | zero => exact fun s h => h
  | succ m ih =>
    intro s h
    simp only [HPLLL.sseyUpdateR]
    refine ih (by omega) _ ?_
    split
    · exact h
    · refine ⟨⟨h.rng.hn, h.rng.hd, h.rng.lt⟩, ⟨?_, h.sn.1.km⟩, h.sn.2⟩
      simp only [h.sn.1.ub, Bool.false_or, Bool.not_eq_false', decide_eq_true_eq]
      rw [h.rng.hn, h.rng.hd]; exact ⟨hκ, by omega, by omega⟩

theorem psseyNmax_le {n d rd m : Nat} {s : Lat F} (hr : Rng n d s) (hm : 0 < m) (h : rd + m < d) :
    psseyNmax s.str rd m ≤ n := by
  have key : ∀ (l : List Nat) (a : Int), a < n → (∀ i ∈ l, s.str i < n) →
      l.foldl (fun a i => max a (s.str i)) a < n := by
    intro l
    induction l with
    | nil => intro a h _; exact h
    | cons b l ih =>
      intro a ha hl
      exact ih _ (max_lt ha (hl b (by simp))) fun i hi => hl i (by simp [hi])
  have := key (List.range' rd (m + 1)) (s.str (rd + m - 1)) (hr.lt _ (by omega)) (fun i hi => hr.lt _ (by
    rw [List.mem_range'_1] at hi; omega))
  unfold psseyNmax
  omega

theorem SR.sseyBlock {n d κ : Nat} {σ : Sched} (hdn : d ≤ n) (hκ : κ < d) (key : List Nat) (ld idx : Nat) (q : SSey F)
    (hk : idx + (if κ / ld % 2 = 0 then 0 else ld) ≤ κ)
    (h : SR n d q.s) : SR n d (HPLLL.sseyBlock o c σ key κ ld idx q).s := by
  unfold HPLLL.sseyBlock
  dsimp only
  generalize (if κ / ld % 2 = 0 then 0 else ld) = bd at hk ⊢
  have hs : ∀ (R : Mat F) (rd m : Nat) (q : SSey F), (sseySolve o c R rd m q).s = q.s := by
    intro R rd m
    induction m with
    | zero => intro q; rfl
    | succ m ih => intro q; simp only [sseySolve]; rw [ih]
  split
  · dsimp only
    rw [hs]
    exact SR.sseyUpdate o hdn hκ _ (by omega) _ h
  · dsimp only
    rw [hs]
    have h1 := SR.sseyUpdateR o (rd := κ - idx - bd) (vx := fun i =>
      if κ - idx - bd ≤ i ∧ i < κ - idx then o.rnd ((sseySolve o c q.s.fp.R (κ - idx - bd)
        (κ - idx - (κ - idx - bd)) { q with tmpcol := fun i =>
          if κ - idx - bd ≤ i ∧ i < κ - idx then q.s.fp.R κ i else q.tmpcol i }).vectx i)
      else (sseySolve o c q.s.fp.R (κ - idx - bd)
        (κ - idx - (κ - idx - bd)) { q with tmpcol := fun i =>
          if κ - idx - bd ≤ i ∧ i < κ - idx then q.s.fp.R κ i else q.tmpcol i }).vectx i)
      (bd := (sseySolve o c q.s.fp.R (κ - idx - bd)
        (κ - idx - (κ - idx - bd)) { q with tmpcol := fun i =>
          if κ - idx - bd ≤ i ∧ i < κ - idx then q.s.fp.R κ i else q.tmpcol i }).bounded)
      hdn hκ (κ - idx - (κ - idx - bd)) (by omega) _ h
    unfold psseyUpdateB
    refine ⟨⟨h1.rng.hn, h1.rng.hd, h1.rng.lt⟩, ⟨?_, h1.sn.1.km⟩, h1.sn.2⟩
    have := psseyNmax_le (rd := κ - idx - bd) (m := κ - idx - (κ - idx - bd)) h1.rng (by omega) (by omega)
    dsimp only
    rw [h1.sn.1.ub, h1.rng.hn, h1.rng.hd]
    simp only [Bool.false_or, Bool.not_eq_false', decide_eq_true_eq]
    exact ⟨hκ, by omega, this⟩

theorem SR.sseyBlocks {n d κ : Nat} {σ : Sched} (hdn : d ≤ n) (hκ : κ < d) (key : List Nat) (fuel : Nat) :
    ∀ (t : Nat) (q : SSey F), SR n d q.s →
      SR n d (HPLLL.sseyBlocks o c σ key κ fuel (2 ^ t) (κ % 2 ^ t) q).s := by
  induction fuel with
  | zero => exact fun t q h => h
  | succ fuel ih =>
    intro t q h
    simp only [HPLLL.sseyBlocks]
    split
    · obtain ⟨e1, e2⟩ := seysen_offset κ t
      rw [e1, ← pow_succ]
      exact ih _ _ (SR.sseyBlock o c hdn hκ key _ _ q e2 h)
    · exact h

theorem SR.drop {n d κ : Nat} {s : Lat F} (h : SR n d s) :
    SR n d { s with fp := { s.fp with colKept := setAt s.fp.colKept κ false } } :=
  ⟨⟨h.rng.hn, h.rng.hd, h.rng.lt⟩, h.sn.drop⟩

theorem SR.hhR {n d κ : Nat} {s : Lat F} (hdn : d ≤ n) (hκ : κ < d) (h : Rng n d s) (hs : Safe s) :
    SR n d (s.hhR o κ) := ⟨⟨h.hn, h.hd, h.lt⟩, Safe.hhR o hdn hκ h hs⟩

theorem SR.hhV {n d κ : Nat} {s : Lat F} (hdn : d ≤ n) (hκ : κ < d) (h : SR n d s) : SR n d (s.hhV o κ) :=
  ⟨⟨h.rng.hn, h.rng.hd, h.rng.lt⟩, Safe.hhV o hdn hκ h.rng h.sn.1 h.sn.2, by
    have : (s.hhV o κ).fp.nmaxkappa = s.fp.nmaxkappa := rfl
    rw [this]; exact h.sn.2⟩

theorem SR.sseyLoop {n d κ : Nat} {σ : Sched} (hdn : d ≤ n) (hκ : κ < d) (key : List Nat) (fuel : Nat) :
    ∀ (q : SSey F) (s' : Lat F), SR n d q.s → HPLLL.sseyLoop o c σ key κ fuel q = some s' → SR n d s' := by
  induction fuel with
  | zero => intro q s' _ h; simp [HPLLL.sseyLoop] at h
  | succ fuel ih =>
    intro q s' hq h
    simp only [HPLLL.sseyLoop] at h
    have h1 := SR.sseyBlocks o c (σ := σ) hdn hκ (fuel :: key) (κ + 1) 0 { q with somedone := false } hq
    simp only [pow_zero, Nat.mod_one] at h1
    split at h
    · exact ih _ _ (SR.hhR o hdn hκ h1.drop.rng h1.drop.sn.1) h
    · obtain rfl := Option.some.inj h
      exact h1

theorem SR.sreduceCol {n d i : Nat} {σ : Sched} (hdn : d ≤ n) (h0 : 0 < i) (hi : i < d) (key : List Nat) (fuel : Nat)
    (s s' : Lat F) (hs : SR n d s) (h : HPLLL.sreduceCol o c σ key fuel i s = some s') : SR n d s' := by
  unfold HPLLL.sreduceCol at h
  split at h
  · obtain ⟨⟨st, s1⟩, h1, rfl⟩ := Option.map_eq_some_iff.1 h
    have r0 := SR.hhR { o with tenth := c.thousandth } hdn hi hs.rng hs.sn.1
    refine ⟨hs.rng.zs (hsizereduce_zs _ h0 fuel 0 s st s1 h1), ?_⟩
    unfold hsizereduce at h1
    simp only [Nat.lt_irrefl, if_false] at h1
    exact SN.hsizeLoop _ hdn hi (by omega) fuel _ _ _ _ r0.rng r0.sn h1
  · exact SR.sseyLoop o c hdn hi _ fuel _ _ (SR.hhR o hdn hi hs.rng hs.sn.1) h

theorem SR.gapLoop {n d : Nat} {σ : Sched} (hdn : d ≤ n) (key : List Nat) (fuel dorigin : Nat) (k : Nat) :
    ∀ (i : Nat) (s : Lat F), 0 < i → i + k ≤ d → SR n d s → ∀ g s',
    HPLLL.gapLoop o c σ key fuel dorigin k i s = some (g, s') → SR n d s' := by
  induction k with
  | zero =>
    intro i s _ _ hs g s' h
    simp only [HPLLL.gapLoop, Option.some.injEq, Prod.mk.injEq] at h
    obtain ⟨-, rfl⟩ := h
    exact hs
  | succ k ih =>
    intro i s h0 hi hs g s' h
    simp only [HPLLL.gapLoop] at h
    split at h
    · simp at h
    rename_i s1 h1
    have hs1 := SR.hhV o (κ := i) hdn (by omega) (SR.sreduceCol o c hdn h0 (by omega) key fuel s s1 hs h1)
    split at h
    · simp only [Option.some.injEq, Prod.mk.injEq] at h
      obtain ⟨-, rfl⟩ := h
      exact hs1
    · exact ih _ _ (by omega) (by omega) hs1 g s' h

/-- What is kept between the phases. -/
structure SLSafe (N D swapLen dorigin : Nat) (L : SLat F) : Prop where
  rng : Rng N D L.lat
  safe : Safe L.lat
  len : L.swapLen = swapLen
  dor : L.dorigin = dorigin

theorem SLSafe.reduceAndGap {N D W D0 : Nat} {σ : Sched} (hdn : D ≤ N) (hD : 0 < D) (hD0 : D0 ≤ D) (key : List Nat)
    (fuel : Nat) (L L' : SLat F) (g : Nat) (h : SLSafe N D W D0 L)
    (hr : HPLLL.reduceAndGap o c σ key fuel L = some (g, L')) : SLSafe N D W D0 L' := by
  unfold HPLLL.reduceAndGap at hr
  dsimp only at hr
  obtain ⟨⟨g2, s2⟩, hg, hh⟩ := Option.map_eq_some_iff.1 hr
  simp only [Prod.mk.injEq] at hh
  obtain ⟨rfl, rfl⟩ := hh
  set s0 : Lat F := { L.lat with fp := { L.lat.fp with
    colKept := fun i => if i < L.dorigin then false else L.lat.fp.colKept i
    descendu := fun i => if i < L.dorigin then 0 else L.lat.fp.descendu i } } with hs0
  have q0 : Rng N D s0 := ⟨h.rng.hn, h.rng.hd, h.rng.lt⟩
  have q1 : Safe s0 := ⟨h.safe.ub, fun j hj hk => by
    simp only [hs0] at hk
    split at hk
    · simp at hk
    · exact h.safe.km j hj hk⟩
  have := SR.gapLoop o c hdn key fuel L.dorigin (L.dorigin - 1) 1 _ (by omega) (by rw [h.dor]; omega)
    (SR.hhV o hdn hD (SR.hhR o hdn hD q0 q1)) g2 s2 hg
  exact ⟨this.rng, this.sn.1, h.len, h.dor⟩

theorem blockReduce_ub (junk : F) (fuel : Nat) (δ : F) (d S dec lovmax : Nat) (sey vd : Int) (RZ : Mat Int) (k : Nat)
    (b : Lat F) (h : blockReduce o junk fuel δ d S dec lovmax sey vd RZ k = some b) : b.ub = false := by
  unfold blockReduce at h
  dsimp only at h
  obtain ⟨⟨st, s1⟩, h1, rfl⟩ := Option.map_eq_some_iff.1 h
  exact hlll_safe_rng o (le_refl (d / S)) fuel δ false _ s1 st ⟨rfl, rfl, fun j _ => matrixStructure_lt _ _ j⟩
    (le_refl _) rfl h1

theorem SLSafe.padR {N D W D0 : Nat} {L : SLat F} (h : SLSafe N D W D0 L) : SLSafe N D W D0 (L.padR o) :=
  ⟨⟨h.rng.hn, h.rng.hd, h.rng.lt⟩, ⟨h.safe.ub, h.safe.km⟩, h.len, h.dor⟩

theorem sphaseIdx_ok {n d S S0 : Nat} (hS : 0 < S) (hSS : S ≤ S0) (hdn : d ≤ n) (odd : Bool) :
    sphaseIdx n d S (if odd then S - 1 else S) (if odd then d / (2 * S) else 0) (2 * S0 - 1) odd = true := by
  unfold sphaseIdx pshift
  rw [decide_eq_true_eq]
  have hSw : S * (d / S) ≤ d := Nat.mul_div_le d S
  have hdw : d / (2 * S) = d / S / 2 := by rw [Nat.mul_comm 2 S, Nat.div_div_eq_div_mul]
  rw [hdw]
  obtain ⟨q, rfl⟩ : ∃ q, S = q + 1 := ⟨S - 1, by omega⟩
  generalize d / (q + 1) = w at *
  have e1 : (q + 1) * w = q * w + w := Nat.succ_mul _ _
  cases odd
  · simp only [Bool.false_eq_true, if_false, Nat.add_sub_cancel]
    refine ⟨hS, le_refl _, fun _ => by omega, by omega, fun _ => by omega, hdn⟩
  · simp only [if_true, Nat.add_sub_cancel]
    refine ⟨hS, by omega, fun _ => by omega, by omega, fun hq => ?_, hdn⟩
    obtain ⟨r, rfl⟩ : ∃ r, q = r + 1 := ⟨q - 1, by omega⟩
    have e2 : (r + 1) * w = r * w + w := Nat.succ_mul _ _
    simp only [Nat.add_sub_cancel]
    omega

theorem SLSafe.sphase {N D D0 S0 : Nat} {σ : Sched} (hdn : D ≤ N) (hD : 0 < D) (hD0 : D0 ≤ D) (junk : F)
    (key : List Nat) (fuel : Nat) (δ : F) (S lovmax : Nat) (hS : 0 < S) (hSS : S ≤ S0) (odd : Bool) (L L' : SLat F)
    (st : Bool) (g : Nat) (h : SLSafe N D (2 * S0 - 1) D0 L)
    (hr : HPLLL.sphase o c σ junk key fuel δ S lovmax odd L = some (st, g, L')) :
    SLSafe N D (2 * S0 - 1) D0 L' := by
  unfold HPLLL.sphase at hr
  dsimp only at hr
  split at hr
  · simp at hr
  rename_i BRs hBR
  split at hr
  · simp at hr
  rename_i g1 L1 hg
  simp only [Option.some.injEq, Prod.mk.injEq] at hr
  obtain ⟨-, rfl, rfl⟩ := hr
  have hb : BRs.any (·.ub) = false := by
    rw [List.any_eq_false]
    intro b hb
    obtain ⟨hlen, hall⟩ := allBlocks_some hBR
    obtain ⟨k, hk, rfl⟩ := List.getElem_of_mem hb
    have := hall k (by omega)
    rw [List.getElem?_eq_getElem hk] at this
    rw [blockReduce_ub o junk fuel δ _ S _ lovmax _ _ _ k _ this.symm]
    simp
  have h1 : SLSafe N D (2 * S0 - 1) D0 L1 := by
    refine SLSafe.reduceAndGap o c hdn hD hD0 key fuel _ L1 g1 ?_ hg
    refine ⟨⟨h.rng.hn, h.rng.hd, h.rng.lt⟩, ⟨?_, h.safe.km⟩, h.len, h.dor⟩
    dsimp only
    rw [h.safe.ub, hb, h.rng.hn, h.rng.hd, h.len, sphaseIdx_ok hS hSS hdn odd]
    rfl
  split
  · exact h1
  · exact h1.padR o

theorem SLSafe.sphases {N D D0 S0 : Nat} {σ : Sched} (hdn : D ≤ N) (hD : 0 < D) (hD0 : D0 ≤ D) (junk δ : F)
    (S lovmax : Nat) (hS : 0 < S) (hSS : S ≤ S0) (fuel : Nat) : ∀ (L L' : SLat F) (g : Nat),
    SLSafe N D (2 * S0 - 1) D0 L → HPLLL.sphases o c σ junk δ S lovmax fuel L = some (g, L') →
    SLSafe N D (2 * S0 - 1) D0 L' := by
  induction fuel with
  | zero => intro L L' g _ h; simp [HPLLL.sphases] at h
  | succ fuel ih =>
    intro L L' g h hr
    simp only [HPLLL.sphases] at hr
    split at hr
    · simp at hr
    rename_i s0 g0 L0 e0
    have h0 := SLSafe.sphase o c hdn hD hD0 junk _ _ δ S lovmax hS hSS false L L0 s0 g0 h e0
    split at hr
    · simp only [Option.some.injEq, Prod.mk.injEq] at hr
      obtain ⟨-, rfl⟩ := hr
      exact h0
    split at hr
    · simp at hr
    rename_i s1 g1 L1 e1
    have h1 := SLSafe.sphase o c hdn hD hD0 junk _ _ δ S lovmax hS hSS true L0 L1 s1 g1 h0 e1
    split at hr
    · simp only [Option.some.injEq, Prod.mk.injEq] at hr
      obtain ⟨-, rfl⟩ := hr
      exact h1
    split at hr
    · simp only [Option.some.injEq, Prod.mk.injEq] at hr
      obtain ⟨-, rfl⟩ := hr
      exact h1
    · exact ih _ _ _ h1 hr

theorem hhAllCol_keep (n d : Nat) (B : Mat Int) (κ : Nat) (p : FPart F) :
    (hhAllCol o n d B κ p).colKept = p.colKept ∧ (hhAllCol o n d B κ p).kappamin = p.kappamin := by
  have h : ∀ (l : List Nat) (p : FPart F),
      (l.foldl (fun p k => hhAllApply o n κ k p) p).colKept = p.colKept ∧
      (l.foldl (fun p k => hhAllApply o n κ k p) p).kappamin = p.kappamin := by
    intro l
    induction l with
    | nil => exact fun p => ⟨rfl, rfl⟩
    | cons a l ih => intro p; exact ih _
  unfold hhAllCol
  exact h _ _

theorem SLSafe.householder {N D W D0 : Nat} (hdn : D ≤ N) (hD0 : D0 ≤ D) {L : SLat F} (h : SLSafe N D W D0 L) :
    SLSafe N D W D0 (L.householder o) := by
  unfold SLat.householder
  dsimp only
  have hk : ∀ (l : List Nat) (p : FPart F),
      (l.foldl (fun p κ => hhAllCol o L.lat.n L.lat.d L.lat.B κ p) p).colKept = p.colKept ∧
      (l.foldl (fun p κ => hhAllCol o L.lat.n L.lat.d L.lat.B κ p) p).kappamin = p.kappamin := by
    intro l
    induction l with
    | nil => exact fun p => ⟨rfl, rfl⟩
    | cons a l ih =>
      intro p
      obtain ⟨h1, h2⟩ := hhAllCol_keep o L.lat.n L.lat.d L.lat.B a p
      rw [List.foldl_cons]
      exact ⟨(ih _).1.trans h1, (ih _).2.trans h2⟩
  refine ⟨⟨h.rng.hn, h.rng.hd, h.rng.lt⟩, ⟨?_, ?_⟩, h.len, h.dor⟩
  · dsimp only
    rw [h.safe.ub, h.rng.hd, h.rng.hn, h.dor]
    simp only [Bool.false_or, Bool.not_eq_false', decide_eq_true_eq]
    split <;> omega
  · intro j hj hc
    dsimp only at hc ⊢
    rw [(hk _ _).1] at hc
    rw [(hk _ _).2]
    exact h.safe.km j hj hc

theorem SLSafe.hlll {N D D0 S0 : Nat} {σ : Sched} (hdn : D ≤ N) (hD : 0 < D) (hD0 : D0 ≤ D) (junk : F) (fuel : Nat)
    (δ : F) (S lovmax : Nat) (hS : 0 < S) (hSS : S ≤ S0) (L L' : SLat F) (g : Nat)
    (h : SLSafe N D (2 * S0 - 1) D0 L) (hr : L.hlll o c σ junk fuel δ S lovmax = some (g, L')) :
    SLSafe N D (2 * S0 - 1) D0 L' := by
  unfold SLat.hlll at hr
  dsimp only at hr
  split at hr
  · simp at hr
  rename_i r L1 e
  simp only [Option.some.injEq, Prod.mk.injEq] at hr
  obtain ⟨-, rfl⟩ := hr
  have h0 : SLSafe N D (2 * S0 - 1) D0 { L with lat := { L.lat with verboseDepth := L.lat.verboseDepth - 1 } } :=
    ⟨⟨h.rng.hn, h.rng.hd, h.rng.lt⟩, ⟨h.safe.ub, h.safe.km⟩, h.len, h.dor⟩
  have h1 := SLSafe.sphases o c hdn hD hD0 junk δ S lovmax hS hSS fuel _ _ _
    ((h0.householder o hdn hD0).padR o) e
  exact ⟨⟨h1.rng.hn, h1.rng.hd, h1.rng.lt⟩, ⟨h1.safe.ub, h1.safe.km⟩, h1.len, h1.dor⟩

theorem newSLattice_safe (junk : F) (n d : Nat) (A : Mat Int) (S0 : Nat) (forU : Bool) (method : Int) (longFlag : Bool)
    (vd : Int) :
    SLSafe (n + padLen d S0) (d + padLen d S0) (2 * S0 - 1) d (newSLattice o junk n d A S0 forU method longFlag vd) :=
  ⟨⟨rfl, rfl, fun _ _ => matrixStructure_lt _ _ _⟩, ⟨rfl, fun _ _ h => by simp [newSLattice, newLattice] at h⟩, rfl, rfl⟩

/-! ## A violation is never forgotten -/

namespace Stk

theorem sizeUpdateStep_ub {κ i : Nat} {q : Lat F × Bool} (h : q.1.ub = true) :
    (sizeUpdateStep o κ i q).1.ub = true := by
  unfold sizeUpdateStep
  dsimp only
  split
  · exact h
  · simp only [h, Bool.true_or]

theorem sizeUpdateLoop_ub {κ : Nat} (m : Nat) : ∀ {q : Lat F × Bool}, q.1.ub = true →
    (sizeUpdateLoop o κ m q).1.ub = true := by
  induction m with
  | zero => exact fun h => h
  | succ m ih => intro q h; exact ih (sizeUpdateStep_ub o h)

theorem sizeUpdateRLoop_ub {κ : Nat} (m : Nat) : ∀ {q : Lat F × (Nat → F) × Bool}, q.1.ub = true →
    (sizeUpdateRLoop o κ m q).1.ub = true := by
  induction m with
  | zero => exact fun h => h
  | succ m ih =>
    intro q h
    refine ih ?_
    unfold sizeUpdateRStep
    dsimp only
    split
    · exact h
    · simp only [h, Bool.true_or]

theorem hsizePass_ub {κ m : Nat} {s : Lat F} (h : s.ub = true) : (hsizePass o κ m s).1.ub = true := by
  unfold hsizePass
  split
  · exact sizeUpdateLoop_ub o m (q := (s, false)) h
  · have := sizeUpdateRLoop_ub o (κ := κ) m (q := (s, fun _ => o.zero, false)) h
    simp only [psizeUpdateB, this, Bool.true_or]

theorem hhR_ub {κ : Nat} {s : Lat F} (h : s.ub = true) : (s.hhR o κ).ub = true := by
  simp only [Lat.hhR, h, Bool.true_or]

theorem hhV_ub {κ : Nat} {s : Lat F} (h : s.ub = true) : (s.hhV o κ).ub = true := by
  simp only [Lat.hhV, h, Bool.true_or]

theorem hsizeLoop_ub {κ m : Nat} (fuel : Nat) : ∀ (b : Bool) (s s' : Lat F) (st : Int), s.ub = true →
    hsizeLoop o κ m fuel b s = some (st, s') → s'.ub = true := by
  induction fuel with
  | zero => intro b s s' st _ h; simp [hsizeLoop] at h
  | succ fuel ih =>
    intro b s s' st hs h
    simp only [hsizeLoop] at h
    have h1 := hsizePass_ub o (κ := κ) (m := m) hs
    split at h
    · split at h
      · split at h <;>
        · simp only [Option.some.injEq, Prod.mk.injEq] at h
          obtain ⟨-, rfl⟩ := h
          exact hhR_ub o (s := { (hsizePass o κ m s).1 with fp := { (hsizePass o κ m s).1.fp with
            colKept := setAt (hsizePass o κ m s).1.fp.colKept κ false } }) h1
      · exact ih _ _ _ _ (hhR_ub o (s := { (hsizePass o κ m s).1 with fp := { (hsizePass o κ m s).1.fp with
            colKept := setAt (hsizePass o κ m s).1.fp.colKept κ false } }) h1) h
    · simp only [Option.some.injEq, Prod.mk.injEq] at h
      obtain ⟨-, rfl⟩ := h
      exact h1

theorem sseyUpdate_ub {κ rd : Nat} {vx : Nat → F} {bd : Nat → Bool} (m : Nat) : ∀ {s : Lat F}, s.ub = true →
    (sseyUpdate o κ rd vx bd m s).ub = true := by
  induction m with
  | zero => exact fun h => h
  | succ m ih =>
    intro s h
    refine ih ?_
    unfold sseyUpdateStep
    split
    · exact h
    · simp only [h, Bool.true_or]

theorem sseyUpdateR_ub {κ rd : Nat} {vx : Nat → F} {bd : Nat → Bool} (m : Nat) : ∀ {s : Lat F}, s.ub = true →
    (sseyUpdateR o κ rd vx bd m s).ub = true := by
  induction m with
  | zero => exact fun h => h
  | succ m ih =>
    intro s h
    simp only [sseyUpdateR]
    refine ih ?_
    split
    · exact h
    · simp only [h, Bool.true_or]

theorem sseyBlock_ub {κ : Nat} {σ : Sched} (key : List Nat) (ld idx : Nat) (q : SSey F) (h : q.s.ub = true) :
    (sseyBlock o c σ key κ ld idx q).s.ub = true := by
  unfold sseyBlock
  dsimp only
  generalize (if κ / ld % 2 = 0 then 0 else ld) = bd
  split
  · exact sseyUpdate_ub o _ (by rw [sseySolve_s]; exact h)
  · unfold psseyUpdateB
    dsimp only
    rw [sseyUpdateR_ub o _ (by rw [sseySolve_s]; exact h)]
    rfl

theorem sseyBlocks_ub {κ : Nat} {σ : Sched} (key : List Nat) (fuel : Nat) : ∀ (ld idx : Nat) (q : SSey F),
    q.s.ub = true → (sseyBlocks o c σ key κ fuel ld idx q).s.ub = true := by
  induction fuel with
  | zero => exact fun _ _ _ h => h
  | succ fuel ih =>
    intro ld idx q h
    simp only [sseyBlocks]
    split
    · exact ih _ _ _ (sseyBlock_ub o c key _ _ q h)
    · exact h

theorem sseyLoop_ub {κ : Nat} {σ : Sched} (key : List Nat) (fuel : Nat) : ∀ (q : SSey F) (s' : Lat F),
    q.s.ub = true → sseyLoop o c σ key κ fuel q = some s' → s'.ub = true := by
  induction fuel with
  | zero => intro q s' _ h; simp [sseyLoop] at h
  | succ fuel ih =>
    intro q s' hq h
    simp only [sseyLoop] at h
    have h1 := sseyBlocks_ub o c (κ := κ) (σ := σ) (fuel :: key) (κ + 1) 1 0 { q with somedone := false } hq
    split at h
    · exact ih _ _ (hhR_ub o (s := { (sseyBlocks o c σ (fuel :: key) κ (κ + 1) 1 0 { q with somedone := false }).s with
        fp := { (sseyBlocks o c σ (fuel :: key) κ (κ + 1) 1 0 { q with somedone := false }).s.fp with
          colKept := setAt (sseyBlocks o c σ (fuel :: key) κ (κ + 1) 1 0
            { q with somedone := false }).s.fp.colKept κ false } }) h1) h
    · obtain rfl := Option.some.inj h
      exact h1

theorem sreduceCol_ub {i : Nat} {σ : Sched} (key : List Nat) (fuel : Nat) (s s' : Lat F) (hs : s.ub = true)
    (h : sreduceCol o c σ key fuel i s = some s') : s'.ub = true := by
  unfold sreduceCol at h
  split at h
  · obtain ⟨⟨st, s1⟩, h1, rfl⟩ := Option.map_eq_some_iff.1 h
    unfold hsizereduce at h1
    exact hsizeLoop_ub _ fuel _ _ _ _ (hhR_ub _ hs) h1
  · exact sseyLoop_ub o c _ fuel _ _ (hhR_ub o hs) h

theorem gapLoop_ub {σ : Sched} (key : List Nat) (fuel dorigin : Nat) (k : Nat) :
    ∀ (i : Nat) (s : Lat F), s.ub = true → ∀ g s', gapLoop o c σ key fuel dorigin k i s = some (g, s') →
      s'.ub = true := by
  induction k with
  | zero =>
    intro i s hs g s' h
    simp only [gapLoop, Option.some.injEq, Prod.mk.injEq] at h
    obtain ⟨-, rfl⟩ := h
    exact hs
  | succ k ih =>
    intro i s hs g s' h
    simp only [gapLoop] at h
    split at h
    · simp at h
    rename_i s1 h1
    have hs1 := hhV_ub o (κ := i) (sreduceCol_ub o c key fuel s s1 hs h1)
    split at h
    · simp only [Option.some.injEq, Prod.mk.injEq] at h
      obtain ⟨-, rfl⟩ := h
      exact hs1
    · exact ih _ _ hs1 g s' h

/-- A phase whose indices are out of range is recorded. -/
theorem sphase_ub {σ : Sched} (junk : F) (key : List Nat) (fuel : Nat) (δ : F) (S lovmax : Nat) (odd : Bool)
    (L L' : SLat F) (st : Bool) (g : Nat)
    (h : L.lat.ub = true ∨ sphaseIdx L.lat.n L.lat.d S (if odd then S - 1 else S)
      (if odd then L.lat.d / (2 * S) else 0) L.swapLen odd = false)
    (hr : sphase o c σ junk key fuel δ S lovmax odd L = some (st, g, L')) : L'.lat.ub = true := by
  unfold sphase at hr
  dsimp only at hr
  split at hr
  · simp at hr
  rename_i BRs hBR
  split at hr
  · simp at hr
  rename_i g1 L1 hg
  simp only [Option.some.injEq, Prod.mk.injEq] at hr
  obtain ⟨-, rfl, rfl⟩ := hr
  have h1 : L1.lat.ub = true := by
    unfold reduceAndGap at hg
    dsimp only at hg
    obtain ⟨⟨g2, s2⟩, hg2, hh⟩ := Option.map_eq_some_iff.1 hg
    simp only [Prod.mk.injEq] at hh
    obtain ⟨-, rfl⟩ := hh
    refine gapLoop_ub o c key fuel _ _ 1 _ ?_ g2 s2 hg2
    apply hhV_ub
    apply hhR_ub
    dsimp only
    rcases h with h | h
    · rw [h]; rfl
    · rw [h]; simp
  split
  · exact h1
  · exact h1

theorem sphases_ub {σ : Sched} (junk δ : F) (S lovmax : Nat) (fuel : Nat) : ∀ (L L' : SLat F) (g : Nat),
    (L.lat.ub = true ∨ sphaseIdx L.lat.n L.lat.d S S 0 L.swapLen false = false) →
    sphases o c σ junk δ S lovmax fuel L = some (g, L') → L'.lat.ub = true := by
  induction fuel with
  | zero => intro L L' g _ h; simp [sphases] at h
  | succ fuel ih =>
    intro L L' g h hr
    simp only [sphases] at hr
    split at hr
    · simp at hr
    rename_i s0 g0 L0 e0
    have h0 := sphase_ub o c junk _ _ δ S lovmax false L L0 s0 g0 h e0
    split at hr
    · simp only [Option.some.injEq, Prod.mk.injEq] at hr
      obtain ⟨-, rfl⟩ := hr
      exact h0
    split at hr
    · simp at hr
    rename_i s1 g1 L1 e1
    have h1 := sphase_ub o c junk _ _ δ S lovmax true L0 L1 s1 g1 (.inl h0) e1
    split at hr
    · simp only [Option.some.injEq, Prod.mk.injEq] at hr
      obtain ⟨-, rfl⟩ := hr
      exact h1
    split at hr
    · simp only [Option.some.injEq, Prod.mk.injEq] at hr
      obtain ⟨-, rfl⟩ := hr
      exact h1
    · exact ih _ _ _ (.inl h1) hr

theorem slll_ub {σ : Sched} (junk : F) (fuel : Nat) (δ : F) (S lovmax : Nat) (L L' : SLat F) (g : Nat)
    (h : L.lat.ub = true ∨ sphaseIdx L.lat.n L.lat.d S S 0 L.swapLen false = false)
    (hr : L.hlll o c σ junk fuel δ S lovmax = some (g, L')) : L'.lat.ub = true := by
  unfold SLat.hlll at hr
  dsimp only at hr
  split at hr
  · simp at hr
  rename_i r L1 e
  simp only [Option.some.injEq, Prod.mk.injEq] at hr
  obtain ⟨-, rfl⟩ := hr
  refine sphases_ub o c junk δ S lovmax fuel _ L1 r ?_ e
  rcases h with h | h
  · left
    simp only [SLat.padR, SLat.householder, h, Bool.true_or]
  · exact .inr h

end Stk

end HPLLL
