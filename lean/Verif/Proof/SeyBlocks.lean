import Verif.Proof.SeyExact
/-! The two block loops (`seysenreduce`, `newseysenreduce`) in exact arithmetic. -/

namespace HPLLL
open Spec Finset

variable {o : FPOps ℝ}

/-! ### Elementary steps of newseysenreduce, for any arithmetic -/

section any
variable {F : Type} (o : FPOps F)

theorem nsUpdateR_zs {κ lo : ℕ} (bd : ℕ → Bool) (vx : ℕ → F) (m : ℕ) :
    ∀ s : Lat F, ZSteps κ s (nsUpdateR o κ lo bd vx m s) := by
  induction m with
  | zero => intro s; exact .refl
  | succ m ih =>
    intro s
    simp only [nsUpdateR]
    split
    · exact ih s
    · exact (zs_fp κ s _ _).trans (ih _)

theorem nsUpdateB_zs {κ lo : ℕ} (bd : ℕ → Bool) (vx : ℕ → F) (m : ℕ) (hm : lo + m ≤ κ) :
    ∀ s : Lat F, ZSteps κ s (nsUpdateB o κ lo bd vx m s) := by
  induction m with
  | zero => intro s; exact .refl
  | succ m ih =>
    intro s
    simp only [nsUpdateB]
    split
    · exact ih (by omega) s
    · refine Relation.ReflTransGen.trans (Relation.ReflTransGen.single ?_) (ih (by omega) _)
      simp only [redZ_eq]
      exact ZStep.col s s.fp _ (lo + m) _ (by omega)

theorem nsBlock_zs {κ ld idx : ℕ} (thr : F) (q : SeyState F) :
    ZSteps κ q.s (nsBlock o thr κ ld idx q).s := by
  unfold nsBlock
  simp only []
  generalize (if κ / ld % 2 = 0 then 0 else ld) = bd
  exact (nsUpdateR_zs o _ _ _ _).trans (nsUpdateB_zs o _ _ _ (by omega) _)

theorem nsBlocks_zs {κ : ℕ} (thr : F) (fuel ld idx : ℕ) (q : SeyState F) :
    ZSteps κ q.s (nsBlocks o thr κ fuel ld idx q).s := by
  induction fuel generalizing ld idx q with
  | zero => exact .refl
  | succ fuel ih =>
    simp only [nsBlocks]
    split
    · exact (nsBlock_zs o thr q).trans (ih _ _ _)
    · exact .refl

theorem nsLoop_zs {κ : ℕ} (thr : F) (fuel : ℕ) (tmp vx : ℕ → F) (s : Lat F) (st : ℤ) (s' : Lat F)
    (h : nsLoop o thr κ fuel tmp vx s = some (st, s')) : ZSteps κ s s' := by
  induction fuel generalizing tmp vx s with
  | zero => simp [nsLoop] at h
  | succ fuel ih =>
    simp only [nsLoop] at h
    have h1 := nsBlocks_zs o (κ := κ) thr (κ + 1) 1 0
      { s := s, tmpcol := tmp, vectx := vx, somedone := false }
    split at h
    · exact h1.trans ((zs_fp κ _ _ _).trans ((hhR_zs o κ κ _).trans (ih _ _ _ h)))
    · obtain ⟨-, rfl⟩ := by simpa using h
      exact h1

theorem hlllpReduce_zs {κ : ℕ} (hκ : 0 < κ) (thr : F) (dth : ℤ) (fuel : ℕ) (s : Lat F) (st : ℤ)
    (s' : Lat F) (h : hlllpReduce o thr dth fuel κ s = some (st, s')) : ZSteps κ s s' := by
  unfold hlllpReduce at h
  split at h
  · exact hsizereduce_zs o hκ fuel 0 s st s' h
  · split at h
    · exact (hhR_zs o κ κ s).trans (nsLoop_zs o thr fuel _ _ _ _ _ h)
    · exact (hhR_zs o κ κ s).trans (seysenLoop_zs o fuel _ _ _ _ _ _ _ h)

end any

/-! ### One loop for both -/

/-- The common loop on the blocks. -/
def blocksG (blk : ℕ → ℕ → SeyState ℝ → SeyState ℝ) (κ : ℕ) : ℕ → ℕ → ℕ → SeyState ℝ → SeyState ℝ
  | 0, _, _, q => q
  | fuel + 1, ld, idx, q =>
    if ld ≤ κ then
      blocksG blk κ fuel (ld * 2) (idx + if κ / ld % 2 = 0 then 0 else ld) (blk ld idx q)
    else q

theorem seysenBlocks_G (κ fuel : ℕ) : ∀ ld idx q,
    seysenBlocks o κ fuel ld idx q = blocksG (seysenBlock o κ) κ fuel ld idx q := by
  induction fuel with
  | zero => intro ld idx q; rfl
  | succ fuel ih =>
    intro ld idx q
    simp only [seysenBlocks, blocksG]
    split
    · exact ih _ _ _
    · rfl

theorem nsBlocks_G (thr : ℝ) (κ fuel : ℕ) : ∀ ld idx q,
    nsBlocks o thr κ fuel ld idx q = blocksG (nsBlock o thr κ) κ fuel ld idx q := by
  induction fuel with
  | zero => intro ld idx q; rfl
  | succ fuel ih =>
    intro ld idx q
    simp only [nsBlocks, blocksG]
    split
    · exact ih _ _ _
    · rfl

/-- What a block function guarantees, in the setting `cfg`. -/
structure BlkSpec (c : ℝ) (n κ : ℕ) (cfg : Lat ℝ → Prop) (tie : Prop)
    (blk : ℕ → ℕ → SeyState ℝ → SeyState ℝ) : Prop where
  zs : ∀ t q, ZSteps κ q.s (blk (2 ^ t) (κ % 2 ^ t) q).s
  cfgp : ∀ s s', ZSteps κ s s' → cfg s → cfg s'
  fp : ∀ t q, ∃ R, (blk (2 ^ t) (κ % 2 ^ t) q).s.fp = { q.s.fp with R := R } ∧
      ∀ c, c ≠ κ → R c = q.s.fp.R c
  same : ∀ t q, (blk (2 ^ t) (κ % 2 ^ t) q).somedone = false →
      (blk (2 ^ t) (κ % 2 ^ t) q).s = q.s ∧ q.somedone = false
  step : ∀ t q (str : ℕ → ℤ) (V : Mat ℝ) (B0 : Mat Int) (R0 : Mat ℝ), cfg q.s → q.s.str = str →
      QRv n str B0 V R0 κ → (∀ i < κ, ∀ r, nmaxOf str i ≤ r → r < n → B0 i r = 0) →
      BlksSt c n κ t V B0 R0 q.s.B q.s.fp.R →
      BlksSt c n κ (t + 1) V B0 R0 (blk (2 ^ t) (κ % 2 ^ t) q).s.B
        (blk (2 ^ t) (κ % 2 ^ t) q).s.fp.R
  still : tie → ∀ t q, cfg q.s → (∀ j < κ, q.s.fp.R j j ≠ 0) →
      BlkOK c q.s.fp.R (q.s.fp.R κ) (seyLo κ t) (seyHi κ t) →
      (blk (2 ^ t) (κ % 2 ^ t) q).somedone = q.somedone

variable {c : ℝ} {n κ : ℕ} {cfg : Lat ℝ → Prop} {tie : Prop}
  {blk : ℕ → ℕ → SeyState ℝ → SeyState ℝ}

theorem seyHi_zero {κ t : ℕ} (h : κ < 2 ^ t) : seyHi κ t = 0 := by
  unfold seyHi; rw [Nat.mod_eq_of_lt h]; omega

theorem blocksG_frame (hb : BlkSpec c n κ cfg tie blk) (fuel : ℕ) : ∀ (t : ℕ) (q : SeyState ℝ),
    (∃ R, (blocksG blk κ fuel (2 ^ t) (κ % 2 ^ t) q).s.fp = { q.s.fp with R := R } ∧
      ∀ c, c ≠ κ → R c = q.s.fp.R c) ∧
    ((blocksG blk κ fuel (2 ^ t) (κ % 2 ^ t) q).somedone = false →
      (blocksG blk κ fuel (2 ^ t) (κ % 2 ^ t) q).s = q.s ∧ q.somedone = false) ∧
    ZSteps κ q.s (blocksG blk κ fuel (2 ^ t) (κ % 2 ^ t) q).s := by
  induction fuel with
  | zero => intro t q; exact ⟨⟨q.s.fp.R, rfl, fun _ _ => rfl⟩, fun h => ⟨rfl, h⟩, .refl⟩
  | succ fuel ih =>
    intro t q
    simp only [blocksG]
    split
    · rw [(seysen_offset κ t).1, ← pow_succ]
      obtain ⟨R1, e1, f1⟩ := hb.fp t q
      obtain ⟨⟨R2, e2, f2⟩, g2, z2⟩ := ih (t + 1) (blk (2 ^ t) (κ % 2 ^ t) q)
      refine ⟨⟨R2, by rw [e2, e1], fun c hc => ?_⟩, fun h => ?_, (hb.zs t q).trans z2⟩
      · rw [f2 c hc, e1]; exact f1 c hc
      · obtain ⟨a, b⟩ := g2 h
        obtain ⟨c', d⟩ := hb.same t q b
        exact ⟨a.trans c', d⟩
    · exact ⟨⟨q.s.fp.R, rfl, fun _ _ => rfl⟩, fun h => ⟨rfl, h⟩, .refl⟩

theorem blocksG_spec (hb : BlkSpec c n κ cfg tie blk) {str : ℕ → ℤ} {V : Mat ℝ} {B0 : Mat Int}
    {R0 : Mat ℝ} (hq : QRv n str B0 V R0 κ)
    (hl : ∀ i < κ, ∀ r, nmaxOf str i ≤ r → r < n → B0 i r = 0) (fuel : ℕ) :
    ∀ (t : ℕ) (q : SeyState ℝ), κ < 2 ^ (t + fuel) → cfg q.s → q.s.str = str →
    BlksSt c n κ t V B0 R0 q.s.B q.s.fp.R →
    let q' := blocksG blk κ fuel (2 ^ t) (κ % 2 ^ t) q
    ∀ u, BlkOK c R0 (Ex.app n V κ (bv n q'.s.B κ)) (seyLo κ u) (seyHi κ u) := by
  have fin : ∀ (t : ℕ) (s : Lat ℝ), κ < 2 ^ t → BlksSt c n κ t V B0 R0 s.B s.fp.R →
      ∀ u, BlkOK c R0 (Ex.app n V κ (bv n s.B κ)) (seyLo κ u) (seyHi κ u) := by
    intro t s ht h u
    by_cases hu : u < t
    · exact h.done u hu
    · have := seyHi_zero (κ := κ) (t := u) (lt_of_lt_of_le ht (Nat.pow_le_pow_right (by decide)
        (by omega)))
      exact ⟨fun _ => 0, fun j _ b => by omega, fun j _ b => by omega⟩
  induction fuel with
  | zero =>
    intro t q ht _ _ h
    exact fin t q.s ht h
  | succ fuel ih =>
    intro t q ht hc hs h
    simp only [blocksG]
    split
    · rw [(seysen_offset κ t).1, ← pow_succ]
      refine ih (t + 1) _ ?_ (hb.cfgp _ _ (hb.zs t q) hc) ?_ (hb.step t q str V B0 R0 hc hs hq hl h)
      · rw [show t + 1 + fuel = t + (fuel + 1) by omega]; exact ht
      · rw [(hb.zs t q).frame.str]; exact hs
    · exact fin t q.s (by omega) h

theorem blocksG_still (hb : BlkSpec c n κ cfg tie blk) (ht : tie) (fuel : ℕ) :
    ∀ (t : ℕ) (q : SeyState ℝ), cfg q.s → (∀ j < κ, q.s.fp.R j j ≠ 0) → SeyRed c κ q.s.fp.R →
    q.somedone = false →
    (blocksG blk κ fuel (2 ^ t) (κ % 2 ^ t) q).somedone = false := by
  induction fuel with
  | zero => intro t q _ _ _ h; exact h
  | succ fuel ih =>
    intro t q hc hd hr h
    simp only [blocksG]
    split
    · rw [(seysen_offset κ t).1, ← pow_succ]
      have h1 : (blk (2 ^ t) (κ % 2 ^ t) q).somedone = false :=
        (hb.still ht t q hc hd (hr t)).trans h
      have h2 := (hb.same t q h1).1
      exact ih (t + 1) _ (by rw [h2]; exact hc) (by rw [h2]; exact hd) (by rw [h2]; exact hr) h1
    · exact h

/-- One pass over all the blocks followed, if needed, by the recomputation of the column. -/
theorem blocksG_pass (ho : Exact o) (hb : BlkSpec c n κ cfg tie blk) {d : ℕ} {A : Mat Int}
    {track : Prop} (hκ : 0 < κ) (hκd : κ < d) (hA : FullColumnRank (toMatrix n d A))
    (s : Lat ℝ) (tmp vx : ℕ → ℝ) (hc : cfg s) (hI : LInv n d A track s) (hP : Post n d κ s) :
    let q := blocksG blk κ (κ + 1) 1 0 { s := s, tmpcol := tmp, vectx := vx, somedone := false }
    (q.somedone = false → q.s = s ∧ SeyRed c κ s.fp.R) ∧
    (let t : Lat ℝ :=
      { q.s with fp := { q.s.fp with colKept := setAt q.s.fp.colKept κ false } }
     LInv n d A track t ∧ cfg (t.hhR o κ) ∧ Post n d κ (t.hhR o κ) ∧ SeyRed c κ (t.hhR o κ).fp.R ∧
       ∀ i < κ, (t.hhR o κ).fp.R i = s.fp.R i) ∧
    (tie → SeyRed c κ s.fp.R → q.somedone = false) := by
  have hg := hI.geo hA
  obtain ⟨h1, h2⟩ := hP
  have hpow : κ < 2 ^ (0 + (κ + 1)) := by
    rw [zero_add]; exact (Nat.lt_succ_self κ).trans (Nat.lt_two_pow_self (n := κ + 1))
  have hnm := hg.diag κ hκd
  intro q
  obtain ⟨⟨R, e, f⟩, g, hzs⟩ := blocksG_frame hb (κ + 1) 0
    { s := s, tmpcol := tmp, vectx := vx, somedone := false }
  have hsp := blocksG_spec hb h1.qr (fun i hi => hg.supp i (by omega)) (κ + 1) 0
    { s := s, tmpcol := tmp, vectx := vx, somedone := false } hpow hc rfl
    ⟨fun _ _ => rfl, fun _ _ => rfl, fun r hr => h2.r r (by
      have := seyHi_le κ 0; omega), fun u hu => by omega⟩
  have hst := fun ht => blocksG_still hb ht (κ + 1) 0
    { s := s, tmpcol := tmp, vectx := vx, somedone := false } hc h1.qr.rdiag
  rw [pow_zero, Nat.mod_one] at e g hzs hsp hst
  simp only [] at e f g hzs
  have hfr := hzs.frame
  change q.s.fp = _ at e
  refine ⟨?_, ?_, ?_⟩
  · intro hq
    obtain ⟨a, -⟩ := g hq
    refine ⟨a, fun t => ?_⟩
    have := hsp t
    change BlkOK c s.fp.R (Ex.app n s.fp.V κ (bv n q.s.B κ)) _ _ at this
    rw [show q.s = s from a] at this
    refine this.congr (fun _ _ _ => rfl) fun r _ hr => h2.r r ?_
    have := seyHi_le κ t; omega
  · intro t
    have hI' : LInv n d A track q.s := hI.zsteps hκd hzs
    have hIt : LInv n d A track t := hI'.congr rfl rfl rfl rfl rfl rfl rfl rfl
    have hf2 : HhFrame κ s.fp t.fp := by
      simp only [t, e]
      refine ⟨rfl, f, fun _ _ => rfl, fun _ _ => rfl, ?_, fun _ _ => rfl, fun _ _ => rfl, rfl⟩
      intro c' hc'; simp only []; rw [setAt_ne _ _ hc']
    have hmid : Mid n d κ t := by
      constructor
      · have : t.str = s.str := hfr.str
        rw [this]
        refine h1.congr (fun c hc => hfr.Bcol c hc) hf2 ?_
        intro _; simp only [t, e]; exact h1.bz κ hκd
      · intro hk
        have : t.fp.colKept κ = false := setAt_same _ _ _
        rw [this] at hk; simp at hk
    have hgt := hIt.geo hA
    have hpost := hmid.hhR ho hκ hκd hgt
    have hsp2 := householderR_spec ho t.str t.B t.fp hκ (hgt.diag κ hκd) (hgt.le κ hκd)
      (fun k hk r hr hrn => hmid.1.qr.vsupp k hk r (le_trans (hgt.mono k κ (by omega) hκd) hr) hrn)
      (hmid.1.bz κ hκd) (hgt.supp κ hκd) hmid.2
    have hV : (t.hhR o κ).fp.V = s.fp.V := hsp2.2.V.trans hf2.V
    have hRc : ∀ i < κ, (t.hhR o κ).fp.R i = s.fp.R i := by
      intro i hi
      have h3 := hsp2.2.R i (by omega)
      show (householderR o t.str t.B κ t.fp).R i = _
      rw [h3, hf2.R i (by omega)]
    refine ⟨hIt, ?_, hpost, fun u => ?_, hRc⟩
    · refine hb.cfgp _ _ (hzs.trans ((zs_fp κ _ _ _).trans (hhR_zs o κ κ _))) hc
    · refine (hsp u).congr (fun j _ hj => hRc j (by have := seyHi_le κ u; omega)) fun r _ hr => ?_
      rw [hpost.2.r r (by have := hgt.diag κ hκd; have := seyHi_le κ u
                          show r < nmaxOf t.str κ; omega), hV]
      rfl
  · intro ht hr
    exact hst ht hr rfl

/-! ### The two instances -/

theorem SeqSey.zs {κ : ℕ} {s s' : Lat ℝ} (h : ZSteps κ s s') (hs : SeqSey s) : SeqSey s' := by
  have f := h.frame
  unfold SeqSey
  rw [f.fastLong, f.numS, f.d, f.parThr]; exact hs

theorem seysenBlock_spec (ho : Exact o) (n κ : ℕ) :
    BlkSpec (1 / 2) n κ (fun s => SeqSey s ∧ κ < s.d) (ExactTies o) (seysenBlock o κ) := by
  constructor
  · intro t q; exact seysenBlock_zs o q
  · intro s s' h hc
    exact ⟨hc.1.zs h, by rw [h.frame.d]; exact hc.2⟩
  · intro t q; exact (seysenBlock_frame κ _ _ q).1
  · intro t q; exact (seysenBlock_frame κ _ _ q).2
  · intro t q str V B0 R0 hc hs hq hl h
    obtain ⟨tmp, vx, e⟩ := seysenBlock_eq (o := o) κ t q hc.1 hc.2
    rw [e]
    refine h.next (seysenUpdateLoop_spec ho hq hl (seyHi_le κ t) (seyHi κ t - seyLo κ t)
      (by have := seyLo_le κ t; omega) q.s _ false hs hc.1.1 (fun _ _ _ => rfl)
      (h.begin ho hq q.tmpcol q.vectx)).1
  · intro ht t q hc hd hr
    obtain ⟨tmp, vx, e⟩ := seysenBlock_eq (o := o) κ t q hc.1 hc.2
    rw [e]
    simp only []
    obtain ⟨x, x1, x2⟩ := hr
    have hlh := seyLo_le κ t
    have hk := seyHi_le κ t
    have hu := seysenSolve_unique ho q.s.fp.R (seyLo κ t) (seyHi κ t - seyLo κ t) x
      (fun j _ h2 => hd j (by omega))
      (fun i => if seyLo κ t ≤ i ∧ i < seyHi κ t then q.s.fp.R κ i else q.tmpcol i, q.vectx)
      (fun r a b => by
        simp only []
        rw [if_pos ⟨a, by omega⟩, x2 r a (by omega)]
        rw [show seyLo κ t + (seyHi κ t - seyLo κ t) = seyHi κ t by omega])
    set y := (seysenSolve o q.s.fp.R (seyLo κ t) (seyHi κ t - seyLo κ t)
      (fun i => if seyLo κ t ≤ i ∧ i < seyHi κ t then q.s.fp.R κ i else q.tmpcol i, q.vectx)).2
      with hy
    -- every multiplier is rounded to zero
    have none : ∀ m, seyLo κ t + m ≤ seyHi κ t → ∀ vx : ℕ → ℝ,
        (∀ j, seyLo κ t ≤ j → j < seyLo κ t + m → vx j = x j) → ∀ b,
        (seysenUpdateLoop o κ (seyLo κ t) m (q.s, vx, b)).2.2 = b := by
      intro m
      induction m with
      | zero => intro _ _ _ b; rfl
      | succ m ih =>
        intro hm vx hv b
        simp only [seysenUpdateLoop]
        unfold seysenUpdateStep
        simp only []
        rw [hv _ (by omega) (by omega), ht.tie _ (x1 _ (by omega) (by omega)),
          if_pos ((ho.isZero 0).mpr rfl)]
        refine ih (by omega) _ (fun j a b' => ?_) b
        rw [setAt_ne _ _ (by omega)]; exact hv j a (by omega)
    rw [none _ (by omega) y hu]
    simp

theorem nsBlock_spec (ho : Exact o) (n κ : ℕ) (thr : ℝ) (ht : 1 / 2 ≤ thr) :
    BlkSpec thr n κ (fun _ => True) True (nsBlock o thr κ) := by
  have fr : ∀ t q, (∃ R, (nsBlock o thr κ (2 ^ t) (κ % 2 ^ t) q).s.fp = { q.s.fp with R := R } ∧
      ∀ c, c ≠ κ → R c = q.s.fp.R c) ∧ ((nsBlock o thr κ (2 ^ t) (κ % 2 ^ t) q).somedone = false →
      (nsBlock o thr κ (2 ^ t) (κ % 2 ^ t) q).s = q.s ∧ q.somedone = false) := by
    intro t q
    obtain ⟨tmp, vx, e⟩ := nsBlock_eq (o := o) thr κ t q
    rw [e]
    simp only []
    constructor
    · obtain ⟨u, e1⟩ := nsUpdateR_eq (o := o) κ (seyLo κ t) (fun i => !(o.lt thr (o.abs
        ((seysenSolve o q.s.fp.R (seyLo κ t) (seyHi κ t - seyLo κ t)
          (fun i => if seyLo κ t ≤ i ∧ i < seyHi κ t then q.s.fp.R κ i else q.tmpcol i,
            q.vectx)).2 i)))) ((seysenSolve o q.s.fp.R (seyLo κ t) (seyHi κ t - seyLo κ t)
          (fun i => if seyLo κ t ≤ i ∧ i < seyHi κ t then q.s.fp.R κ i else q.tmpcol i,
            q.vectx)).2) (seyHi κ t - seyLo κ t) q.s
      obtain ⟨U, u', e2⟩ := nsUpdateB_eq (o := o) κ (seyLo κ t) (fun i => !(o.lt thr (o.abs
        ((seysenSolve o q.s.fp.R (seyLo κ t) (seyHi κ t - seyLo κ t)
          (fun i => if seyLo κ t ≤ i ∧ i < seyHi κ t then q.s.fp.R κ i else q.tmpcol i,
            q.vectx)).2 i)))) ((seysenSolve o q.s.fp.R (seyLo κ t) (seyHi κ t - seyLo κ t)
          (fun i => if seyLo κ t ≤ i ∧ i < seyHi κ t then q.s.fp.R κ i else q.tmpcol i,
            q.vectx)).2) (seyHi κ t - seyLo κ t) _
      rw [e2, e1]
      exact ⟨_, rfl, fun c hc => nsR_ne κ _ _ _ _ c hc _⟩
    · intro h
      simp only [Bool.or_eq_false_iff, List.any_eq_false, List.mem_range] at h
      obtain ⟨h1, h2⟩ := h
      obtain ⟨a, b⟩ := nsUpdate_none (o := o) κ (seyLo κ t) (fun i => !(o.lt thr (o.abs
        ((seysenSolve o q.s.fp.R (seyLo κ t) (seyHi κ t - seyLo κ t)
          (fun i => if seyLo κ t ≤ i ∧ i < seyHi κ t then q.s.fp.R κ i else q.tmpcol i,
            q.vectx)).2 i)))) ((seysenSolve o q.s.fp.R (seyLo κ t) (seyHi κ t - seyLo κ t)
          (fun i => if seyLo κ t ≤ i ∧ i < seyHi κ t then q.s.fp.R κ i else q.tmpcol i,
            q.vectx)).2) (seyHi κ t - seyLo κ t) (fun j hj => by simpa using h2 j hj) q.s
      rw [a, b]
      exact ⟨rfl, h1⟩
  constructor
  · intro t q; exact nsBlock_zs o thr q
  · intros; trivial
  · intro t q; exact (fr t q).1
  · intro t q; exact (fr t q).2
  · intro t q str V B0 R0 _ hs hq hl h
    obtain ⟨tmp, vx, e⟩ := nsBlock_eq (o := o) thr κ t q
    rw [e]
    simp only []
    set y := (seysenSolve o q.s.fp.R (seyLo κ t) (seyHi κ t - seyLo κ t)
      (fun i => if seyLo κ t ≤ i ∧ i < seyHi κ t then q.s.fp.R κ i else q.tmpcol i, q.vectx)).2
      with hy
    obtain ⟨u, e1⟩ := nsUpdateR_eq (o := o) κ (seyLo κ t) (fun i => !(o.lt thr (o.abs (y i)))) y
      (seyHi κ t - seyLo κ t) q.s
    obtain ⟨U, u', e2⟩ := nsUpdateB_eq (o := o) κ (seyLo κ t) (fun i => !(o.lt thr (o.abs (y i)))) y
      (seyHi κ t - seyLo κ t) (nsUpdateR o κ (seyLo κ t) (fun i => !(o.lt thr (o.abs (y i)))) y
      (seyHi κ t - seyLo κ t) q.s)
    rw [e2, e1]
    simp only []
    rw [hs]
    refine h.next (ns_spec ho ht q.s.fastLong _ hq hl (seyHi_le κ t) ?_ (seyHi κ t - seyLo κ t)
      (by have := seyLo_le κ t; omega) _ _ (h.begin ho hq q.tmpcol q.vectx))
    intro j hj
    rw [Bool.not_eq_true', Bool.eq_false_iff, Ne, ho.lt, ho.abs, not_lt] at hj
    exact hj
  · intro _ t q _ hd hr
    obtain ⟨tmp, vx, e⟩ := nsBlock_eq (o := o) thr κ t q
    rw [e]
    simp only []
    obtain ⟨x, x1, x2⟩ := hr
    have hlh := seyLo_le κ t
    have hk := seyHi_le κ t
    have hu := seysenSolve_unique ho q.s.fp.R (seyLo κ t) (seyHi κ t - seyLo κ t) x
      (fun j _ h2 => hd j (by omega))
      (fun i => if seyLo κ t ≤ i ∧ i < seyHi κ t then q.s.fp.R κ i else q.tmpcol i, q.vectx)
      (fun r a b => by
        simp only []
        rw [if_pos ⟨a, by omega⟩, x2 r a (by omega)]
        rw [show seyLo κ t + (seyHi κ t - seyLo κ t) = seyHi κ t by omega])
    have : ((List.range (seyHi κ t - seyLo κ t)).any fun j => !!(o.lt thr (o.abs
        ((seysenSolve o q.s.fp.R (seyLo κ t) (seyHi κ t - seyLo κ t)
          (fun i => if seyLo κ t ≤ i ∧ i < seyHi κ t then q.s.fp.R κ i else q.tmpcol i,
            q.vectx)).2 (seyLo κ t + j))))) = false := by
      rw [List.any_eq_false]
      intro j hj
      have hj' := List.mem_range.mp hj
      rw [hu _ (by omega) (by omega), Bool.not_not, ho.lt, ho.abs, not_lt]
      exact x1 _ (by omega) (by omega)
    rw [this, Bool.or_false]

end HPLLL
