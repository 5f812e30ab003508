import Verif.Proof.Sey0Exact
/-! `seysenreduce0` in exact arithmetic, every block in the sequential branch, long flag set. -/

namespace HPLLL
open Spec Finset

variable {o : FPOps ℝ}

/-! ### The blocks are those of `seysenreduce` up to the report -/

theorem sey0Solve_fst {F : Type} (o : FPOps F) (thr theta : F) (R : Mat F) (lo m : ℕ) :
    ∀ q : (ℕ → F) × (ℕ → F) × (ℕ → Bool) × Bool,
      (sey0Solve o thr theta R lo m q).1 = (seysenSolve o R lo m (q.1, q.2.1)).1 ∧
      (sey0Solve o thr theta R lo m q).2.1 = (seysenSolve o R lo m (q.1, q.2.1)).2 := by
  induction m with
  | zero => intro q; exact ⟨rfl, rfl⟩
  | succ m ih =>
    intro q
    simp only [sey0Solve, seysenSolve]
    exact ih _

/-- Same object and work columns. -/
def SameWork {F : Type} (q q' : SeyState F) : Prop :=
  q.s = q'.s ∧ q.tmpcol = q'.tmpcol ∧ q.vectx = q'.vectx

theorem sey0Block_seq (thr theta : ℝ) (κ t : ℕ) (q : SeyState ℝ × (ℕ → Bool)) (q' : SeyState ℝ)
    (h : SameWork q.1 q') (hs : SeqSey q'.s) (hκ : κ < q'.s.d) :
    SameWork (sey0Block o thr theta κ (2 ^ t) (κ % 2 ^ t) q).1
      (seysenBlock o κ (2 ^ t) (κ % 2 ^ t) q') := by
  obtain ⟨e1, e2, e3⟩ := h
  obtain ⟨a, b, c⟩ := seyBlk_bounds κ t
  have hc : q'.s.numS = 1 ∨ (((if κ / 2 ^ t % 2 = 0 then 0 else 2 ^ t : ℕ)) : ℤ) < q'.s.parThr := by
    rcases hs.2 with h | h
    · left; exact h
    · right
      have : (((if κ / 2 ^ t % 2 = 0 then 0 else 2 ^ t : ℕ)) : ℤ) ≤ κ := by exact_mod_cast c
      omega
  unfold sey0Block seysenBlock
  simp only [e1, e2, e3]
  rw [if_pos hc, if_pos hc]
  simp only [(sey0Solve_fst o thr theta _ _ _ _).1, (sey0Solve_fst o thr theta _ _ _ _).2]
  exact ⟨rfl, rfl, rfl⟩

theorem sey0Blocks_seq (ho : Exact o) (thr theta : ℝ) (n κ fuel : ℕ) :
    ∀ (t : ℕ) (q : SeyState ℝ × (ℕ → Bool)) (q' : SeyState ℝ), SameWork q.1 q' → SeqSey q'.s →
    κ < q'.s.d →
    SameWork (sey0Blocks o thr theta κ fuel (2 ^ t) (κ % 2 ^ t) q).1
      (blocksG (seysenBlock o κ) κ fuel (2 ^ t) (κ % 2 ^ t) q') := by
  have hb := seysenBlock_spec ho n κ
  induction fuel with
  | zero => intro t q q' h _ _; exact h
  | succ fuel ih =>
    intro t q q' h hs hκ
    simp only [sey0Blocks, blocksG]
    split
    · rw [(seysen_offset κ t).1, ← pow_succ]
      obtain ⟨c1, c2⟩ := hb.cfgp _ _ (hb.zs t q') ⟨hs, hκ⟩
      exact ih (t + 1) _ _ (sey0Block_seq thr theta κ t q q' h hs hκ) c1 c2
    · exact h

/-! ### The loop -/

theorem sey0Loop_seq (ho : Exact o) {n d κ : ℕ} {A : Mat Int} {s0 : Lat ℝ} (hκ : 0 < κ) (hκd : κ < d)
    (hA : FullColumnRank (toMatrix n d A)) (hs0 : SeqSey s0) (hd0 : s0.d = d)
    (hq : QRv n s0.str s0.B s0.fp.V s0.fp.R κ)
    (hv : ∀ k < κ, ∀ r, nmaxOf s0.str κ ≤ r → r < n → s0.fp.V k r = 0)
    (thr : ℝ) (fuel : ℕ) :
    ∀ (t v : ℕ → ℝ) (bd : ℕ → Bool) (u : Lat ℝ) (st : ℤ) (s' : Lat ℝ), S0Inv n d A κ s0 u →
    sey0Loop o thr κ fuel t v bd (u.hhR o κ) = some (st, s') →
    st = 0 ∧ S0Inv n d A κ s0 { s' with fp := { s'.fp with
        Bfp := setCol s'.fp.Bfp κ fun _ => 0, colKept := setAt s'.fp.colKept κ false } } ∧
      ∀ u, BlkOK (1 / 2) s0.fp.R (Ex.app n s0.fp.V κ (bv n s'.B κ)) (seyLo κ u) (seyHi κ u) := by
  have hb := seysenBlock_spec ho n κ
  induction fuel with
  | zero => intro t v bd u st s' _ h; simp [sey0Loop] at h
  | succ fuel ih =>
    intro t v bd u st s' hI h
    obtain ⟨hP, hF⟩ := hI.spec ho hκ hκd hA hv
    have hg := hI.inv.geo hA
    have hS : SeqSey (u.hhR o κ) := by
      have f := hI.fr
      show u.fastLong = true ∧ (u.numS = 1 ∨ (u.d : ℤ) ≤ u.parThr)
      rw [f.fastLong, f.numS, f.d, f.parThr]; exact hs0
    have hud : κ < (u.hhR o κ).d := by
      show κ < u.d
      rw [hI.fr.d, hd0]; exact hκd
    have hRc : ∀ j, j ≠ κ → (u.hhR o κ).fp.R j = s0.fp.R j := fun j hj =>
      (hF.R j hj).trans (hI.R j hj)
    have hVc : (u.hhR o κ).fp.V = s0.fp.V := hF.V.trans hI.V
    simp only [sey0Loop] at h
    set θ := o.mul (o.sqrt ((u.hhR o κ).fp.normB2 κ)) o.eps with hθ
    set q := sey0Blocks o thr θ κ (κ + 1) 1 0
      ({ s := u.hhR o κ, tmpcol := t, vectx := v, somedone := false }, bd) with hqd
    -- the same blocks as in `seysenreduce`
    have hsame := sey0Blocks_seq ho thr θ n κ (κ + 1) 0
      ({ s := u.hhR o κ, tmpcol := t, vectx := v, somedone := false }, bd)
      { s := u.hhR o κ, tmpcol := t, vectx := v, somedone := false } ⟨rfl, rfl, rfl⟩ hS hud
    obtain ⟨⟨R, eR, fR⟩, -, hz⟩ := blocksG_frame hb (κ + 1) 0
      { s := u.hhR o κ, tmpcol := t, vectx := v, somedone := false }
    have hpow : κ < 2 ^ (0 + (κ + 1)) := by
      rw [zero_add]; exact (Nat.lt_succ_self κ).trans (Nat.lt_two_pow_self (n := κ + 1))
    have hqu : QRv n (u.hhR o κ).str (u.hhR o κ).B (u.hhR o κ).fp.V (u.hhR o κ).fp.R κ := by
      refine hq.congr (fun k _ => ?_) (fun k hk => hI.fr.Bcol k (by omega))
        (fun k _ => by rw [hVc]) (fun k hk => hRc k (by omega))
      show u.str k = s0.str k
      rw [hI.fr.str]
    have hsp := blocksG_spec hb hqu (fun i hi => hg.supp i (by omega)) (κ + 1) 0
      { s := u.hhR o κ, tmpcol := t, vectx := v, somedone := false } hpow ⟨hS, hud⟩ rfl
      ⟨fun _ _ => rfl, fun _ _ => rfl, fun r hr => by
        rw [hVc]
        have h1 := seyHi_le κ 0
        have h2 := hg.diag κ hκd
        rw [← hI.V]
        exact (hF.V ▸ hP.r r (by rw [← hI.fr.str]; omega) :), fun u hu => by omega⟩
    rw [pow_zero, Nat.mod_one] at hsame eR hz hsp
    rw [← hqd] at hsame
    set g := blocksG (seysenBlock o κ) κ (κ + 1) 1 0
      { s := u.hhR o κ, tmpcol := t, vectx := v, somedone := false }
    simp only [] at eR fR hz hsp
    rw [← hsame.1] at eR hz hsp
    have hI1 : LInv n d A False (u.hhR o κ) := hI.inv.congr rfl rfl rfl rfl rfl rfl rfl rfl
    have hI2 : LInv n d A False q.1.s := hI1.zsteps hκd hz
    have next : ∀ Bf : ℕ → ℝ, (∀ r, nmaxOf s0.str κ ≤ r → r < n → Bf r = 0) →
        S0Inv n d A κ s0 { q.1.s with fp := { q.1.s.fp with
          Bfp := setCol q.1.s.fp.Bfp κ Bf, colKept := setAt q.1.s.fp.colKept κ false } } := by
      intro Bf hBf
      refine ⟨hI2.congr rfl rfl rfl rfl rfl rfl rfl rfl, ?_, ?_, ?_, ?_, setAt_same _ _ _⟩
      · show q.1.s.fp.V = _
        rw [eR]; exact hVc
      · intro c hc
        show q.1.s.fp.R c = _
        rw [eR]; exact (fR c hc).trans (hRc c hc)
      · refine hI.fr.trans' ?_
        have f1 : Frame κ u (u.hhR o κ) := by constructor <;> intros <;> rfl
        refine f1.trans' (hz.frame.trans' ?_)
        constructor <;> intros <;> rfl
      · intro r h1 h2
        show setCol q.1.s.fp.Bfp κ Bf κ r = 0
        rw [setCol_same]; exact hBf r h1 h2
    split at h
    · refine ih _ _ _ { q.1.s with fp := { q.1.s.fp with
          colKept := setAt q.1.s.fp.colKept κ false } } st s' ?_ h
      have := next (q.1.s.fp.Bfp κ) (fun r h1 h2 => by
        rw [eR]
        show (u.hhR o κ).fp.Bfp κ r = 0
        rw [hP.bfp r h2]
        simp only [bv, if_pos h2]
        rw [hg.supp κ hκd r (by rw [hI.fr.str]; exact h1) h2]
        simp)
      rwa [show setCol q.1.s.fp.Bfp κ (q.1.s.fp.Bfp κ) = q.1.s.fp.Bfp from by
        funext c; by_cases hc : c = κ
        · subst hc; rw [setCol_same]
        · rw [setCol_ne _ _ hc]] at this
    · simp only [Option.some.injEq, Prod.mk.injEq] at h
      obtain ⟨h0, rfl⟩ := h
      refine ⟨h0.symm, next (fun _ => 0) (fun _ _ _ => rfl), fun w => ?_⟩
      have := hsp w
      rw [hVc] at this
      refine this.congr (fun j _ hj => ?_) fun _ _ _ => rfl
      exact (hRc j (by have := seyHi_le κ w; omega)).symm

/-- The exact statement for one call on an object after `householder()`. -/
theorem seysenreduce0_seq (ho : Exact o) {n d κ : ℕ} {A : Mat Int} (hκ : 0 < κ) (hκd : κ < d)
    (hdn : d ≤ n) (hA : FullColumnRank (toMatrix n d A)) (s : Lat ℝ) (hI : LInv n d A False s)
    (hp : SeqSey s) (hk : s.fp.colKept κ = false) (hkk : (s.householder o).fp.colKept = s.fp.colKept)
    (hbz : ∀ r, nmaxOf s.str κ ≤ r → r < n → s.fp.Bfp κ r = 0)
    (thr : ℝ) (fuel : ℕ) (st : ℤ) (s' : Lat ℝ)
    (h : seysenreduce0 o thr fuel κ (s.householder o) = some (st, s')) :
    st = 0 ∧ (∀ j, j ≠ κ → s'.B j = s.B j) ∧ SeysenCol (1 / 2) (toMatrix n d s'.B) ⟨κ, hκd⟩ := by
  have hg := hI.geo hA
  have hB : FullColumnRank (toMatrix n d s.B) := by
    obtain ⟨W, hW, e, _⟩ := hI.uni
    rw [e]; exact fcr_mul_unit hW hA
  obtain ⟨v1, v2⟩ := hhAll_vsupp ho s.B s.str hg s.fp d le_rfl
  have hq0 := hhAll_spec ho s.B s.fp hB hdn d le_rfl
  have hfp : (s.householder o).fp = (List.range d).foldl (fun p κ => hhAllCol o n d s.B κ p) s.fp := by
    unfold Lat.householder; rw [hI.hn, hI.hd]
  simp only [] at v1 v2 hq0
  rw [← hfp] at v1 v2 hq0
  set s0 := s.householder o with hs0
  have hqs : QRv n s0.str s0.B s0.fp.V s0.fp.R κ :=
    ⟨fun k hk => hq0.vnorm k (by omega), fun k hk => v1 k (by omega),
      fun k hk => hq0.rdef k (by omega), fun k hk => hq0.rzero k (by omega),
      fun k hk => hq0.rdiag k (by omega)⟩
  unfold seysenreduce0 at h
  simp only [] at h
  obtain ⟨hst, hw, hred⟩ := sey0Loop_seq ho (n := n) (d := d) (A := A) (s0 := s0) hκ hκd hA hp hI.hd hqs
    (fun k hk r h1 h2 => v1 k (by omega) r ((hg.mono k κ (by omega) hκd).trans h1) h2) thr fuel _ _ _
    { s0 with fp := { s0.fp with nmaxkappa := nmaxOf s0.str κ } } st s'
    ⟨hI.congr rfl rfl rfl rfl rfl rfl rfl rfl, rfl, fun _ _ => rfl, by constructor <;> intros <;> rfl,
      fun r h1 h2 => by
        show s0.fp.Bfp κ r = 0
        rw [v2]; exact hbz r h1 h2,
      by show s0.fp.colKept κ = false
         rw [hkk]; exact hk⟩ h
  have hV : s'.fp.V = s0.fp.V := hw.V
  have hR : ∀ c, c ≠ κ → s'.fp.R c = s0.fp.R c := hw.R
  have hBc : ∀ j, j ≠ κ → s'.B j = s.B j := hw.fr.Bcol
  refine ⟨hst, hBc, ?_⟩
  have hwB : FullColumnRank (toMatrix n d s'.B) := by
    obtain ⟨W, hW, e, _⟩ := hw.inv.uni
    rw [show s'.B = _ from rfl] at e
    rw [show toMatrix n d s'.B = toMatrix n d A * W from e]; exact fcr_mul_unit hW hA
  have hq1 : QRv n (fun _ => (n : ℤ) - 1) s'.B s'.fp.V s'.fp.R κ :=
    (hq0.mono (by omega)).congr (fun _ _ => rfl) (fun k hk => hBc k (by omega))
      (fun k _ => by rw [hV]) (fun k hk => hR k (by omega))
  obtain ⟨q1, q2, q3⟩ := hhAll_from ho s'.B hwB hdn κ (d - κ) s'.fp (by omega) hq1
  rw [show κ + (d - κ) = d by omega] at q1
  set q := (List.range' κ (d - κ)).foldl (fun p κ => hhAllCol o n d s'.B κ p) s'.fp with hqd
  refine q1.seysenCol hdn ⟨κ, hκd⟩ fun t => ?_
  have hkt := seyHi_le κ t
  refine (hred t).congr (fun j _ hj => ?_) fun r _ hr => ?_
  · rw [q3 j (by omega), hR j (by omega)]
  · rw [q1.rdef κ hκd r (by omega), Ex.app_succ_lt _ _ _ _ _ (by omega),
      Ex.app_congrV n q.V s0.fp.V κ fun k hk => (q2 k hk).trans (by rw [hV])]

end HPLLL
