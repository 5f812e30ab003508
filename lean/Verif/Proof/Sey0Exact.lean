import Verif.Proof.HhIdem
import Verif.Proof.SeyBlocks
import Verif.Proof.SeyGS
import Verif.Proof.HhAll
/-! `seysenreduce0` in exact arithmetic, every block in the parallel branch. -/

namespace HPLLL
open Spec Finset

variable {o : FPOps ℝ}

/-! ### The blocks -/

theorem sey0Solve_exact (ho : Exact o) {thr theta c : ℝ} (R : Mat ℝ) (lo m : ℕ)
    (hθ : 0 ≤ theta) (hd : ∀ j, lo ≤ j → j < lo + m → R j j ≠ 0)
    (hc : ∀ j, lo ≤ j → j < lo + m → thr * (1 + theta / |R j j|) ≤ c) :
    ∀ q : (ℕ → ℝ) × (ℕ → ℝ) × (ℕ → Bool) × Bool, (sey0Solve o thr theta R lo m q).2.2.2 = false →
      ∃ x : ℕ → ℝ, (∀ j, lo ≤ j → j < lo + m → |x j| ≤ c) ∧
        ∀ r, lo ≤ r → r < lo + m → q.1 r = ∑ j ∈ Ico r (lo + m), R j r * x j := by
  induction m with
  | zero => intro q _; exact ⟨fun _ => 0, fun j h1 h2 => by omega, fun r h1 h2 => by omega⟩
  | succ m ih =>
    intro q h
    simp only [sey0Solve] at h
    have hs := (sey0Solve_done o _ _ _ _ _ _ h).1
    obtain ⟨x, x1, x2⟩ := ih (fun j a b => hd j a (by omega)) (fun j a b => hc j a (by omega)) _ h
    simp only [Bool.or_eq_false_iff] at hs
    have hR := hd (lo + m) (by omega) (by omega)
    have hR' : 0 < |R (lo + m) (lo + m)| := abs_pos.mpr hR
    have hb : |q.1 (lo + m) / R (lo + m) (lo + m)| ≤ c := by
      have h1 : ¬ thr < |q.1 (lo + m) / (|R (lo + m) (lo + m)| + theta)| := by
        have := hs.2
        simp only [ho.abs, ho.div, ho.add] at this
        rw [← ho.lt, this]
        exact Bool.false_ne_true
      rw [not_lt, abs_div, abs_of_pos (show 0 < |R (lo + m) (lo + m)| + theta by linarith),
        div_le_iff₀ (by linarith)] at h1
      refine le_trans ?_ (hc (lo + m) (by omega) (by omega))
      rw [abs_div, div_le_iff₀ hR']
      refine h1.trans (le_of_eq ?_)
      field_simp
    refine ⟨fun j => if j = lo + m then q.1 (lo + m) / R (lo + m) (lo + m) else x j,
      fun j a b => ?_, fun r a b => ?_⟩
    · simp only []
      split
      · exact hb
      · exact x1 j a (by omega)
    · rw [show lo + (m + 1) = lo + m + 1 by omega, sum_Ico_succ_top (by omega)]
      simp only [if_true]
      by_cases hr : r = lo + m
      · subst hr
        rw [Ico_self, sum_empty, zero_add]
        field_simp
      · have := x2 r a (by omega)
        simp only [] at this
        rw [if_pos ⟨a, by omega⟩, ho.submul, ho.div] at this
        have e : ∑ j ∈ Ico r (lo + m), R j r *
            (if j = lo + m then q.1 (lo + m) / R (lo + m) (lo + m) else x j) =
            ∑ j ∈ Ico r (lo + m), R j r * x j := by
          refine sum_congr rfl fun j hj => ?_
          have := mem_Ico.mp hj
          rw [if_neg (by omega)]
        rw [e]
        linarith

theorem sey0Block_exact (ho : Exact o) {thr theta c : ℝ} (κ t : ℕ) (hθ : 0 ≤ theta)
    (q : SeyState ℝ × (ℕ → Bool)) (hd : ∀ j < κ, q.1.s.fp.R j j ≠ 0)
    (hc : ∀ j < κ, thr * (1 + theta / |q.1.s.fp.R j j|) ≤ c)
    (h : (sey0Block o thr theta κ (2 ^ t) (κ % 2 ^ t) q).1.somedone = false) :
    BlkOK c q.1.s.fp.R (q.1.s.fp.R κ) (seyLo κ t) (seyHi κ t) := by
  obtain ⟨b1, b2, b3⟩ := seyBlk_bounds κ t
  have hlh := seyLo_le κ t
  have hk := seyHi_le κ t
  have e : κ - κ % 2 ^ t - (κ - κ % 2 ^ t - (if κ / 2 ^ t % 2 = 0 then 0 else 2 ^ t)) =
      seyHi κ t - seyLo κ t := by rw [b1, b2]
  unfold sey0Block at h
  simp only [] at h
  rw [e, b1, b2] at h
  generalize (if κ / 2 ^ t % 2 = 0 then 0 else 2 ^ t) = bd at h
  have hs : (sey0Solve o thr theta q.1.s.fp.R (seyLo κ t) (seyHi κ t - seyLo κ t)
      (fun i => if seyLo κ t ≤ i ∧ i < seyHi κ t then q.1.s.fp.R κ i else q.1.tmpcol i,
        q.1.vectx, q.2, q.1.somedone)).2.2.2 = false := by
    revert h; split <;> exact fun h => h
  obtain ⟨x, x1, x2⟩ := sey0Solve_exact ho q.1.s.fp.R (seyLo κ t) (seyHi κ t - seyLo κ t) hθ
    (fun j _ b => hd j (by omega)) (fun j _ b => hc j (by omega)) _ hs
  rw [show seyLo κ t + (seyHi κ t - seyLo κ t) = seyHi κ t by omega] at x1 x2
  refine ⟨x, x1, fun r a b => ?_⟩
  have := x2 r a b
  simp only [] at this
  rwa [if_pos ⟨a, b⟩] at this

theorem SameBut.fp {s s' : Lat ℝ} (h : SameBut s s') : s'.fp = s.fp := by
  obtain ⟨b, rfl⟩ := h; rfl

theorem sey0Blocks_exact (ho : Exact o) {thr theta c : ℝ} (κ : ℕ) (hθ : 0 ≤ theta) (fuel : ℕ) :
    ∀ (t : ℕ) (q : SeyState ℝ × (ℕ → Bool)), κ < 2 ^ (t + fuel) → AllPar q.1.s →
    (∀ j < κ, q.1.s.fp.R j j ≠ 0) → (∀ j < κ, thr * (1 + theta / |q.1.s.fp.R j j|) ≤ c) →
    (sey0Blocks o thr theta κ fuel (2 ^ t) (κ % 2 ^ t) q).1.somedone = false →
    ∀ u, t ≤ u → BlkOK c q.1.s.fp.R (q.1.s.fp.R κ) (seyLo κ u) (seyHi κ u) := by
  have fin : ∀ (t u : ℕ) (R : Mat ℝ), κ < 2 ^ t → t ≤ u →
      BlkOK c R (R κ) (seyLo κ u) (seyHi κ u) := by
    intro t u R ht hu
    have := seyHi_zero (κ := κ) (t := u) (lt_of_lt_of_le ht (Nat.pow_le_pow_right (by decide) hu))
    exact ⟨fun _ => 0, fun j _ b => by omega, fun j _ b => by omega⟩
  induction fuel with
  | zero => intro t q ht _ _ _ _ u hu; exact fin t u _ ht hu
  | succ fuel ih =>
    intro t q ht hp hd hc h u hu
    simp only [sey0Blocks] at h
    split at h
    · rename_i hk
      rw [(seysen_offset κ t).1, ← pow_succ] at h
      have f := (sey0Block_zsX o (idx := κ % 2 ^ t) thr theta hk q).frame
      have hp' : AllPar (sey0Block o thr theta κ (2 ^ t) (κ % 2 ^ t) q).1.s :=
        ⟨fun e => hp.1 (f.numS.symm.trans e), le_of_eq_of_le f.parThr hp.2⟩
      have h1 := (sey0Blocks_quiet o thr theta κ fuel _ _ _ (by positivity) hp' h).1
      have h2 := (sey0Block_quiet o thr theta κ _ _ (by positivity) q hp h1).2.fp
      rcases Nat.lt_or_ge t u with htu | htu
      · have := ih (t + 1) _ (by rw [show t + 1 + fuel = t + (fuel + 1) by omega]; exact ht) hp'
          (by rw [h2]; exact hd) (by rw [h2]; exact hc) h u htu
        rwa [h2] at this
      · obtain rfl : u = t := by omega
        exact sey0Block_exact ho κ u hθ q hd hc h1
    · exact fin t u _ (by omega) hu

/-! ### What the blocks write -/

theorem redR_other {F : Type} (o : FPOps F) (κ i len : Nat) (x : F) (R : Mat F) (c : Nat) (hc : c ≠ κ) :
    redR o κ i len x R c = R c := by
  unfold redR
  simp only [faddcol, fsubcol, fsubmulcol]
  split
  · split
    · rw [setCol_ne _ _ hc]
    · split <;> rw [setCol_ne _ _ hc]
  · rw [setCol_ne _ _ hc]

theorem seysenUpdateRLoop_col {F : Type} (o : FPOps F) (κ lo : ℕ) (bd : ℕ → Bool) (m : ℕ) :
    ∀ q : Lat F × (ℕ → F), ∃ R b, (seysenUpdateRLoop o κ lo bd m q).1 =
      { q.1 with fp := { q.1.fp with R := R }, ub := b } ∧ ∀ c, c ≠ κ → R c = q.1.fp.R c := by
  induction m with
  | zero => intro q; exact ⟨_, _, rfl, fun _ _ => rfl⟩
  | succ m ih =>
    intro q
    simp only [seysenUpdateRLoop]
    split
    · exact ih _
    · obtain ⟨R, b, h, h'⟩ := ih ({ q.1 with
        fp := { q.1.fp with R := redR o κ (lo + m) lo (o.rnd (q.2 (lo + m))) q.1.fp.R }
        ub := q.1.ub || !(decide (κ < q.1.d ∧ lo + m < q.1.d ∧ lo ≤ q.1.n)) },
          setAt q.2 (lo + m) (o.rnd (q.2 (lo + m))))
      exact ⟨R, b, h, fun c hc => (h' c hc).trans (redR_other o κ _ _ _ _ c hc)⟩

theorem sey0Block_fp {F : Type} (o : FPOps F) (thr theta : F) (κ ld idx : ℕ) (hld : 0 < ld)
    (q : SeyState F × (ℕ → Bool)) (hp : AllPar q.1.s) :
    ∃ R, (sey0Block o thr theta κ ld idx q).1.s.fp = { q.1.s.fp with R := R } ∧
      ∀ c, c ≠ κ → R c = q.1.s.fp.R c := by
  unfold sey0Block
  simp only []
  have hb : (if κ / ld % 2 = 0 then 0 else ld) = 0 ∨ 1 ≤ (if κ / ld % 2 = 0 then 0 else ld) := by omega
  generalize (if κ / ld % 2 = 0 then 0 else ld) = bd at hb ⊢
  generalize (sey0Solve o thr theta q.1.s.fp.R (κ - idx - bd) (κ - idx - (κ - idx - bd))
      (fun i => if κ - idx - bd ≤ i ∧ i < κ - idx then q.1.s.fp.R κ i else q.1.tmpcol i,
        q.1.vectx, q.2, q.1.somedone)) = tv
  split
  · rename_i hc
    rcases hc with hc | hc
    · exact absurd hc hp.1
    · have : bd = 0 := by
        rcases hb with hb | hb
        · exact hb
        · have := hp.2; omega
      subst this
      have hm : κ - idx - (κ - idx - 0) = 0 := by omega
      rw [hm]
      exact ⟨q.1.s.fp.R, rfl, fun _ _ => rfl⟩
  · obtain ⟨R, b, h, h'⟩ := seysenUpdateRLoop_col o κ (κ - idx - bd) tv.2.2.1
      (κ - idx - (κ - idx - bd)) (q.1.s, tv.2.1)
    exact ⟨R, by simp only [h], h'⟩

theorem sey0Blocks_fp {F : Type} (o : FPOps F) (thr theta : F) (κ fuel : ℕ) :
    ∀ (ld idx : ℕ) (q : SeyState F × (ℕ → Bool)), 0 < ld → AllPar q.1.s →
    ∃ R, (sey0Blocks o thr theta κ fuel ld idx q).1.s.fp = { q.1.s.fp with R := R } ∧
      ∀ c, c ≠ κ → R c = q.1.s.fp.R c := by
  induction fuel with
  | zero => intro ld idx q _ _; exact ⟨q.1.s.fp.R, rfl, fun _ _ => rfl⟩
  | succ fuel ih =>
    intro ld idx q hld hp
    simp only [sey0Blocks]
    split
    · rename_i hk
      have f := (sey0Block_zsX o (idx := idx) thr theta hk q).frame
      obtain ⟨R1, e1, f1⟩ := sey0Block_fp o thr theta κ ld idx hld q hp
      obtain ⟨R2, e2, f2⟩ := ih (ld * 2) (idx + if κ / ld % 2 = 0 then 0 else ld) _ (by omega)
        ⟨fun e => hp.1 (f.numS.symm.trans e), le_of_eq_of_le f.parThr hp.2⟩
      refine ⟨R2, by rw [e2, e1], fun c hc => ?_⟩
      rw [f2 c hc, e1]; exact f1 c hc
    · exact ⟨q.1.s.fp.R, rfl, fun _ _ => rfl⟩

/-! ### The loop -/

/-- Invariant at the recomputations of column `κ`; `s0` is the object at the call. -/
structure S0Inv (n d : ℕ) (A : Mat Int) (κ : ℕ) (s0 s : Lat ℝ) : Prop where
  inv : LInv n d A False s
  V : s.fp.V = s0.fp.V
  R : ∀ c, c ≠ κ → s.fp.R c = s0.fp.R c
  fr : Frame κ s0 s
  bz : ∀ r, nmaxOf s0.str κ ≤ r → r < n → s.fp.Bfp κ r = 0
  nk : s.fp.colKept κ = false

theorem S0Inv.spec (ho : Exact o) {n d κ : ℕ} {A : Mat Int} {s0 s : Lat ℝ} (h : S0Inv n d A κ s0 s)
    (hκ : 0 < κ) (hκd : κ < d) (hA : FullColumnRank (toMatrix n d A))
    (hv : ∀ k < κ, ∀ r, nmaxOf s0.str κ ≤ r → r < n → s0.fp.V k r = 0) :
    ColPost n (nmaxOf s0.str κ) κ (s.hhR o κ).fp (bv n s.B κ) ∧ HhFrame κ s.fp (s.hhR o κ).fp := by
  have hg := h.inv.geo hA
  have hs : s.str = s0.str := h.fr.str
  have := householderR_spec ho s.str s.B s.fp hκ (hg.diag κ hκd) (hg.le κ hκd)
    (fun k hk r h1 h2 => by rw [h.V]; exact hv k hk r (by rw [← hs]; exact h1) h2)
    (fun r h1 h2 => h.bz r (by rw [← hs]; exact h1) h2) (hg.supp κ hκd)
    (fun hk => by rw [h.nk] at hk; exact absurd hk (by simp))
  rw [hs] at this
  rw [← hs] at this ⊢
  exact this

theorem sey0Loop_exact (ho : Exact o) {n d κ : ℕ} {A : Mat Int} {s0 : Lat ℝ} (hκ : 0 < κ) (hκd : κ < d)
    (hA : FullColumnRank (toMatrix n d A)) (hp0 : AllPar s0)
    (hv : ∀ k < κ, ∀ r, nmaxOf s0.str κ ≤ r → r < n → s0.fp.V k r = 0)
    (hd : ∀ j < κ, s0.fp.R j j ≠ 0) (thr : ℝ) (fuel : ℕ) :
    ∀ (t v : ℕ → ℝ) (bd : ℕ → Bool) (u : Lat ℝ) (st : ℤ) (s' : Lat ℝ), S0Inv n d A κ s0 u →
    sey0Loop o thr κ fuel t v bd (u.hhR o κ) = some (st, s') →
    ∃ w : Lat ℝ, S0Inv n d A κ s0 w ∧ SameBut (w.hhR o κ) s' ∧
      ∀ c : ℝ, (∀ j < κ, thr * (1 + Real.sqrt ((w.hhR o κ).fp.normB2 κ) * o.eps / |s0.fp.R j j|) ≤ c) →
        SeyRed c κ (w.hhR o κ).fp.R := by
  induction fuel with
  | zero => intro t v bd u st s' _ h; simp [sey0Loop] at h
  | succ fuel ih =>
    intro t v bd u st s' hI h
    obtain ⟨hP, hF⟩ := hI.spec ho hκ hκd hA hv
    have hp : AllPar (u.hhR o κ) := ⟨fun e => hp0.1 (hI.fr.numS.symm.trans e),
      le_of_eq_of_le hI.fr.parThr hp0.2⟩
    have hθ : 0 ≤ o.mul (o.sqrt ((u.hhR o κ).fp.normB2 κ)) o.eps := by
      rw [ho.mul, ho.sqrt]; exact mul_nonneg (Real.sqrt_nonneg _) ho.eps
    have hRc : ∀ j < κ, (u.hhR o κ).fp.R j = s0.fp.R j := fun j hj =>
      (hF.R j (by omega)).trans (hI.R j (by omega))
    simp only [sey0Loop] at h
    split at h
    · have hz := sey0Blocks_zsX o (κ := κ) thr (o.mul (o.sqrt ((u.hhR o κ).fp.normB2 κ)) o.eps) (κ + 1) 1 0
        ({ s := u.hhR o κ, tmpcol := t, vectx := v, somedone := false }, bd)
      obtain ⟨R, eR, fR⟩ := sey0Blocks_fp o thr (o.mul (o.sqrt ((u.hhR o κ).fp.normB2 κ)) o.eps) κ (κ + 1)
        1 0 ({ s := u.hhR o κ, tmpcol := t, vectx := v, somedone := false }, bd) one_pos hp
      refine ih _ _ _ _ st s' ?_ h
      have hI1 : LInv n d A False (u.hhR o κ) := hI.inv.congr rfl rfl rfl rfl rfl rfl rfl rfl
      have hI2 := hI1.zstepsX hκd hz fun ht => ht.elim
      refine ⟨hI2.congr rfl rfl rfl rfl rfl rfl rfl rfl, ?_, ?_, ?_, ?_, ?_⟩
      · show (sey0Blocks o thr _ κ (κ + 1) 1 0 _).1.s.fp.V = _
        rw [eR]
        exact hF.V.trans hI.V
      · intro c hc
        show (sey0Blocks o thr _ κ (κ + 1) 1 0 _).1.s.fp.R c = _
        rw [eR]
        exact (fR c hc).trans ((hF.R c hc).trans (hI.R c hc))
      · refine hI.fr.trans' ?_
        have f1 : Frame κ u (u.hhR o κ) := by constructor <;> intros <;> rfl
        refine f1.trans' (hz.frame.trans' ?_)
        constructor <;> intros <;> rfl
      · intro r h1 h2
        show (sey0Blocks o thr _ κ (κ + 1) 1 0 _).1.s.fp.Bfp κ r = _
        rw [eR]
        show (u.hhR o κ).fp.Bfp κ r = 0
        rw [hP.bfp r h2]
        have hg := hI.inv.geo hA
        simp only [bv, if_pos h2]
        rw [hg.supp κ hκd r (by rw [hI.fr.str]; exact h1) h2]
        simp
      · exact setAt_same _ _ _
    · rename_i hdn
      have hdn' := (Bool.not_eq_true _).mp hdn
      simp only [Option.some.injEq, Prod.mk.injEq] at h
      obtain ⟨-, rfl⟩ := h
      refine ⟨u, hI, (sey0Blocks_quiet o thr _ κ (κ + 1) 1 0
        ({ s := u.hhR o κ, tmpcol := t, vectx := v, somedone := false }, bd) one_pos hp hdn').2, ?_⟩
      intro c hc t'
      have hpow : κ < 2 ^ (0 + (κ + 1)) := by
        rw [zero_add]; exact (Nat.lt_succ_self κ).trans (Nat.lt_two_pow_self (n := κ + 1))
      have key := sey0Blocks_exact ho (thr := thr) (c := c) κ hθ (κ + 1) 0
        ({ s := u.hhR o κ, tmpcol := t, vectx := v, somedone := false }, bd) hpow hp
        (fun j hj => by
          show (u.hhR o κ).fp.R j j ≠ 0
          rw [hRc j hj]; exact hd j hj)
        (fun j hj => by
          show thr * (1 + _ / |(u.hhR o κ).fp.R j j|) ≤ c
          rw [hRc j hj, ho.mul, ho.sqrt]; exact hc j hj)
      rw [pow_zero, Nat.mod_one] at key
      exact key hdn' t' (Nat.zero_le _)

/-! ### `householder()` before -/

theorem hhAllCol_vsupp (ho : Exact o) {n d κ nm : ℕ} (hκ : κ < n) (hκm : κ < nm) (B : Mat Int)
    (p : FPart ℝ) (hv : ∀ k < κ, ∀ r, nm ≤ r → r < n → p.V k r = 0)
    (hB : ∀ r, nm ≤ r → r < n → B κ r = 0) :
    (∀ c, c ≠ κ → (hhAllCol o n d B κ p).V c = p.V c) ∧
    (∀ c, c ≠ κ → (hhAllCol o n d B κ p).R c = p.R c) ∧
    (hhAllCol o n d B κ p).Bfp = p.Bfp ∧
    ∀ r, nm ≤ r → r < n → (hhAllCol o n d B κ p).V κ r = 0 := by
  set p1 : FPart ℝ := { p with R := fsetcolZ o p.R κ (B κ) n } with hp1
  have h1 : ∀ i < n, p1.R κ i = bv n B κ i := by
    intro i hi; simp only [hp1, fsetcolZ, setCol_same, bv, if_pos hi, ho.ofZ]
  obtain ⟨a, b, c⟩ := hhAllFold_spec ho (bv n B κ) κ hκ.le p1 h1
  have bf : ∀ (l : List ℕ) (p : FPart ℝ), (l.foldl (fun p k => hhAllApply o n κ k p) p).Bfp = p.Bfp := by
    intro l
    induction l with
    | nil => intro p; rfl
    | cons a l ih => intro p; rw [List.foldl_cons]; exact ih _
  have bf1 := bf (List.range κ) p1
  set p2 := (List.range κ).foldl (fun p k => hhAllApply o n κ k p) p1 with hp2
  have hz : ∀ r, nm ≤ r → r < n → p2.R κ r = 0 := by
    intro r h2 h3
    rw [a r h3]
    refine Ex.app_supp n p1.V κ nm _ ?_ hv r h2
    intro r h2
    simp only [bv]; split
    · rename_i hrn; rw [hB r h2 hrn]; simp
    · rfl
  have hcol : (hhAllCol o n d B κ p) = (let p' := { householderV o n κ { p2 with nmaxkappa := n } with
      nmaxkappa := p2.nmaxkappa }
    { p' with R := setCol p'.R κ fun i => if κ + 1 ≤ i ∧ i < d then o.zero else p'.R κ i }) := rfl
  rw [hcol]
  refine ⟨fun c' hc => ?_, fun c' hc => ?_, bf1, fun r h2 h3 => ?_⟩
  · show (householderV o n κ { p2 with nmaxkappa := n }).V c' = p.V c'
    simp only [householderV, fdivcol, setEntry]
    rw [setCol_ne _ _ hc, setCol_ne _ _ hc, setCol_ne _ _ hc]
    exact congrFun b c'
  · show setCol (householderV o n κ { p2 with nmaxkappa := n }).R κ _ c' = p.R c'
    rw [setCol_ne _ _ hc]
    simp only [householderV, setEntry]
    rw [setCol_ne _ _ hc]
    refine (c c' hc).trans ?_
    simp only [hp1, fsetcolZ]; rw [setCol_ne _ _ hc]
  · show (householderV o n κ { p2 with nmaxkappa := n }).V κ r = 0
    simp only [householderV, fdivcol, setEntry, setCol_same]
    rw [setAt_ne _ _ (by omega), if_neg (by omega), if_pos (by omega), ho.div]
    simp only [getcol, setCol_same]
    rw [show κ + 1 + (r - (κ + 1)) = r by omega, setAt_ne _ _ (by omega), hz r h2 h3, zero_div]

theorem hhAll_vsupp (ho : Exact o) {n d : ℕ} (B : Mat Int) (str : ℕ → ℤ) (hg : Geo n d str B)
    (p : FPart ℝ) (m : ℕ) (hm : m ≤ d) :
    let q := (List.range m).foldl (fun p κ => hhAllCol o n d B κ p) p
    (∀ k < m, ∀ r, nmaxOf str k ≤ r → r < n → q.V k r = 0) ∧ q.Bfp = p.Bfp := by
  induction m with
  | zero => exact ⟨fun k hk => by omega, rfl⟩
  | succ m ih =>
    simp only [List.range_succ, List.foldl_append, List.foldl_cons, List.foldl_nil] at ih ⊢
    obtain ⟨a, b⟩ := ih (by omega)
    set q := (List.range m).foldl (fun p κ => hhAllCol o n d B κ p) p
    have h1 := hg.diag m (by omega)
    have h2 := hg.le m (by omega)
    obtain ⟨c, _, e, f⟩ := hhAllCol_vsupp ho (d := d) (by omega : m < n) h1 B q
      (fun k hk r h3 h4 => a k hk r ((hg.mono k m (by omega) (by omega)).trans h3) h4)
      (hg.supp m (by omega))
    refine ⟨fun k hk r h3 h4 => ?_, e.trans b⟩
    rcases Nat.lt_succ_iff_lt_or_eq.1 hk with hk | rfl
    · rw [c k (by omega)]; exact a k hk r h3 h4
    · exact f r h3 h4

/-- Continuing `householder()` from column `a`. -/
theorem hhAll_from (ho : Exact o) {n d : ℕ} (B : Mat Int) (hA : FullColumnRank (toMatrix n d B))
    (hdn : d ≤ n) (a len : ℕ) : ∀ p : FPart ℝ, a + len ≤ d →
    QRv n (fun _ => (n : ℤ) - 1) B p.V p.R a →
    let q := (List.range' a len).foldl (fun p κ => hhAllCol o n d B κ p) p
    QRv n (fun _ => (n : ℤ) - 1) B q.V q.R (a + len) ∧ (∀ c < a, q.V c = p.V c) ∧
      (∀ c < a, q.R c = p.R c) := by
  induction len generalizing a with
  | zero => intro p _ h; exact ⟨h, fun _ _ => rfl, fun _ _ => rfl⟩
  | succ len ih =>
    intro p hl h
    simp only [List.range'_succ, List.foldl_cons]
    have h1 := hhAllCol_spec ho (n := n) (d := d) (κ := a) (by omega) B p h (gd_pos (by omega) hA)
      (gd_pos (by omega) hA)
    obtain ⟨h2, h3, _⟩ := hhAllCol_vsupp ho (d := d) (nm := n) (by omega : a < n) (by omega) B p
      (fun _ _ r _ _ => by omega) (fun r _ _ => by omega)
    obtain ⟨i1, i2, i3⟩ := ih (a + 1) (hhAllCol o n d B a p) (by omega) h1
    refine ⟨?_, fun c hc => ?_, fun c hc => ?_⟩
    · rw [show a + (len + 1) = a + 1 + len by omega]; exact i1
    · exact (i2 c (by omega)).trans (h2 c (by omega))
    · exact (i3 c (by omega)).trans (h3 c (by omega))

/-- The exact statement for one call on an object after `householder()`. -/
theorem seysenreduce0_col (ho : Exact o) {n d κ : ℕ} {A : Mat Int} (hκ : 0 < κ) (hκd : κ < d)
    (hdn : d ≤ n) (hA : FullColumnRank (toMatrix n d A)) (s : Lat ℝ) (hI : LInv n d A False s)
    (hp : AllPar s) (hk : s.fp.colKept κ = false) (hkk : (s.householder o).fp.colKept = s.fp.colKept)
    (hbz : ∀ r, nmaxOf s.str κ ≤ r → r < n → s.fp.Bfp κ r = 0)
    (thr : ℝ) (fuel : ℕ) (st : ℤ) (s' : Lat ℝ)
    (h : seysenreduce0 o thr fuel κ (s.householder o) = some (st, s')) (c : ℝ)
    (hc : ∀ j : Fin d, (j : ℕ) < κ → thr * (1 + o.eps * ‖colVec (toMatrix n d s'.B) ⟨κ, hκd⟩‖ /
      ‖gs (toMatrix n d s'.B) j‖) ≤ c) :
    SeysenCol c (toMatrix n d s'.B) ⟨κ, hκd⟩ := by
  have hg := hI.geo hA
  have hB : FullColumnRank (toMatrix n d s.B) := by
    obtain ⟨W, hW, e, _⟩ := hI.uni
    rw [e]; exact fcr_mul_unit hW hA
  obtain ⟨v1, v2⟩ := hhAll_vsupp ho s.B s.str hg s.fp d le_rfl
  have hq0 := hhAll_spec ho s.B s.fp hB hdn d le_rfl
  have hfp : (s.householder o).fp = (List.range d).foldl (fun p κ => hhAllCol o n d s.B κ p) s.fp := by
    unfold Lat.householder; rw [hI.hn, hI.hd]
  simp only [] at v1 v2 hq0
  rw [← hfp] at v1 v2 hq0
  set s0 := s.householder o with hs0
  have hstr : s0.str = s.str := rfl
  unfold seysenreduce0 at h
  simp only [] at h
  obtain ⟨w, hw, hsb, hred⟩ := sey0Loop_exact ho (n := n) (d := d) (A := A) (s0 := s0) hκ hκd hA hp
    (fun k hk r h1 h2 => v1 k (by omega) r ((hg.mono k κ (by omega) hκd).trans h1) h2)
    (fun j hj => hq0.rdiag j (by omega)) thr fuel _ _ _
    { s0 with fp := { s0.fp with nmaxkappa := nmaxOf s0.str κ } } st s'
    ⟨hI.congr rfl rfl rfl rfl rfl rfl rfl rfl, rfl, fun _ _ => rfl, by constructor <;> intros <;> rfl,
      fun r h1 h2 => by
        show s0.fp.Bfp κ r = 0
        rw [v2]; exact hbz r h1 h2,
      by show s0.fp.colKept κ = false
         rw [hkk]; exact hk⟩ h
  obtain ⟨hP, hF⟩ := hw.spec ho hκ hκd hA
    (fun k hk r h1 h2 => v1 k (by omega) r ((hg.mono k κ (by omega) hκd).trans h1) h2)
  have eB : s'.B = w.B := by obtain ⟨b, rfl⟩ := hsb; rfl
  rw [eB] at hc ⊢
  have hwg := hw.inv.geo hA
  have hwB : FullColumnRank (toMatrix n d w.B) := by
    obtain ⟨W, hW, e, _⟩ := hw.inv.uni
    rw [e]; exact fcr_mul_unit hW hA
  have hq1 : QRv n (fun _ => (n : ℤ) - 1) w.B (w.hhR o κ).fp.V (w.hhR o κ).fp.R κ :=
    (hq0.mono (by omega)).congr (fun _ _ => rfl) (fun k hk => hw.fr.Bcol k (by omega))
      (fun k _ => by rw [hF.V, hw.V]) (fun k hk => (hF.R k (by omega)).trans (hw.R k (by omega)))
  obtain ⟨q1, q2, q3⟩ := hhAll_from ho w.B hwB hdn κ (d - κ) (w.hhR o κ).fp (by omega) hq1
  rw [show κ + (d - κ) = d by omega] at q1
  set q := (List.range' κ (d - κ)).foldl (fun p κ => hhAllCol o n d w.B κ p) (w.hhR o κ).fp with hqd
  have hRκ : ∀ r < κ, q.R κ r = (w.hhR o κ).fp.R κ r := by
    intro r hr
    rw [q1.rdef κ hκd r (by omega), Ex.app_succ_lt _ _ _ _ _ hr, Ex.app_congrV n q.V (w.hhR o κ).fp.V κ q2,
      hP.r r (by have := hg.diag κ hκd; rw [hstr]; omega)]
  have hgs : ∀ j : Fin d, |q.R j j| = ‖gs (toMatrix n d w.B) j‖ := by
    intro j
    have h1 := q1.inner_gs hdn j j
    rw [inner_gs_self, if_pos le_rfl, ← sq, ← sq_abs (q.R j j)] at h1
    exact ((sq_eq_sq₀ (norm_nonneg _) (abs_nonneg _)).mp h1).symm
  have hnrm : Real.sqrt ((w.hhR o κ).fp.normB2 κ) = ‖colVec (toMatrix n d w.B) ⟨κ, hκd⟩‖ := by
    rw [hP.nrm, ← ofE_colVec (d := d) w.B ⟨κ, hκd⟩, ← inner_ofE, real_inner_self_eq_norm_sq,
      Real.sqrt_sq (norm_nonneg _)]
  refine q1.seysenCol hdn ⟨κ, hκd⟩ fun t => ?_
  have hk := seyHi_le κ t
  refine (hred c (fun j hj => ?_) t).congr (fun j _ hj => ?_) fun r _ hr => ?_
  · rw [hnrm]
    have := hc ⟨j, by omega⟩ hj
    rw [← hgs ⟨j, by omega⟩] at this
    have e : q.R j = s0.fp.R j := by
      rw [q3 j hj, hF.R j (by omega), hw.R j (by omega)]
    simp only [e] at this
    rw [mul_comm o.eps] at this
    exact this
  · exact q3 j (by omega)
  · exact hRκ r (by omega)

end HPLLL
