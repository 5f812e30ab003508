import Verif.Proof.Cycle
import Verif.Proof.FpMain
import Verif.Proof.FpErrDot
import Verif.Proof.FpErrQR
/-! When `hlll` does not return. -/

namespace HPLLL

open Spec Finset Fl

variable {F : Type} {o : FPOps F}

/-! ## the outer loop -/

/-- `h'` is the state after some iterations of the main loop begun in `h`. -/
inductive Reached (o : FPOps F) (δ : F) (h : HState F) : HState F → Prop
  | here : Reached o δ h h
  | step {h1 h2 : HState F} (f : Nat) : Reached o δ h h1 → h1.kappa < h1.s.kappaMax →
      h1.s.nblov < h1.s.nblovMax → hlllStep o f δ h1 = .next h2 → Reached o δ h h2

theorem Reached.trans' {δ : F} {h h1 h2 : HState F} (a : Reached o δ h h1) (b : Reached o δ h1 h2) :
    Reached o δ h h2 := by
  induction b with
  | here => exact a
  | step f _ h3 h4 h5 ih => exact Reached.step f ih h3 h4 h5

theorem step_nblov {δ : F} {h h' : HState F} {f : Nat} (hk : 0 < h.kappa)
    (hs : hlllStep o f δ h = .next h') :
    h'.s.nblov = h.s.nblov + 1 ∧ h'.s.nblovMax = h.s.nblovMax ∧ h'.s.kappaMax = h.s.kappaMax ∧
      0 < h'.kappa := by
  unfold hlllStep at hs
  simp only [] at hs
  cases hr : hlllReduce o f h.kappa (hlllPrep o h.kappa h.s) with
  | none => rw [hr] at hs; simp at hs
  | some r =>
    obtain ⟨flag, s⟩ := r
    have hzs : ZSteps h.kappa h.s s :=
      (hlllPrep_zs o h.kappa h.s).trans (hlllReduce_zs o hk f _ _ _ hr)
    have hfr := hzs.frame
    rw [hr] at hs
    simp only [] at hs
    split at hs
    · simp at hs
    · split at hs
      · split at hs
        · simp at hs
        · simp only [HStep.next.injEq] at hs
          subst hs
          exact ⟨by show s.nblov + 1 = _; rw [hfr.nblov], hfr.nblovMax, hfr.kappaMax, by
            show 0 < h.kappa + 1; omega⟩
      · simp only [HStep.next.injEq] at hs
        subst hs
        exact ⟨by show s.nblov + 1 = _; rw [hfr.nblov], hfr.nblovMax, hfr.kappaMax, by
          show 0 < max (h.kappa - 1) 1; omega⟩

/-- If the main loop does not end, the reduction of some column does not end. -/
theorem loop_stuck {δ : F} : ∀ (b : Nat) (h : HState F), 0 < h.kappa →
    h.s.nblovMax - h.s.nblov = b →
    (∀ f, hlllLoop o δ f h = none) → ∃ h', Reached o δ h h' ∧ h'.kappa < h'.s.kappaMax ∧
      h'.s.nblov < h'.s.nblovMax ∧ ∀ f, hlllReduce o f h'.kappa (hlllPrep o h'.kappa h'.s) = none := by
  intro b
  induction b using Nat.strong_induction_on with
  | _ b ih =>
    intro h hk hb hn
    have hc : h.kappa < h.s.kappaMax ∧ h.s.nblov < h.s.nblovMax := by
      by_contra hc
      have := hn 1
      rw [hlllLoop, if_neg hc] at this
      simp at this
    by_cases hst : ∀ f, hlllReduce o f h.kappa (hlllPrep o h.kappa h.s) = none
    · exact ⟨h, .here, hc.1, hc.2, hst⟩
    · push Not at hst
      obtain ⟨f, hf⟩ := hst
      obtain ⟨r, hr⟩ := Option.ne_none_iff_exists'.mp hf
      have hne : hlllStep o f δ h ≠ .diverge := by
        unfold hlllStep
        simp only [hr]
        split
        · simp
        · split
          · split <;> simp
          · simp
      cases hs : hlllStep o f δ h with
      | diverge => exact absurd hs hne
      | fail s =>
        have := hn (f + 1)
        rw [hlllLoop, if_pos hc, hlllStep_mono o δ f 1 h _ hs (by simp)] at this
        simp at this
      | next h1 =>
        obtain ⟨e1, e2, e3, e4⟩ := step_nblov hk hs
        have hn1 : ∀ g, hlllLoop o δ g h1 = none := by
          intro g
          have h0 := hn (f + g + 1)
          rw [hlllLoop, if_pos hc, show f + g + 1 = f + (g + 1) by omega,
            hlllStep_mono o δ f (g + 1) h _ hs (by simp)] at h0
          simp only [] at h0
          cases hg : hlllLoop o δ g h1 with
          | none => rfl
          | some r =>
            have := hlllLoop_mono o δ g f _ _ hg
            rw [show g + f = f + g by omega, h0] at this
            simp at this
        obtain ⟨h', a, b', c⟩ := ih (h1.s.nblovMax - h1.s.nblov) (by omega) h1 e4 rfl hn1
        exact ⟨h', (Reached.step f .here hc.1 hc.2 hs).trans' a, b', c⟩

/-- Conversely. -/
theorem stuck_loop {δ : F} {h h' : HState F} (hr : Reached o δ h h') :
    (∀ f, hlllLoop o δ f h' = none) → ∀ f, hlllLoop o δ f h = none := by
  induction hr with
  | here => exact id
  | @step h1 h2 f _ a b hs ih =>
    intro hn
    refine ih ?_
    intro g
    cases hg : hlllLoop o δ g h1 with
    | none => rfl
    | some r =>
      have := hlllLoop_mono o δ g (f + 1) _ _ hg
      rw [show g + (f + 1) = (g + f) + 1 by omega, hlllLoop, if_pos ⟨a, b⟩,
        show g + f + 1 = f + (g + 1) by omega, hlllStep_mono o δ f (g + 1) _ _ hs (by simp)] at this
      simp only [] at this
      rw [hn] at this; simp at this

theorem reduce_loop {δ : F} {h : HState F} (a : h.kappa < h.s.kappaMax) (b : h.s.nblov < h.s.nblovMax)
    (hn : ∀ f, hlllReduce o f h.kappa (hlllPrep o h.kappa h.s) = none) (f : Nat) :
    hlllLoop o δ f h = none := by
  cases f with
  | zero => rfl
  | succ f =>
    rw [hlllLoop, if_pos ⟨a, b⟩]
    have : hlllStep o (f + 1) δ h = .diverge := by
      unfold hlllStep; simp only [hn]
    rw [this]

/-! ## the size reduction of one column -/

/-- The states at the beginning of the passes. -/
def passes (o : FPOps F) (κ : Nat) (s : Lat F) (k : Nat) : Lat F := (nextPass o κ)^[k] s

theorem passes_succ (κ : Nat) (s : Lat F) (k : Nat) :
    passes o κ s (k + 1) = nextPass o κ (passes o κ s k) := Function.iterate_succ_apply' _ _ _

/-- The test `normB2[kappa] < 0.1 * t`. -/
def drop (o : FPOps F) (κ : Nat) (s : Lat F) (k : Nat) : Bool :=
  o.lt ((passes o κ s (k + 1)).fp.normB2 κ) (o.mul o.tenth ((passes o κ s k).fp.normB2 κ))

theorem pass_norm (κ : Nat) (s : Lat F) : (hsizePass o κ κ s).1.fp.normB2 = s.fp.normB2 := by
  obtain ⟨⟨R, x, e, f⟩, g⟩ := Fl.hsizePass_fr (o := o) κ κ s
  rw [e]

theorem hsizeLoop_succ (κ : Nat) (s : Lat F) (b : Bool) (f k : Nat) :
    hsizeLoop o κ κ (f + 1) b (passes o κ s k) =
      if (hsizePass o κ κ (passes o κ s k)).2 then
        if !b && !drop o κ s k then
          if sizeAnomaly o κ (passes o κ s (k + 1)).fp then some (-1, passes o κ s (k + 1))
          else some (0, passes o κ s (k + 1))
        else hsizeLoop o κ κ f (drop o κ s k) (passes o κ s (k + 1))
      else some (0, (hsizePass o κ κ (passes o κ s k)).1) := by
  have e : passes o κ s (k + 1) = nextPass o κ (passes o κ s k) := passes_succ κ s k
  have e2 := pass_norm (o := o) κ (passes o κ s k)
  rw [hsizeLoop]
  unfold drop
  rw [e, ← e2]
  rfl

theorem stuck_passes {κ : Nat} {s : Lat F} (hn : ∀ f, hsizeLoop o κ κ f true s = none) (k : Nat) :
    (∀ f, hsizeLoop o κ κ f (if k = 0 then true else drop o κ s (k - 1)) (passes o κ s k) = none) := by
  induction k with
  | zero => exact hn
  | succ k ih =>
    intro f
    have h := ih (f + 1)
    rw [if_neg (by omega), Nat.add_sub_cancel]
    generalize (if k = 0 then true else drop o κ s (k - 1)) = b at h
    rw [hsizeLoop_succ] at h
    split at h
    · split at h
      · split at h <;> simp at h
      · exact h
    · simp at h

/-- Among two consecutive passes at least one divides the computed norm by ten. -/
theorem stuck_drop {κ : Nat} {s : Lat F} (hn : ∀ f, hsizeLoop o κ κ f true s = none) (k : Nat) :
    (hsizePass o κ κ (passes o κ s k)).2 = true ∧ (drop o κ s k = true ∨ drop o κ s (k + 1) = true) := by
  constructor
  · have h := stuck_passes hn k 1
    rw [hsizeLoop_succ] at h
    split at h
    · assumption
    · simp at h
  · have h := stuck_passes hn (k + 1) 1
    rw [if_neg (by omega), hsizeLoop_succ, Nat.add_sub_cancel] at h
    split at h
    · split at h
      · split at h <;> simp at h
      · rename_i hc
        cases h1 : drop o κ s k <;> cases h2 : drop o κ s (k + 1) <;> simp_all
    · simp at h

theorem passes_post (hz : ZeroLaws o) {n d κ : Nat} {A : Mat Int} {track : Prop}
    (hκ : 0 < κ) (hκd : κ < d) (hA : FullColumnRank (toMatrix n d A)) {s : Lat F}
    (hI : LInv n d A track s) (hP : Fl.Post o n d κ s) (k : Nat) :
    LInv n d A track (passes o κ s k) ∧ Fl.Post o n d κ (passes o κ s k) ∧
      (∀ c, c ≠ κ → (passes o κ s k).B c = s.B c) := by
  induction k with
  | zero => exact ⟨hI, hP, fun _ _ => rfl⟩
  | succ k ih =>
    obtain ⟨hI, hP, hB⟩ := ih
    rw [passes_succ]
    generalize passes o κ s k = t at hI hP hB
    obtain ⟨⟨R, x, e, f⟩, g⟩ := Fl.hsizePass_fr (o := o) κ κ t
    have hzs := hsizePass_zs o (κ := κ) (le_refl κ) t
    have hIq := hI.zsteps hκd hzs
    obtain ⟨hM, hf1⟩ := hP.invalidate hκd hzs.frame R x e f
    set w : Lat F := { (hsizePass o κ κ t).1 with
        fp := { (hsizePass o κ κ t).1.fp with
          colKept := setAt (hsizePass o κ κ t).1.fp.colKept κ false } } with hw
    have hIt : LInv n d A track w := hIq.congr rfl rfl rfl rfl rfl rfl rfl rfl
    obtain ⟨hp, hf2⟩ := hM.hhR hz hκ hκd (hIt.geom hA) hIt.sup
    have e : nextPass o κ t = w.hhR o κ := rfl
    rw [e]
    refine ⟨hIt.congr rfl rfl rfl rfl rfl rfl rfl rfl, hp, fun c hc => ?_⟩
    rw [← hB c hc, ← hzs.frame.Bcol c hc]; rfl

/-! ## lengths -/

/-- Exact squared length. -/
def sqLen (n : Nat) (v : Nat → Int) : Int := ∑ r ∈ range n, v r ^ 2

theorem sqLen_pos {n d κ : Nat} {B : Mat Int} (hκd : κ < d) (hB : FullColumnRank (toMatrix n d B)) :
    0 < sqLen n (B κ) := by
  have h0 : 0 ≤ sqLen n (B κ) := sum_nonneg fun r _ => sq_nonneg _
  rcases h0.lt_or_eq with h | h
  · exact h
  · exfalso
    have h1 := (sum_eq_zero_iff_of_nonneg (fun r _ => sq_nonneg (B κ r))).mp h.symm
    refine hB.ne_zero ⟨κ, hκd⟩ ?_
    funext i
    have := h1 i (mem_range.mpr i.2)
    show B κ i = 0
    exact pow_eq_zero_iff (by norm_num) |>.mp this

section
variable {val : F → ℝ} {u : ℝ}

theorem rel_sum {κ : ℝ} (hκ : 1 ≤ κ) {m : ℕ} {x y : ℕ → ℝ} (hx : ∀ r, 0 ≤ x r) (n : ℕ)
    (h : ∀ r < n, Err.Rel κ m (x r) (y r)) : Err.Rel κ m (∑ r ∈ range n, x r) (∑ r ∈ range n, y r) := by
  induction n with
  | zero => simpa using (Err.Rel.rfl' (κ := κ) 0).mono hκ (Nat.zero_le m)
  | succ n ih =>
    rw [sum_range_succ, sum_range_succ]
    exact (ih fun r hr => h r (by omega)).add hκ (h n (by omega)) (sum_nonneg fun r _ => hx r) (hx n)

/-- The computed squared length has a small relative error. -/
theorem normB2_rel (hs : StdModel o val u) {n : Nat} (hn : 0 < n) (B : Mat Int) (c : Nat) :
    Err.Rel (1 / (1 - u)) (n + 2) (sqLen n (B c)) (val (fdot o n 0 (fvec o n B c) (fvec o n B c))) := by
  have h1 := Err.fdot_rel hs hn (fvec o n B c)
  have h2 : Err.Rel (1 / (1 - u)) 2 ((sqLen n (B c) : ℤ) : ℝ)
      (‖vc n (Err.tl 0 (val ∘ fvec o n B c))‖ ^ 2) := by
    rw [Err.norm_sq_vc]
    unfold sqLen
    push_cast
    refine rel_sum (Err.kap_one hs) (fun r => sq_nonneg _) n fun r hr => ?_
    obtain ⟨e, he, h⟩ := hs.ofZ (B c r)
    have := Err.Rel.of_err hs.u1 he h
    simp only [Err.tl, Nat.zero_le, if_true, Function.comp, fvec, if_pos hr, pow_two]
    exact this.mul this
  have := h2.trans h1
  rwa [Nat.sub_zero, Nat.add_comm 2 n] at this

/-- A successful test means that the exact squared length has really been divided by 9. -/
theorem drop_exact (hs : StdModel o val u) (ht : ∃ e, |e| ≤ u ∧ val o.tenth = 1 / 10 * (1 + e))
    {n : Nat} (hn : 0 < n) (hu : (1 / (1 - u)) ^ (2 * n + 6) ≤ 21 / 20) (B B' : Mat Int) (c : Nat)
    (h : o.lt (fdot o n 0 (fvec o n B' c) (fvec o n B' c))
      (o.mul o.tenth (fdot o n 0 (fvec o n B c) (fvec o n B c))) = true) :
    (sqLen n (B' c) : ℝ) * 200 < 21 * sqLen n (B c) := by
  set κ := 1 / (1 - u) with hκ
  have hκ1 : 1 ≤ κ := Err.kap_one hs
  obtain ⟨f, f0, f1, f2, f3⟩ := normB2_rel hs hn B c
  obtain ⟨f', f0', f1', f2', f3'⟩ := normB2_rel hs hn B' c
  rw [hs.lt] at h
  obtain ⟨e, he, e1⟩ := ht
  obtain ⟨e', he', e2⟩ := hs.mul o.tenth (fdot o n 0 (fvec o n B c) (fvec o n B c))
  rw [e2, e1, f3, f3'] at h
  rw [← hκ] at f1 f2 f1' f2'
  have ha := Err.one_add_le hs he
  have hb := Err.one_add_le hs he'
  rw [← hκ] at ha hb
  have h0 : (0 : ℝ) ≤ sqLen n (B c) := by
    have : 0 ≤ sqLen n (B c) := sum_nonneg fun r _ => sq_nonneg _
    exact_mod_cast this
  have h0' : (0 : ℝ) ≤ sqLen n (B' c) := by
    have : 0 ≤ sqLen n (B' c) := sum_nonneg fun r _ => sq_nonneg _
    exact_mod_cast this
  generalize (sqLen n (B c) : ℝ) = x at *
  generalize (sqLen n (B' c) : ℝ) = y at *
  have hp : (0 : ℝ) < κ ^ (n + 2) := by positivity
  have hab : (1 + e) * (1 + e') * f ≤ κ * κ * κ ^ (n + 2) := by
    have i1 : (1 + e) * (1 + e') ≤ κ * κ := by
      refine (le_abs_self _).trans ?_
      rw [abs_mul]
      exact mul_le_mul ha hb (abs_nonneg _) (by linarith)
    calc (1 + e) * (1 + e') * f ≤ κ * κ * f := mul_le_mul_of_nonneg_right i1 f0.le
      _ ≤ _ := mul_le_mul_of_nonneg_left f1 (by positivity)
  have i2 : y ≤ y * (f' * κ ^ (n + 2)) := le_mul_of_one_le_right h0' f2'
  have i3 : y * f' * κ ^ (n + 2) < 1 / 10 * (1 + e) * (x * f) * (1 + e') * κ ^ (n + 2) :=
    mul_lt_mul_of_pos_right h hp
  have i4 : x * ((1 + e) * (1 + e') * f) * κ ^ (n + 2) ≤ x * (κ * κ * κ ^ (n + 2)) * κ ^ (n + 2) :=
    mul_le_mul_of_nonneg_right (mul_le_mul_of_nonneg_left hab h0) hp.le
  have i5 : x * (κ * κ * κ ^ (n + 2)) * κ ^ (n + 2) ≤ x * (21 / 20) := by
    refine le_trans (le_of_eq ?_) (mul_le_mul_of_nonneg_left hu h0)
    rw [show 2 * n + 6 = 1 + 1 + (n + 2) + (n + 2) by omega, pow_add, pow_add, pow_add]; ring
  nlinarith

/-- A sequence of lengths with at least one drop in two steps, positive: it must jump up again and
again. -/
theorem must_jump (E : ℕ → ℤ) (hpos : ∀ k, 0 < E k)
    (h : ∀ k, E (k + 1) * 200 < 21 * E k ∨ E (k + 2) * 200 < 21 * E (k + 1)) (K : ℕ) :
    ∃ k, K ≤ k ∧ 9 * E k < E (k + 1) := by
  by_contra hc
  push Not at hc
  have h2 : ∀ j, E (K + 2 * j) + j ≤ E K := by
    intro j
    induction j with
    | zero => simp
    | succ j ih =>
      have a := hc (K + 2 * j) (by omega)
      have b := hc (K + 2 * j + 1) (by omega)
      have p0 := hpos (K + 2 * j)
      have p1 := hpos (K + 2 * j + 1)
      rcases h (K + 2 * j) with c | c
      · rw [show K + 2 * (j + 1) = K + 2 * j + 1 + 1 by ring]; push_cast; omega
      · rw [show K + 2 * (j + 1) = K + 2 * j + 2 by ring]; push_cast; omega
  have := h2 (E K).toNat
  have := hpos (K + 2 * (E K).toNat)
  have := hpos K
  omega

theorem Reached.finv (hz : ZeroLaws o) {n d : Nat} {A : Mat Int} {track : Prop} {δ : F}
    (hA : FullColumnRank (toMatrix n d A)) {h h' : HState F} (hr : Reached o δ h h')
    (hE : Fl.FInv o n d A track δ h) (hk : h.s.kappaMax = d) :
    Fl.FInv o n d A track δ h' ∧ SameCfg h.s h'.s := by
  induction hr with
  | here => exact ⟨hE, ⟨rfl, rfl, rfl, rfl, rfl, rfl, rfl, rfl, rfl, rfl⟩⟩
  | @step h1 h2 f _ a b hs ih =>
    obtain ⟨i1, i2⟩ := ih
    have := i1.step hz hA (by rw [i2.kappaMax, hk] at a; exact a) f
    rw [hs] at this
    exact ⟨this.1, i2.trans' this.2⟩

/-- A size reduction without end: the sequence of bases. -/
theorem stuck_bounce (hs : StdModel o val u) (hz : ZeroLaws o)
    (ht : ∃ e, |e| ≤ u ∧ val o.tenth = 1 / 10 * (1 + e)) {n d : Nat}
    (hu : (1 / (1 - u)) ^ (2 * n + 6) ≤ 21 / 20) {A : Mat Int}
    (hA : FullColumnRank (toMatrix n d A)) {δ : F} {s : Lat F} (hI : LInv n d A False s)
    (hb : ∀ c < d, ∀ r, nmaxOf s.str c ≤ r → r < n → s.fp.Bfp c r = o.zero)
    (hkm : s.kappaMax = d) (hm : s.seysenFlag < 1)
    (hn : ∀ f, hlllLoop o δ f (hlllInit o s) = none) :
    ∃ κ, 0 < κ ∧ κ < d ∧ ∃ W : Nat → Mat Int,
      (∀ k, ∃ T : Matrix (Fin d) (Fin d) ℤ, Unimodular T ∧ toMatrix n d (W k) = toMatrix n d A * T) ∧
      (∀ k c, c ≠ κ → W (k + 1) c = W k c) ∧
      (∀ k, sqLen n (W (k + 1) κ) * 9 < sqLen n (W k κ) ∨
        sqLen n (W (k + 2) κ) * 9 < sqLen n (W (k + 1) κ)) ∧
      (∀ K, ∃ k, K ≤ k ∧ 9 * sqLen n (W k κ) < sqLen n (W (k + 1) κ)) := by
  obtain ⟨h, hR, hκm, -, hst⟩ := loop_stuck _ _ (by show 0 < 1; omega) rfl hn
  obtain ⟨hF, hcfg⟩ := hR.finv hz hA (Fl.FInv.init (o := o) (δ := δ) hI hb) hkm
  have hκd : h.kappa < d := by
    rw [hcfg.kappaMax] at hκm; exact lt_of_lt_of_eq hκm hkm
  have hκ := hF.pos
  have hsf : (hlllPrep o h.kappa h.s).seysenFlag < 1 := by
    rw [(hlllPrep_zs o h.kappa h.s).frame.seysenFlag, hcfg.seysenFlag]; exact hm
  have hM := hF.head.prep hz hκ hκd hF.inv.hn hF.inv.hd (hF.inv.geom hA) hF.inv.sup
  have hI1 := hF.inv.zsteps hκd (hlllPrep_zs o h.kappa h.s)
  generalize hlllPrep o h.kappa h.s = p at hst hsf hM hI1
  generalize h.kappa = κ at hst hκ hκd hM hI1
  obtain ⟨hP, -⟩ := hM.hhR hz hκ hκd (hI1.geom hA) hI1.sup
  have hI2 : LInv n d A False (p.hhR o κ) := hI1.congr rfl rfl rfl rfl rfl rfl rfl rfl
  have hloop : ∀ f, hsizeLoop o κ κ f true (p.hhR o κ) = none := by
    intro f
    have := hst f
    unfold hlllReduce at this
    rw [if_pos hsf] at this
    unfold hsizereduce at this
    simp only [Nat.lt_irrefl, if_false] at this
    rwa [show κ - 1 + 1 = κ by omega] at this
  generalize p.hhR o κ = t at hP hI2 hloop
  have hpp := passes_post hz hκ hκd hA hI2 hP
  have hn0 : 0 < n := by
    have := (hI1.geom hA).diag κ hκd
    have := (hI1.geom hA).le κ hκd
    omega
  have hpos : ∀ k, 0 < sqLen n ((passes o κ t k).B κ) := by
    intro k
    obtain ⟨W, hW, e, _⟩ := (hpp k).1.uni
    exact sqLen_pos hκd (by rw [e]; exact fcr_mul_unit hW hA)
  have hdrop : ∀ k, drop o κ t k = true →
      sqLen n ((passes o κ t (k + 1)).B κ) * 200 < 21 * sqLen n ((passes o κ t k).B κ) := by
    intro k hk
    unfold drop at hk
    rw [(hpp (k + 1)).2.1.2.nrm, (hpp k).2.1.2.nrm] at hk
    exact_mod_cast drop_exact hs ht hn0 hu _ _ κ hk
  have h2 : ∀ k, sqLen n ((passes o κ t (k + 1)).B κ) * 200 < 21 * sqLen n ((passes o κ t k).B κ) ∨
      sqLen n ((passes o κ t (k + 2)).B κ) * 200 < 21 * sqLen n ((passes o κ t (k + 1)).B κ) := by
    intro k
    exact (stuck_drop hloop k).2.imp (hdrop k) (hdrop (k + 1))
  refine ⟨κ, hκ, hκd, fun k => (passes o κ t k).B, ?_, ?_, ?_, ?_⟩
  · intro k
    obtain ⟨W, hW, e, _⟩ := (hpp k).1.uni
    exact ⟨W, Int.isUnit_iff.mp hW, e⟩
  · intro k c hc
    show (passes o κ t (k + 1)).B c = (passes o κ t k).B c
    rw [(hpp (k + 1)).2.2 c hc, (hpp k).2.2 c hc]
  · intro k
    have := hpos (k + 1)
    have := hpos (k + 2)
    show sqLen n ((passes o κ t (k + 1)).B κ) * 9 < sqLen n ((passes o κ t k).B κ) ∨
      sqLen n ((passes o κ t (k + 2)).B κ) * 9 < sqLen n ((passes o κ t (k + 1)).B κ)
    rcases h2 k with h | h
    · left; omega
    · right; omega
  · exact must_jump (fun k => sqLen n ((passes o κ t k).B κ)) hpos h2

end

end HPLLL
