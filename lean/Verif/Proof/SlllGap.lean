import Verif.Proof.IdemStep
import Verif.Proof.Slll
/-! `reduce_and_gap_detect` of segment LLL in exact arithmetic. -/

namespace HPLLL
open Spec Finset

variable {o : FPOps ℝ}

theorem exact_withTenth (ho : Exact o) (t : ℝ) : Exact { o with tenth := t } :=
  ⟨ho.zero, ho.one, ho.eps, ho.ofZ, ho.toZ, ho.add, ho.sub, ho.mul, ho.div, ho.addmul, ho.submul, ho.neg, ho.abs,
    ho.sqrt, ho.rnd, ho.isZero, ho.le, ho.lt, ho.getSiExp⟩

/-- Size reduction of the columns `1 .. κ-1`, on the triangular factor. -/
def SizeUpTo (κ : ℕ) (R : Mat ℝ) : Prop := ∀ k, 1 ≤ k → k < κ → SizeRed k R

/-- First column of `R` after its reflection: the entries below the diagonal are those of the vector. -/
def Col0 (n : ℕ) (B : Mat Int) (R : Mat ℝ) (nm : ℕ) : Prop := ∀ r, 1 ≤ r → r < nm → R 0 r = bv n B 0 r

/-- `householder_r(0); householder_v(0)` after the reset of the flags. -/
theorem gap_start (ho : Exact o) {n d : ℕ} {A : Mat Int} {track : Prop} {s : Lat ℝ} (hd : 0 < d)
    (hA : FullColumnRank (toMatrix n d A)) (hI : LInv n d A track s)
    (bz : ∀ c < d, ∀ r, nmaxOf s.str c ≤ r → r < n → s.fp.Bfp c r = 0)
    (hk : ∀ c < d, s.fp.colKept c = false) (hde : ∀ c < d, s.fp.descendu c = 0) :
    Oth n d s.str s.B ((s.hhR o 0).hhV o 0).fp 1 ∧
      (1 < d → Mid n d 1 ((s.hhR o 0).hhV o 0)) ∧
      Col0 n s.B ((s.hhR o 0).hhV o 0).fp.R (nmaxOf s.str 0) := by
  have hg := hI.geo hA
  have hn : s.n = n := hI.hn
  have hT0 : 0 < Ex.tail n 0 (Ex.app n s.fp.V 0 (bv n s.B 0)) := by
    have hq0 : QRv n s.str s.B s.fp.V s.fp.R 0 :=
      ⟨fun k hk => by omega, fun k hk => by omega, fun k hk => by omega, fun k hk => by omega,
        fun k hk => by omega⟩
    have hn0 : 0 < n := by have := hg.diag 0 (by omega); have := hg.le 0 (by omega); omega
    have e := hq0.gd_tail hn0
    have p1 : (0 : ℝ) < (gd n s.B (0 + 1) : ℝ) := by exact_mod_cast hg.rank 1 (by omega)
    have p0 : (0 : ℝ) < (gd n s.B 0 : ℝ) := by exact_mod_cast hg.rank 0 (by omega)
    rw [e] at p1
    exact (pos_iff_pos_of_mul_pos p1).mp p0
  obtain ⟨a, f⟩ := householderR_zero_spec ho s.str s.B s.fp (hg.diag 0 (by omega))
    (hg.le 0 (by omega)) (bz 0 (by omega)) (hg.supp 0 (by omega))
    (fun h => by rw [hk 0 hd] at h; simp at h)
  set p1 := householderR o s.str s.B 0 s.fp with hp1
  have hq0 : QRv n s.str s.B p1.V p1.R 0 :=
    ⟨fun k hk => by omega, fun k hk => by omega, fun k hk => by omega, fun k hk => by omega,
      fun k hk => by omega⟩
  obtain ⟨q1, vf, _⟩ := hq0.extend ho (hg.diag 0 (by omega)) (hg.le 0 (by omega))
    (fun k hk => by omega) (hg.supp 0 (by omega)) a.nmk a.r (by rw [f.V]; exact hT0.ne')
  have hfp : ((s.hhR o 0).hhV o 0).fp = householderV o n 0 p1 := by
    show householderV o s.n 0 p1 = _
    rw [hn]
  obtain ⟨V2, R2, e2⟩ := vf.rest
  rw [zero_add] at q1
  have hkept : ∀ c, c < d → c ≠ 0 → p1.colKept c = false := by
    intro c hc hc0; rw [f.colKept c hc0]; exact hk c hc
  have hoth : Oth n d s.str s.B ((s.hhR o 0).hhV o 0).fp 1 := by
    rw [hfp]
    constructor
    · exact q1
    · intro c hc r hr hrn
      rw [e2]
      by_cases hc0 : c = 0
      · subst hc0
        show p1.Bfp 0 r = 0
        rw [a.bfp r hrn]; simp only [bv, if_pos hrn]
        rw [hg.supp 0 hc r hr hrn]; simp
      · show p1.Bfp c r = 0
        rw [f.Bfp c hc0]; exact bz c hc r hr hrn
    · intro c hc hc1 hk
      rw [e2] at hk ⊢
      by_cases hc0 : c = 0
      · subst hc0; exact ⟨a.bfp, a.nrm, by show 0 ≤ p1.kappamin 0; rw [a.kmin]; simp⟩
      · have hk : p1.colKept c = true := hk
        rw [hkept c hc hc0] at hk; simp at hk
    · intro c hc
      have : c = 0 := by omega
      subst this
      rw [e2]
      exact ⟨a.kept, a.kmin, fun k hk => by omega⟩
    · intro c hc hcd hk
      rw [e2] at hk
      have hk : p1.colKept c = true := hk
      rw [hkept c hcd (by omega)] at hk; simp at hk
    · intro c hc hcd
      rw [e2]
      show p1.descendu c = 0
      rw [f.descendu]; exact hde c hcd
  refine ⟨hoth, fun h1 => ⟨hoth, fun hk => ?_⟩, ?_⟩
  · rw [hfp, e2] at hk
    have hk : p1.colKept 1 = true := hk
    rw [hkept 1 h1 (by omega)] at hk; simp at hk
  · intro r h1 h2
    rw [hfp, vf.Rκ r (by omega), a.r r h2]
    rfl

/-- `householder_v(κ)` after the reduction of column `κ`: ready for column `κ+1`. -/
theorem Post.next (ho : Exact o) {n d κ : ℕ} {s : Lat ℝ} (hκ : 0 < κ) (hκd : κ < d)
    (hn : s.n = n) (hg : Geo n d s.str s.B) (h : Post n d κ s) :
    Oth n d s.str s.B (s.hhV o κ).fp (κ + 1) ∧ (κ + 1 < d → Mid n d (κ + 1) (s.hhV o κ)) ∧
      HvFrame κ s.fp (s.hhV o κ).fp := by
  obtain ⟨h1, h2⟩ := h
  have hgt := h1.qr.gd_tail (by have := hg.diag κ hκd; have := hg.le κ hκd; omega : κ < n)
  have hT : Ex.tail n κ (Ex.app n s.fp.V κ (bv n s.B κ)) ≠ 0 := by
    intro h0
    rw [h0, mul_zero] at hgt
    have p1 : (0 : ℝ) < (gd n s.B (κ + 1) : ℝ) := by exact_mod_cast hg.rank (κ + 1) (by omega)
    linarith
  obtain ⟨q, vf, hR⟩ := h1.qr.extend ho (hg.diag κ hκd) (hg.le κ hκd)
    (fun k hk => hg.mono k κ (by omega) hκd) (hg.supp κ hκd) h2.nmk h2.r hT
  have hfp : (s.hhV o κ).fp = householderV o n κ s.fp := by
    show householderV o s.n κ s.fp = _; rw [hn]
  obtain ⟨V2, R2, e2⟩ := vf.rest
  have hvp : ∀ k < κ, ∀ x, vprod n (householderV o n κ s.fp).V k x = vprod n s.fp.V k x := by
    intro k hk x
    unfold vprod
    rw [Ex.app_congrV n _ s.fp.V k (fun j hj => vf.V j (by omega))]
    congr 1
    funext r; simp only [Ex.vv]; rw [vf.V k (by omega)]
  have hoth : Oth n d s.str s.B (s.hhV o κ).fp (κ + 1) := by
    rw [hfp]
    rw [e2] at q hvp ⊢
    constructor
    · exact q
    · exact h1.bz
    · intro c hc hcκ hk
      by_cases hcκ : c = κ
      · subst hcκ
        exact ⟨h2.bfp, h2.nrm, by show 0 ≤ s.fp.kappamin c; rw [h2.kmin]; omega⟩
      · exact h1.kb c hc hcκ hk
    · intro c hc
      by_cases hcκ : c = κ
      · subst hcκ
        refine ⟨h2.kept, h2.kmin, fun k hk => ?_⟩
        have := h2.col.vr k hk
        simp only []
        rw [this, hvp k hk]
      · obtain ⟨a, b, e⟩ := h1.lo c (by omega)
        refine ⟨a, b, fun k hk => ?_⟩
        have := e k hk
        simp only []
        rw [this, hvp k (by omega)]
    · intro c hc hcd hk
      obtain ⟨a, b⟩ := h1.hi c (by omega) hcd hk
      refine ⟨by show s.fp.kappamin c ≤ _; push_cast; omega, fun k hk2 => ?_⟩
      have hk2 : (k : ℤ) < s.fp.kappamin c := hk2
      have := b k hk2
      simp only []
      rw [this, hvp k (by omega)]
    · intro c hc hcd; exact h1.de c (by omega) hcd
  refine ⟨hoth, fun hd' => ⟨hoth, fun hk => ?_⟩, by rw [hfp]; exact vf⟩
  rw [hfp, e2] at hk
  have hk : s.fp.colKept (κ + 1) = true := hk
  obtain ⟨b1, b2, b3⟩ := h1.kb (κ + 1) hd' (by omega) hk
  obtain ⟨c1, c2⟩ := h1.hi (κ + 1) (by omega) hd' hk
  have hde := h1.de (κ + 1) (by omega) hd'
  show ColPre n (nmaxOf s.str (κ + 1)) (κ + 1) (s.hhV o κ).fp (bv n s.B (κ + 1))
  rw [hfp]
  rw [e2] at hvp ⊢
  refine ⟨b1, b2, b3, by show s.fp.kappamin (κ + 1) ≤ _; push_cast; omega, fun k hk2 => ?_, fun h3 => ?_⟩
  · have hk2 : (k : ℤ) < s.fp.kappamin (κ + 1) := hk2
    have := c2 k hk2
    simp only []
    rw [this, hvp k (by omega)]
  · have h3 : 1 ≤ s.fp.descendu (κ + 1) := h3
    rw [hde] at h3; omega

/-- What the loop of `reduce_and_gap_detect` leaves, started on column `i` with `k` columns left. -/
theorem gapLoop_exact (ho : Exact o) (c : SCst ℝ) (σ : Sched) {n d : ℕ} {A : Mat Int} {track : Prop}
    (hA : FullColumnRank (toMatrix n d A)) (key : List ℕ) (fuel : ℕ) (B0 : Mat Int) : ∀ (k i : ℕ) (s s' : Lat ℝ),
    0 < i → i + k = d → LInv n d A track s → 0 < s.numS → s.seysenFlag < 1 →
    Oth n d s.str s.B s.fp i → (i < d → Mid n d i s) → SizeUpTo i s.fp.R → UniTri n d B0 s.B →
    gapLoop o c σ key fuel d k i s = some (0, s') →
    LInv n d A track s' ∧ Oth n d s'.str s'.B s'.fp d ∧ SizeUpTo d s'.fp.R ∧ UniTri n d B0 s'.B ∧
      s'.fp.R 0 = s.fp.R 0 ∧ SameCfg s s' ∧ s'.str = s.str ∧ s'.B 0 = s.B 0 := by
  intro k
  induction k with
  | zero =>
    intro i s s' hi hik hI hS hf hO hM hsz hu h
    simp only [gapLoop, Option.some.injEq, Prod.mk.injEq, true_and] at h
    subst h
    have : i = d := by omega
    subst this
    exact ⟨hI, hO, hsz, hu, rfl, SameCfg.rfl' _, rfl, rfl⟩
  | succ k ih =>
    intro i s s' hi hik hI hS hf hO hM hsz hu h
    have hid : i < d := by omega
    simp only [gapLoop] at h
    cases hr : sreduceCol o c σ key fuel i s with
    | none => rw [hr] at h; simp at h
    | some s1 =>
      rw [hr] at h
      simp only [] at h
      unfold sreduceCol at hr
      rw [if_pos hf, Option.map_eq_some_iff] at hr
      obtain ⟨⟨st, s2⟩, hr, rfl⟩ := hr
      simp only [] at h
      have hr' : hlllReduce { o with tenth := c.thousandth } fuel i s = some (st, s2) := by
        unfold hlllReduce; rw [if_pos hf]; exact hr
      have ho' := exact_withTenth ho c.thousandth
      obtain ⟨-, hP, hsr⟩ := hlllReduce_spec ho' hi hid hA fuel _ _ _ hS hI (hM hid) hr'
      have hRlow := post_R_of_red ho' hi hid fuel _ _ _ hA hS hI (hM hid) hr'
      have hzs := hlllReduce_zs _ hi fuel _ _ _ hr'
      have hI2 : LInv n d A track s2 := hI.zsteps hid hzs
      have hfr := hzs.frame
      obtain ⟨n1, n2, n3⟩ := Post.next ho hi hid hI2.hn (hI2.geo hA) hP
      have hRl : ∀ c' < i, (s2.hhV o i).fp.R c' = s.fp.R c' := by
        intro c' hc'
        rw [n3.R c' (by omega)]
        funext r; exact hRlow c' hc' r
      split at h
      · rename_i hg
        simp only [Option.some.injEq, Prod.mk.injEq] at h
        omega
      · obtain ⟨a1, a2, a3, a4, a5, a6, a7, a8⟩ := ih (i + 1) (s2.hhV o i) s' (by omega) (by omega)
          (hI2.congr rfl rfl rfl rfl rfl rfl rfl rfl) (by show 0 < s2.numS; rw [hfr.numS]; exact hS)
          (by show s2.seysenFlag < 1; rw [hfr.seysenFlag]; exact hf) n1 n2 (by
            intro k hk1 hk2
            rcases Nat.lt_succ_iff_lt_or_eq.mp hk2 with hk | rfl
            · intro j hj
              rw [hRl k hk, hRl j (by omega)]; exact hsz k hk1 hk j hj
            · intro j hj
              rw [n3.Rκ j (by omega), n3.R j (by omega)]
              exact hsr hf j hj) (show UniTri n d B0 s2.B from hu.zsteps hid hI hzs) h
        refine ⟨a1, a2, a3, a4, a5.trans (hRl 0 hi), ?_, a7.trans hfr.str, ?_⟩
        · exact (hfr.cfg.trans' (ZSteps.frame (hhV_zs o i i s2)).cfg).trans' a6
        · rw [a8]; exact hfr.Bcol 0 (by omega)

end HPLLL
