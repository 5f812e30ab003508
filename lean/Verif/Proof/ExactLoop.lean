import Verif.Proof.ExactInv
/-! The main loop in exact arithmetic. -/

namespace HPLLL
open Spec Finset

variable {o : FPOps ℝ}

/-! ### Seysen reduction keeps the cached data right -/

/-- A block update touches the floating point data only in column `κ` of `R`. -/
structure SeyFrame (κ : ℕ) (s s' : Lat ℝ) (done : Bool) : Prop where
  fp : ∃ R, s'.fp = { s.fp with R := R } ∧ ∀ c, c ≠ κ → R c = s.fp.R c
  same : done = false → s' = s

theorem seysenUpdateStep_frame {F : Type} {o : FPOps F} (κ restdim i : ℕ) (q : Lat F × (ℕ → F) × Bool) :
    (∃ R, (seysenUpdateStep o κ restdim i q).1.fp = { q.1.fp with R := R } ∧
      ∀ c, c ≠ κ → R c = q.1.fp.R c) ∧
    ((seysenUpdateStep o κ restdim i q).2.2 = false →
      (seysenUpdateStep o κ restdim i q).1 = q.1 ∧ q.2.2 = false) := by
  unfold seysenUpdateStep
  simp only []
  split
  · exact ⟨⟨q.1.fp.R, rfl, fun _ _ => rfl⟩, fun h => ⟨rfl, h⟩⟩
  · refine ⟨⟨_, rfl, ?_⟩, by simp⟩
    intro c hc
    unfold redR
    simp only [faddcol, fsubcol, fsubmulcol]
    split
    · split
      · rw [setCol_ne _ _ hc]
      · split <;> rw [setCol_ne _ _ hc]
    · rw [setCol_ne _ _ hc]

theorem seysenUpdateLoop_frame {F : Type} {o : FPOps F} (κ restdim m : ℕ) :
    ∀ (q : Lat F × (ℕ → F) × Bool),
    (∃ R, (seysenUpdateLoop o κ restdim m q).1.fp = { q.1.fp with R := R } ∧
      ∀ c, c ≠ κ → R c = q.1.fp.R c) ∧
    ((seysenUpdateLoop o κ restdim m q).2.2 = false →
      (seysenUpdateLoop o κ restdim m q).1 = q.1 ∧ q.2.2 = false) := by
  induction m with
  | zero => intro q; exact ⟨⟨q.1.fp.R, rfl, fun _ _ => rfl⟩, fun h => ⟨rfl, h⟩⟩
  | succ m ih =>
    intro q
    simp only [seysenUpdateLoop]
    obtain ⟨⟨R1, e1, f1⟩, g1⟩ := seysenUpdateStep_frame (o := o) κ restdim (restdim + m) q
    obtain ⟨⟨R2, e2, f2⟩, g2⟩ := ih (seysenUpdateStep o κ restdim (restdim + m) q)
    refine ⟨⟨R2, by rw [e2, e1], fun c hc => ?_⟩, fun h => ?_⟩
    · rw [f2 c hc, e1]; exact f1 c hc
    · obtain ⟨a, b⟩ := g2 h
      obtain ⟨c, d⟩ := g1 b
      exact ⟨a.trans c, d⟩

theorem seysenBlock_frame {F : Type} {o : FPOps F} (κ ld idx : ℕ) (q : SeyState F) :
    (∃ R, (seysenBlock o κ ld idx q).s.fp = { q.s.fp with R := R } ∧
      ∀ c, c ≠ κ → R c = q.s.fp.R c) ∧
    ((seysenBlock o κ ld idx q).somedone = false →
      (seysenBlock o κ ld idx q).s = q.s ∧ q.somedone = false) := by
  unfold seysenBlock
  simp only []
  generalize (if κ / ld % 2 = 0 then 0 else ld) = bd
  generalize κ - idx - bd = rd
  split
  · obtain ⟨a, b⟩ := seysenUpdateLoop_frame (o := o) κ rd (κ - idx - rd)
      (q.s, (seysenSolve o q.s.fp.R rd (κ - idx - rd)
        (fun i => if rd ≤ i ∧ i < κ - idx then q.s.fp.R κ i else q.tmpcol i, q.vectx)).2, false)
    refine ⟨a, fun h => ?_⟩
    simp only [Bool.or_eq_false_iff] at h
    exact ⟨(b h.2).1, h.1⟩
  · exact ⟨⟨q.s.fp.R, rfl, fun _ _ => rfl⟩, fun h => ⟨rfl, h⟩⟩

theorem seysenBlocks_frame {F : Type} {o : FPOps F} (κ fuel : ℕ) :
    ∀ (ld idx : ℕ) (q : SeyState F),
    (∃ R, (seysenBlocks o κ fuel ld idx q).s.fp = { q.s.fp with R := R } ∧
      ∀ c, c ≠ κ → R c = q.s.fp.R c) ∧
    ((seysenBlocks o κ fuel ld idx q).somedone = false →
      (seysenBlocks o κ fuel ld idx q).s = q.s ∧ q.somedone = false) := by
  induction fuel with
  | zero => intro ld idx q; exact ⟨⟨q.s.fp.R, rfl, fun _ _ => rfl⟩, fun h => ⟨rfl, h⟩⟩
  | succ fuel ih =>
    intro ld idx q
    simp only [seysenBlocks]
    split
    · obtain ⟨⟨R1, e1, f1⟩, g1⟩ := seysenBlock_frame (o := o) κ ld idx q
      obtain ⟨⟨R2, e2, f2⟩, g2⟩ := ih (ld * 2) (idx + if κ / ld % 2 = 0 then 0 else ld)
        (seysenBlock o κ ld idx q)
      refine ⟨⟨R2, by rw [e2, e1], fun c hc => ?_⟩, fun h => ?_⟩
      · rw [f2 c hc, e1]; exact f1 c hc
      · obtain ⟨a, b⟩ := g2 h
        obtain ⟨c, d⟩ := g1 b
        exact ⟨a.trans c, d⟩
    · exact ⟨⟨q.s.fp.R, rfl, fun _ _ => rfl⟩, fun h => ⟨rfl, h⟩⟩

theorem seysenLoop_spec (ho : Exact o) {n d κ : ℕ} {A : Mat Int} {track : Prop}
    (hκ : 0 < κ) (hκd : κ < d) (hA : FullColumnRank (toMatrix n d A)) (fuel : ℕ) :
    ∀ (n0 n1 : Bool) (tmp vx : ℕ → ℝ) (s s' : Lat ℝ) (st : ℤ), LInv n d A track s → Post n d κ s →
    seysenLoop o κ fuel n0 n1 tmp vx s = some (st, s') → st = 0 ∧ Post n d κ s' := by
  induction fuel with
  | zero => intro n0 n1 tmp vx s s' st _ _ h; simp [seysenLoop] at h
  | succ fuel ih =>
    intro n0 n1 tmp vx s s' st hI hP h
    simp only [seysenLoop] at h
    set q := seysenBlocks o κ (κ + 1) 1 0
      { s := s, tmpcol := tmp, vectx := vx, somedone := false } with hq
    obtain ⟨⟨R, e, f⟩, g⟩ := seysenBlocks_frame (o := o) κ (κ + 1) 1 0
      { s := s, tmpcol := tmp, vectx := vx, somedone := false }
    rw [← hq] at e g
    simp only [] at e f g
    have hzs : ZSteps κ s q.s := seysenBlocks_zs o (κ := κ) (κ + 1) 1 0
      { s := s, tmpcol := tmp, vectx := vx, somedone := false }
    split at h
    · set t : Lat ℝ := { q.s with fp := { q.s.fp with colKept := setAt q.s.fp.colKept κ false } }
        with ht
      have hIq := hI.zsteps hκd hzs
      have hIt : LInv n d A track t := hIq.congr rfl rfl rfl rfl rfl rfl rfl rfl
      have hfr : HhFrame κ s.fp t.fp := by
        simp only [ht, e]
        refine ⟨rfl, f, fun _ _ => rfl, fun _ _ => rfl, ?_, fun _ _ => rfl,
          fun _ _ => rfl, rfl⟩
        intro c hc; simp only []; rw [setAt_ne _ _ hc]
      have hmid : Mid n d κ t := by
        constructor
        · have : t.str = s.str := hzs.frame.str
          rw [this]
          refine hP.1.congr (fun c hc => hzs.frame.Bcol c hc) hfr ?_
          intro _; simp only [ht, e]; exact hP.1.bz κ hκd
        · intro hk
          have : t.fp.colKept κ = false := setAt_same _ _ _
          rw [this] at hk; simp at hk
      have hpost := hmid.hhR ho hκ hκd (hIt.geo hA)
      split at h
      · exact ih _ _ _ _ (t.hhR o κ) _ _ (hIt.congr rfl rfl rfl rfl rfl rfl rfl rfl) hpost h
      · simp only [Option.some.injEq, Prod.mk.injEq] at h
        obtain ⟨rfl, rfl⟩ := h
        exact ⟨rfl, hpost⟩
    · rename_i hd
      simp only [Option.some.injEq, Prod.mk.injEq] at h
      obtain ⟨rfl, rfl⟩ := h
      have := (g (by simpa using hd)).1
      rw [this]
      exact ⟨rfl, hP⟩

/-- Reduction of a column, both methods. -/
theorem hlllReduce_spec (ho : Exact o) {n d κ : ℕ} {A : Mat Int} {track : Prop}
    (hκ : 0 < κ) (hκd : κ < d) (hA : FullColumnRank (toMatrix n d A)) (fuel : ℕ) (s s' : Lat ℝ)
    (st : ℤ) (hS : 0 < s.numS) (hI : LInv n d A track s) (hM : Mid n d κ s)
    (h : hlllReduce o fuel κ s = some (st, s')) :
    st = 0 ∧ Post n d κ s' ∧ (s.seysenFlag < 1 → SizeRed κ s'.fp.R) := by
  have hpost := hM.hhR ho hκ hκd (hI.geo hA)
  have hI' : LInv n d A track (s.hhR o κ) := hI.congr rfl rfl rfl rfl rfl rfl rfl rfl
  unfold hlllReduce at h
  split at h
  · unfold hsizereduce at h
    simp only [Nat.lt_irrefl, if_false] at h
    rw [show κ - 1 + 1 = κ by omega] at h
    obtain ⟨a, b, c⟩ := hsizeLoop_spec ho hκ hκd hA fuel _ (s.hhR o κ) _ _ hS hI' hpost h
    exact ⟨a, b, fun _ => c⟩
  · rename_i hf
    unfold seysenreduce at h
    obtain ⟨a, b⟩ := seysenLoop_spec ho hκ hκd hA fuel _ _ _ _ _ _ _ hI' hpost h
    exact ⟨a, b, fun h => absurd h hf⟩

theorem hlllReduce_term (ho : ExactTies o) {n d κ : ℕ} {A : Mat Int} {track : Prop}
    (hκ : 0 < κ) (hκd : κ < d) (hA : FullColumnRank (toMatrix n d A)) (fuel : ℕ) (s : Lat ℝ)
    (hS : 0 < s.numS) (hI : LInv n d A track s) (hM : Mid n d κ s) (hf : s.seysenFlag < 1) :
    ∃ r, hlllReduce o (fuel + 2) κ s = some r := by
  have hpost := hM.hhR ho.toExact hκ hκd (hI.geo hA)
  have hI' : LInv n d A track (s.hhR o κ) := hI.congr rfl rfl rfl rfl rfl rfl rfl rfl
  unfold hlllReduce
  rw [if_pos hf]
  unfold hsizereduce
  simp only [Nat.lt_irrefl, if_false]
  rw [show κ - 1 + 1 = κ by omega]
  exact hsizeLoop_term ho hκ hκd hA fuel _ _ hS hI' hpost

/-! ### Head of the loop -/

structure HeadFull (n d : ℕ) (str : ℕ → ℤ) (B : Mat Int) (p : FPart ℝ) (κ : ℕ) : Prop where
  qr : QRv n str B p.V p.R κ
  lo : ∀ c < κ, p.colKept c = true ∧ p.kappamin c = c ∧
    ∀ k < c, p.VR c k = vprod n p.V k (bv n B c)
  hi : ∀ c, κ ≤ c → c < d → p.colKept c = true →
    ∀ k : ℕ, (k : ℤ) < p.kappamin c → k < κ → p.VR c k = vprod n p.V k (bv n B c)
  kκ : κ < d → p.colKept κ = true → p.kappamin κ ≤ κ
  skip : κ < d → p.colKept κ = true → 1 ≤ p.descendu κ → p.descendu κ < κ →
    ColSt n (nmaxOf str κ) κ p (bv n B κ) κ

structure Head (n d : ℕ) (str : ℕ → ℤ) (B : Mat Int) (p : FPart ℝ) (κ : ℕ) : Prop where
  bz : ∀ c < d, ∀ r, nmaxOf str c ≤ r → r < n → p.Bfp c r = 0
  kb : ∀ c < d, p.colKept c = true → (∀ r < n, p.Bfp c r = bv n B c r) ∧
    p.normB2 c = Ex.dot n (bv n B c) (bv n B c) ∧ 0 ≤ p.kappamin c
  de : ∀ c, κ < c → c < d → p.descendu c = 0
  full : κ ≠ 1 → HeadFull n d str B p κ

theorem Head.prep (ho : Exact o) {n d κ : ℕ} {s : Lat ℝ} (hκ : 0 < κ) (hκd : κ < d)
    (hn : s.n = n) (hd : s.d = d) (hg : Geo n d s.str s.B)
    (h : Head n d s.str s.B s.fp κ) : Mid n d κ (hlllPrep o κ s) := by
  unfold hlllPrep
  by_cases h1 : κ = 1
  · subst h1
    simp only [if_true]
    set t : Lat ℝ := { s with fp := { s.fp with
        kappamin := fun i => if i < s.d then min (s.fp.kappamin i) 0 else s.fp.kappamin i } } with ht
    have hT0 : 0 < Ex.tail n 0 (Ex.app n t.fp.V 0 (bv n s.B 0)) := by
      have hq0 : QRv n s.str s.B t.fp.V t.fp.R 0 :=
        ⟨fun k hk => by omega, fun k hk => by omega, fun k hk => by omega, fun k hk => by omega,
          fun k hk => by omega⟩
      have hn0 : 0 < n := by have := hg.diag 0 (by omega); have := hg.le 0 (by omega); omega
      have e := hq0.gd_tail hn0
      have p1 : (0 : ℝ) < (gd n s.B (0 + 1) : ℝ) := by exact_mod_cast hg.rank 1 (by omega)
      have p0 : (0 : ℝ) < (gd n s.B 0 : ℝ) := by exact_mod_cast hg.rank 0 (by omega)
      rw [e] at p1
      exact (pos_iff_pos_of_mul_pos p1).mp p0
    obtain ⟨a, f⟩ := householderR_zero_spec ho t.str t.B t.fp (hg.diag 0 (by omega))
      (hg.le 0 (by omega)) (h.bz 0 (by omega)) (hg.supp 0 (by omega))
      (fun hk => ⟨(h.kb 0 (by omega) hk).1, (h.kb 0 (by omega) hk).2.1⟩)
    set p1 := householderR o t.str t.B 0 t.fp with hp1
    have hq0 : QRv n s.str s.B p1.V p1.R 0 :=
      ⟨fun k hk => by omega, fun k hk => by omega, fun k hk => by omega, fun k hk => by omega,
        fun k hk => by omega⟩
    obtain ⟨q1, vf, _⟩ := hq0.extend ho (hg.diag 0 (by omega)) (hg.le 0 (by omega))
      (fun k hk => by omega) (hg.supp 0 (by omega)) a.nmk a.r
      (by rw [f.V]; exact hT0.ne')
    have hfp : ((t.hhR o 0).hhV o 0).fp = householderV o n 0 p1 := by
      show householderV o s.n 0 p1 = _
      rw [hn]
    obtain ⟨V2, R2, e2⟩ := vf.rest
    rw [zero_add] at q1
    have hmin : ∀ c, c < d → c ≠ 0 → s.fp.colKept c = true → p1.kappamin c = 0 := by
      intro c hc hc0 hk
      rw [f.kappamin c hc0]
      simp only [ht, hd, if_pos hc]
      have := (h.kb c hc hk).2.2
      omega
    constructor
    · show Oth n d s.str s.B ((t.hhR o 0).hhV o 0).fp 1
      rw [hfp]
      constructor
      · exact q1
      · intro c hc r hr hrn
        rw [e2]
        by_cases hc0 : c = 0
        · subst hc0
          show p1.Bfp 0 r = 0
          rw [a.bfp r hrn]; simp only [bv, if_pos hrn]
          rw [hg.supp 0 hc r hr hrn]; simp
        · show p1.Bfp c r = 0
          rw [f.Bfp c hc0]; exact h.bz c hc r hr hrn
      · intro c hc hc1 hk
        rw [e2] at hk ⊢
        by_cases hc0 : c = 0
        · subst hc0; exact ⟨a.bfp, a.nrm, by show 0 ≤ p1.kappamin 0; rw [a.kmin]; simp⟩
        · have hk' : s.fp.colKept c = true := by rw [← f.colKept c hc0]; exact hk
          refine ⟨?_, ?_, ?_⟩
          · show ∀ r < n, p1.Bfp c r = _
            rw [f.Bfp c hc0]; exact (h.kb c hc hk').1
          · show p1.normB2 c = _
            rw [f.normB2 c hc0]; exact (h.kb c hc hk').2.1
          · show 0 ≤ p1.kappamin c
            rw [hmin c hc hc0 hk']
      · intro c hc
        have : c = 0 := by omega
        subst this
        rw [e2]
        exact ⟨a.kept, a.kmin, fun k hk => by omega⟩
      · intro c hc hcd hk
        rw [e2] at hk ⊢
        have hk' : s.fp.colKept c = true := by rw [← f.colKept c (by omega)]; exact hk
        have := hmin c hcd (by omega) hk'
        refine ⟨by show p1.kappamin c ≤ _; rw [this]; simp, fun k hk2 => ?_⟩
        have hk2 : (k : ℤ) < p1.kappamin c := hk2
        rw [this] at hk2; omega
      · intro c hc hcd
        rw [e2]
        show p1.descendu c = 0
        rw [f.descendu]; exact h.de c hc hcd
    · show ((t.hhR o 0).hhV o 0).fp.colKept 1 = true →
        ColPre n (nmaxOf s.str 1) 1 ((t.hhR o 0).hhV o 0).fp (bv n s.B 1)
      rw [hfp, e2]
      intro hk
      have hk' : s.fp.colKept 1 = true := by rw [← f.colKept 1 (by omega)]; exact hk
      have hm := hmin 1 hκd (by omega) hk'
      refine ⟨?_, ?_, ?_, ?_, ?_, ?_⟩
      · show ∀ r < n, p1.Bfp 1 r = _
        rw [f.Bfp 1 (by omega)]; exact (h.kb 1 hκd hk').1
      · show p1.normB2 1 = _
        rw [f.normB2 1 (by omega)]; exact (h.kb 1 hκd hk').2.1
      · show 0 ≤ p1.kappamin 1; rw [hm]
      · show p1.kappamin 1 ≤ _; rw [hm]; simp
      · intro k hk2
        have hk2 : (k : ℤ) < p1.kappamin 1 := hk2
        rw [hm] at hk2; omega
      · intro h1 h2; omega
  · rw [if_neg h1]
    have hf := h.full h1
    constructor
    · show Oth n d s.str s.B _ κ
      constructor
      · exact hf.qr
      · exact h.bz
      · intro c hc hcκ hk
        obtain ⟨a, b, e⟩ := h.kb c hc hk
        refine ⟨a, b, ?_⟩
        simp only []
        split
        · exact le_min e (by omega)
        · exact e
      · intro c hc
        obtain ⟨a, b, e⟩ := hf.lo c hc
        refine ⟨a, ?_, e⟩
        simp only []
        rw [if_neg (by omega)]; exact b
      · intro c hc hcd hk
        simp only [hd]
        rw [if_pos ⟨hc, hcd⟩]
        refine ⟨min_le_right _ _, fun k hk2 => ?_⟩
        exact hf.hi c hc.le hcd hk k (lt_of_lt_of_le hk2 (min_le_left _ _))
          (by have := lt_of_lt_of_le hk2 (min_le_right _ _); omega)
      · exact h.de
    · intro hk
      obtain ⟨a, b, e⟩ := h.kb κ hκd hk
      have hkm : (if κ < κ ∧ κ < s.d then min (s.fp.kappamin κ) (κ : ℤ) else s.fp.kappamin κ)
          = s.fp.kappamin κ := if_neg (by omega)
      refine ⟨a, b, ?_, ?_, ?_, ?_⟩
      · show 0 ≤ (if κ < κ ∧ κ < s.d then _ else _); rw [hkm]; exact e
      · show (if κ < κ ∧ κ < s.d then _ else _) ≤ _; rw [hkm]; exact hf.kκ hκd hk
      · intro k hk2
        have hk2 : (k : ℤ) < (if κ < κ ∧ κ < s.d then min (s.fp.kappamin κ) (κ : ℤ)
          else s.fp.kappamin κ) := hk2
        rw [hkm] at hk2
        exact hf.hi κ (le_refl _) hκd hk k hk2 (by have := hf.kκ hκd hk; omega)
      · intro h3 h4
        exact ⟨(hf.skip hκd hk h3 h4).rk, (hf.skip hκd hk h3 h4).vr⟩

/-- `newt` is the squared norm of the part of `b_κ` orthogonal to the first `κ-1` columns. -/
theorem newt_eq (ho : Exact o) {n d κ : ℕ} {s : Lat ℝ} (hκ : 0 < κ) (hκd : κ < d)
    (hg : Geo n d s.str s.B) (h : Post n d κ s) :
    newt o s.str κ s.fp = Ex.tail n (κ - 1) (Ex.app n s.fp.V κ (bv n s.B κ)) := by
  obtain ⟨h1, h2⟩ := h
  have hd := hg.diag κ hκd
  have hl := hg.le κ hκd
  unfold newt
  simp only []
  rw [Ex.tail_succ n (κ - 1) _ (by omega), show κ - 1 + 1 = κ by omega, ho.add, ho.mul, ho.mul]
  have e1 : fpNorm o (getcol s.fp.R κ κ) (nmaxOf s.str κ - κ) =
      Real.sqrt (Ex.tail n κ (Ex.app n s.fp.V κ (bv n s.B κ))) := by
    unfold fpNorm
    rw [fpNormSq_exact ho _ _ (by omega), ho.sqrt]
    rw [← tail_restrict hl _ (fun r hr => h1.qr.app_supp
      (fun k hk => hg.mono k κ (by omega) hκd) (hg.supp κ hκd) r hr)]
    congr 1
    refine sum_congr rfl fun i hi => ?_
    have := mem_range.mp hi
    simp only [getcol]; rw [h2.r _ (by omega)]
  rw [e1, Real.mul_self_sqrt (Ex.tail_nonneg _ _ _), h2.r (κ - 1) (by omega)]
  ring

/-- The UP branch. -/
theorem Post.up (ho : Exact o) {n d κ : ℕ} {s : Lat ℝ} (hκ : 0 < κ) (hκd : κ < d)
    (hn : s.n = n) (hg : Geo n d s.str s.B) (h : Post n d κ s) :
    Head n d s.str s.B (hlllUp κ (s.hhV o κ)).fp (κ + 1) ∧
    HvFrame κ s.fp (s.hhV o κ).fp ∧
    (s.hhV o κ).fp.R κ κ * (s.hhV o κ).fp.R κ κ
      = Ex.tail n κ (Ex.app n s.fp.V κ (bv n s.B κ)) ∧
    (gd n s.B (κ + 1) : ℝ) =
      (gd n s.B κ : ℝ) * ((s.hhV o κ).fp.R κ κ * (s.hhV o κ).fp.R κ κ) := by
  obtain ⟨h1, h2⟩ := h
  have hgt := h1.qr.gd_tail (by have := hg.diag κ hκd; have := hg.le κ hκd; omega : κ < n)
  have hT : Ex.tail n κ (Ex.app n s.fp.V κ (bv n s.B κ)) ≠ 0 := by
    intro h0
    rw [h0, mul_zero] at hgt
    have p1 : (0 : ℝ) < (gd n s.B (κ + 1) : ℝ) := by exact_mod_cast hg.rank (κ + 1) (by omega)
    linarith
  obtain ⟨q, vf, hR⟩ := h1.qr.extend ho (hg.diag κ hκd) (hg.le κ hκd)
    (fun k hk => hg.mono k κ (by omega) hκd) (hg.supp κ hκd) h2.nmk h2.r hT
  have hfp : (s.hhV o κ).fp = householderV o n κ s.fp := by
    show householderV o s.n κ s.fp = _; rw [hn]
  rw [hfp]
  refine ⟨?_, vf, hR, by rw [hR]; exact hgt⟩
  obtain ⟨V2, R2, e2⟩ := vf.rest
  have happ : ∀ k ≤ κ, ∀ x, vprod n (householderV o n κ s.fp).V k x = vprod n s.fp.V k x ∨ k = κ := by
    intro k hk x
    by_cases hkκ : k = κ
    · right; exact hkκ
    · left
      unfold vprod
      rw [Ex.app_congrV n _ s.fp.V k (fun j hj => vf.V j (by omega))]
      congr 1
      funext r; simp only [Ex.vv]; rw [vf.V k hkκ]
  have hvp : ∀ k < κ, ∀ x, vprod n (householderV o n κ s.fp).V k x = vprod n s.fp.V k x := by
    intro k hk x
    rcases happ k hk.le x with h | h
    · exact h
    · omega
  have hup : (hlllUp κ (s.hhV o κ)).fp =
      { householderV o n κ s.fp with
        descendu :=
          let de := setAt s.fp.descendu κ 0
          if κ = 1 then setAt de 0 0 else de } := by
    unfold hlllUp
    simp only [hfp]
    rw [e2]
  rw [hup]
  rw [e2] at q hvp ⊢
  constructor
  · exact h1.bz
  · intro c hc hk
    by_cases hcκ : c = κ
    · subst hcκ
      exact ⟨h2.bfp, h2.nrm, by show 0 ≤ s.fp.kappamin c; rw [h2.kmin]; omega⟩
    · exact h1.kb c hc hcκ hk
  · intro c hc hcd
    simp only []
    have hde : setAt s.fp.descendu κ 0 c = 0 := by
      rw [setAt_ne _ _ (by omega)]; exact h1.de c (by omega) hcd
    split
    · rw [setAt_ne _ _ (by omega)]; exact hde
    · exact hde
  · intro _
    constructor
    · exact q
    · intro c hc
      by_cases hcκ : c = κ
      · subst hcκ
        refine ⟨h2.kept, h2.kmin, fun k hk => ?_⟩
        have := h2.col.vr k hk
        simp only []
        rw [this, hvp k hk]
      · obtain ⟨a, b, e⟩ := h1.lo c (by omega)
        refine ⟨a, b, fun k hk => ?_⟩
        have := e k hk
        simp only []
        rw [this, hvp k (by omega)]
    · intro c hc hcd hk k hk2 hk3
      obtain ⟨a, b⟩ := h1.hi c (by omega) hcd hk
      have hk2 : (k : ℤ) < s.fp.kappamin c := hk2
      have := b k hk2
      simp only []
      rw [this, hvp k (by omega)]
    · intro hd hk
      have := (h1.hi (κ + 1) (by omega) hd hk).1
      simp only []
      push_cast; omega
    · intro hd hk h3 h4
      exfalso
      simp only [] at h3
      have hde : setAt s.fp.descendu κ 0 (κ + 1) = 0 := by
        rw [setAt_ne _ _ (by omega)]; exact h1.de (κ + 1) (by omega) hd
      split at h3
      · rw [setAt_ne _ _ (by omega), hde] at h3; omega
      · rw [hde] at h3; omega

theorem bv_colswap (n : ℕ) (B : Mat Int) (a b c : ℕ) :
    bv n (colswap B a b) c = if c = a then bv n B b else if c = b then bv n B a else bv n B c := by
  unfold bv colswap
  split
  · rfl
  · split <;> rfl

/-- The DOWN branch. -/
theorem Post.down {n d κ : ℕ} {s : Lat ℝ} (hκ : 0 < κ) (hκd : κ < d)
    (hg : Geo n d s.str s.B) (h : Post n d κ s) :
    Head n d (hlllDown κ s).str (hlllDown κ s).B (hlllDown κ s).fp (max (κ - 1) 1) := by
  obtain ⟨h1, h2⟩ := h
  have hlo := h1.lo (κ - 1) (by omega)
  have hkb1 := h1.kb (κ - 1) (by omega) (by omega) hlo.1
  have hne : κ ≠ κ - 1 := by omega
  have hstrκ : (hlllDown κ s).str κ = s.str κ := by
    simp only [hlllDown]; rw [setAt_ne _ _ hne]
  have hstr1 : (hlllDown κ s).str (κ - 1) = s.str κ := by simp only [hlllDown]; rw [setAt_same]
  constructor
  · intro c hc r hr hrn
    simp only [hlllDown] at hr ⊢
    unfold colswap
    by_cases c1 : c = κ - 1
    · subst c1
      rw [if_pos rfl]
      have : nmaxOf (setAt s.str (κ - 1) (s.str κ)) (κ - 1) = nmaxOf s.str κ := by
        unfold nmaxOf; rw [setAt_same]
      rw [this] at hr
      exact h1.bz κ hκd r hr hrn
    · rw [if_neg c1]
      have : nmaxOf (setAt s.str (κ - 1) (s.str κ)) c = nmaxOf s.str c := by
        unfold nmaxOf; rw [setAt_ne _ _ c1]
      rw [this] at hr
      by_cases c2 : c = κ
      · subst c2
        rw [if_pos rfl]
        exact h1.bz (c - 1) (by omega) r (le_trans (hg.mono (c - 1) c (by omega) hκd) hr) hrn
      · rw [if_neg c2]; exact h1.bz c hc r hr hrn
  · intro c hc hk
    simp only [hlllDown, bv_colswap] at hk ⊢
    by_cases c1 : c = κ - 1
    · subst c1
      simp only [if_true, colswap]
      rw [setAt_same]
      exact ⟨h2.bfp, h2.nrm, by rw [hlo.2.1]; omega⟩
    · simp only [if_neg c1, colswap]
      rw [setAt_ne _ _ c1]
      by_cases c2 : c = κ
      · subst c2
        simp only [if_true]
        rw [setAt_same]
        exact ⟨hkb1.1, hkb1.2.1, by rw [h2.kmin]; omega⟩
      · simp only [if_neg c2]
        rw [setAt_ne _ _ c2]
        exact h1.kb c hc c2 hk
  · intro c hc hcd
    simp only [hlllDown]
    by_cases c2 : c = κ
    · subst c2; rw [setAt_same]
    · rw [setAt_ne _ _ c2]
      split
      · rw [setAt_ne _ _ (by omega)]; exact h1.de c (by omega) hcd
      · rw [setAt_ne _ _ (by omega)]; exact h1.de c (by omega) hcd
  · intro hκ1
    have hκ2 : max (κ - 1) 1 = κ - 1 := by omega
    rw [hκ2]
    rw [hκ2] at hκ1
    constructor
    · refine (h1.qr.mono (by omega : κ - 1 ≤ κ)).congr ?_ ?_ (fun _ _ => rfl) (fun _ _ => rfl)
      · intro k hk; simp only [hlllDown]; rw [setAt_ne _ _ (by omega)]
      · intro k hk; simp only [hlllDown, colswap]; rw [if_neg (by omega), if_neg (by omega)]
    · intro c hc
      obtain ⟨a, b, e⟩ := h1.lo c (by omega)
      refine ⟨a, b, fun k hk => ?_⟩
      simp only [hlllDown, bv_colswap]
      rw [if_neg (by omega), if_neg (by omega)]
      simp only [colswap]
      rw [if_neg (by omega), if_neg (by omega)]
      exact e k hk
    · intro c hc hcd hk k hk2 hk3
      simp only [hlllDown, bv_colswap] at hk hk2 ⊢
      simp only [colswap]
      by_cases c1 : c = κ - 1
      · subst c1
        rw [if_pos rfl, if_pos rfl]
        exact h2.col.vr k (by omega)
      · rw [if_neg c1, if_neg c1]
        by_cases c2 : c = κ
        · subst c2
          rw [if_pos rfl, if_pos rfl]
          exact hlo.2.2 k hk3
        · rw [if_neg c2, if_neg c2]
          exact (h1.hi c (by omega) hcd hk).2 k hk2
    · intro _ _
      simp only [hlllDown]
      rw [hlo.2.1]
    · intro _ _ _ _
      have hnm : nmaxOf (hlllDown κ s).str (κ - 1) = nmaxOf s.str κ := by
        unfold nmaxOf; rw [hstr1]
      rw [hnm]
      have hb : bv n (hlllDown κ s).B (κ - 1) = bv n s.B κ := by
        simp only [hlllDown, bv_colswap]; rw [if_pos trivial]
      rw [hb]
      constructor
      · intro k hk i hki hi
        exact h2.col.rk k (by omega) i hki hi
      · intro k hk
        have : (hlllDown κ s).fp.VR (κ - 1) = s.fp.VR κ := by
          simp only [hlllDown, colswap]; rw [if_pos trivial]
        rw [this]
        exact h2.col.vr k (by omega)

end HPLLL
