import Verif.Proof.Par
import Verif.Proof.HlllExit
import Verif.Proof.Safe
/-! Thread settings do not change the outcome of `hlll` (size reduction method). -/

namespace HPLLL
open Spec

variable {F : Type} (o : FPOps F)

/-- Equal up to thread settings, transformation matrix and the `ub` flag. -/
structure Sim (s t : Lat F) : Prop where
  n : s.n = t.n
  d : s.d = t.d
  B : s.B = t.B
  kappaMax : s.kappaMax = t.kappaMax
  nblovMax : s.nblovMax = t.nblovMax
  str : s.str = t.str
  nblov : s.nblov = t.nblov
  nbswaps : s.nbswaps = t.nbswaps
  seysenFlag : s.seysenFlag = t.seysenFlag
  fastLong : s.fastLong = t.fastLong
  fp : s.fp = t.fp
  verboseDepth : s.verboseDepth = t.verboseDepth

/-- Same availability, status and related objects. -/
def SimO : Option (Int × Lat F) → Option (Int × Lat F) → Prop
  | none, none => True
  | some (a, s), some (b, t) => a = b ∧ Sim s t
  | _, _ => False

theorem Sim.hhR {s t : Lat F} (h : Sim s t) (κ : Nat) : Sim (s.hhR o κ) (t.hhR o κ) := by
  obtain ⟨h1, h2, h3, h4, h5, h6, h7, h8, h9, h10, h11, h12⟩ := h
  constructor <;> first | assumption | (simp only [Lat.hhR, h6, h3, h11])

theorem Sim.hhV {s t : Lat F} (h : Sim s t) (κ : Nat) : Sim (s.hhV o κ) (t.hhV o κ) := by
  obtain ⟨h1, h2, h3, h4, h5, h6, h7, h8, h9, h10, h11, h12⟩ := h
  constructor <;> first | assumption | (simp only [Lat.hhV, h1, h11])

theorem sizeUpdateRLoop_above (κ m : Nat) : ∀ (q : Lat F × (Nat → F) × Bool) (i : Nat), m ≤ i →
    (sizeUpdateRLoop o κ m q).2.1 i = q.2.1 i := by
  induction m with
  | zero => intro q i _; rfl
  | succ m ih =>
    intro q i hi
    simp only [sizeUpdateRLoop]
    rw [ih _ i (by omega)]
    unfold sizeUpdateRStep
    simp only []
    split <;> exact setAt_ne _ _ (by omega)

theorem axpy_len {M : Mat Int} {κ i l l' : Nat} (c : Int) (hl : l ≤ l')
    (h : ∀ r, l ≤ r → r < l' → M i r = 0) : axpy M κ i c l = axpy M κ i c l' := by
  unfold axpy
  funext j
  by_cases hj : j = κ
  · subst hj
    rw [setCol_same, setCol_same]
    funext r
    by_cases h1 : r < l
    · rw [if_pos h1, if_pos (by omega)]
    · by_cases h2 : r < l'
      · rw [if_neg h1, if_pos h2, h r (by omega) h2]; ring
      · rw [if_neg h1, if_neg h2]
  · rw [setCol_ne _ _ hj, setCol_ne _ _ hj]

/-- Sequential reduction = reduction of `R` followed by the column operations. -/
theorem sizeUpdateLoop_canon (κ l m : Nat) (hm : m ≤ κ) : ∀ (s t : Lat F) (vx : Nat → F) (b : Bool),
    s.fp = t.fp → (∀ i < m, nmaxOf s.str i ≤ l ∧ ∀ r, nmaxOf s.str i ≤ r → r < l → s.B i r = 0) →
    (sizeUpdateLoop o κ m (s, b)).1.fp = (sizeUpdateRLoop o κ m (t, vx, b)).1.fp ∧
    (sizeUpdateLoop o κ m (s, b)).2 = (sizeUpdateRLoop o κ m (t, vx, b)).2.2 ∧
    (sizeUpdateLoop o κ m (s, b)).1.B =
      seqCols o s.fastLong κ (sizeUpdateRLoop o κ m (t, vx, b)).2.1 l m s.B := by
  induction m with
  | zero => intro s t vx b h _; exact ⟨h, rfl, rfl⟩
  | succ m ih =>
    intro s t vx b hfp hsup
    rw [sizeUpdateLoop, sizeUpdateRLoop]
    by_cases hz : o.isZero (o.rnd (o.div (s.fp.R κ m) (s.fp.R m m))) = true
    · have e1 : sizeUpdateStep o κ m (s, b) =
          ({ s with fp := { s.fp with x := o.rnd (o.div (s.fp.R κ m) (s.fp.R m m)) } }, b) := by
        simp [sizeUpdateStep, hz]
      have e2 : sizeUpdateRStep o κ m (t, vx, b) =
          ({ t with fp := { t.fp with x := o.rnd (o.div (s.fp.R κ m) (s.fp.R m m)) } },
            setAt vx m (o.rnd (o.div (s.fp.R κ m) (s.fp.R m m))), b) := by
        rw [hfp] at hz; simp [sizeUpdateRStep, hz, hfp]
      rw [e1, e2]
      have := ih (by omega)
        { s with fp := { s.fp with x := o.rnd (o.div (s.fp.R κ m) (s.fp.R m m)) } }
        { t with fp := { t.fp with x := o.rnd (o.div (s.fp.R κ m) (s.fp.R m m)) } }
        (setAt vx m (o.rnd (o.div (s.fp.R κ m) (s.fp.R m m)))) b (by simp only [hfp])
        (fun i hi => hsup i (by omega))
      obtain ⟨a1, a2, a3⟩ := this
      refine ⟨a1, a2, a3.trans ?_⟩
      rw [seqCols, sizeUpdateRLoop_above _ _ _ _ m (le_refl m)]
      simp only [setAt_same, hz, if_true]
    · have hz' : o.isZero (o.rnd (o.div (s.fp.R κ m) (s.fp.R m m))) = false := by simpa using hz
      set x := o.rnd (o.div (s.fp.R κ m) (s.fp.R m m)) with hx
      obtain ⟨bu, e1⟩ : ∃ s1 : Lat F, sizeUpdateStep o κ m (s, b) = (s1, true) ∧
          s1.fp = { s.fp with x := x, R := redR o κ m (m + 1) x s.fp.R } ∧
          s1.str = s.str ∧ s1.fastLong = s.fastLong ∧
          s1.B = redZ o s.fastLong κ m (nmaxOf s.str m) x x s.B := by
        refine ⟨(sizeUpdateStep o κ m (s, b)).1, ?_, ?_, ?_, ?_, ?_⟩ <;>
          simp [sizeUpdateStep, ← hx, hz']
      obtain ⟨e1, f1, f2, f3, f4⟩ := e1
      obtain ⟨t1, e2, g1⟩ : ∃ t1 : Lat F, sizeUpdateRStep o κ m (t, vx, b) = (t1, setAt vx m x, true) ∧
          t1.fp = { s.fp with x := x, R := redR o κ m (m + 1) x s.fp.R } := by
        rw [hfp] at hx
        refine ⟨(sizeUpdateRStep o κ m (t, vx, b)).1, ?_, ?_⟩ <;>
          simp [sizeUpdateRStep, ← hx, hz', hfp]
      rw [e1, e2]
      have hB1 : bu.B = axpy s.B κ m (multOf o s.fastLong x x) l := by
        rw [f4, redZ_eq]
        exact axpy_len _ (hsup m (by omega)).1 (hsup m (by omega)).2
      obtain ⟨a1, a2, a3⟩ := ih (by omega) bu t1 (setAt vx m x) true (f1.trans g1.symm) (by
        intro i hi
        rw [f2, hB1]
        refine ⟨(hsup i (by omega)).1, fun r h1 h2 => ?_⟩
        rw [axpy, setCol_ne _ _ (by omega)]
        exact (hsup i (by omega)).2 r h1 h2)
      refine ⟨a1, a2, a3.trans ?_⟩
      rw [seqCols, sizeUpdateRLoop_above _ _ _ _ m (le_refl m)]
      simp only [setAt_same, hz', Bool.false_eq_true, if_false]
      rw [f3, hB1]

theorem sizeUpdateRLoop_fp (κ m : Nat) : ∀ (s t : Lat F) (vx : Nat → F) (b : Bool), s.fp = t.fp →
    (sizeUpdateRLoop o κ m (s, vx, b)).1.fp = (sizeUpdateRLoop o κ m (t, vx, b)).1.fp ∧
    (sizeUpdateRLoop o κ m (s, vx, b)).2 = (sizeUpdateRLoop o κ m (t, vx, b)).2 := by
  induction m with
  | zero => intro s t vx b h; exact ⟨h, rfl⟩
  | succ m ih =>
    intro s t vx b h
    simp only [sizeUpdateRLoop]
    have e : (sizeUpdateRStep o κ m (s, vx, b)).1.fp = (sizeUpdateRStep o κ m (t, vx, b)).1.fp ∧
        (sizeUpdateRStep o κ m (s, vx, b)).2 = (sizeUpdateRStep o κ m (t, vx, b)).2 := by
      unfold sizeUpdateRStep
      simp only [h]
      split <;> exact ⟨rfl, rfl⟩
    obtain ⟨e1, e2⟩ := e
    have h1 : sizeUpdateRStep o κ m (s, vx, b) =
      ((sizeUpdateRStep o κ m (s, vx, b)).1, (sizeUpdateRStep o κ m (t, vx, b)).2.1,
        (sizeUpdateRStep o κ m (t, vx, b)).2.2) := by rw [← e2]
    have h2 : sizeUpdateRStep o κ m (t, vx, b) =
      ((sizeUpdateRStep o κ m (t, vx, b)).1, (sizeUpdateRStep o κ m (t, vx, b)).2.1,
        (sizeUpdateRStep o κ m (t, vx, b)).2.2) := rfl
    rw [h1, h2]
    exact ih _ _ _ _ e1

/-- One pass, whatever the thread settings. -/
theorem hsizePass_canon {n d κ : Nat} {A : Mat Int} {track : Prop} {s : Lat F} (hκ : κ < d)
    (hI : LInv n d A track s) (hS : 0 < s.numS) :
    (hsizePass o κ κ s).1.fp = (sizeUpdateRLoop o κ κ (s, fun _ => o.zero, false)).1.fp ∧
    (hsizePass o κ κ s).2 = (sizeUpdateRLoop o κ κ (s, fun _ => o.zero, false)).2.2 ∧
    (hsizePass o κ κ s).1.B = seqCols o s.fastLong κ
      (sizeUpdateRLoop o κ κ (s, fun _ => o.zero, false)).2.1 (psizeNmax s.str κ) κ s.B := by
  unfold hsizePass
  split
  · refine sizeUpdateLoop_canon o κ (psizeNmax s.str κ) κ (le_refl κ) s s _ _ rfl ?_
    intro i hi
    refine ⟨nmaxOf_le_psizeNmax _ _ _ (by omega), fun r h1 h2 => ?_⟩
    have := psizeNmax_le (m := κ) hI.rng hκ
    refine hI.supp i (by omega) r (by omega) ?_
    unfold nmaxOf at h1; omega
  · obtain ⟨p, b, h⟩ := sizeUpdateRLoop_zs o (κ := κ) κ (s, (fun _ => o.zero), false)
    simp only [h]
    refine ⟨trivial, trivial, ?_⟩
    exact psizeUpdateB_eq o s.fastLong κ κ s.str _ s.numS s.B (le_refl κ) hS

theorem Sim.hsizePass {n d κ : Nat} {A : Mat Int} {track track' : Prop} {s t : Lat F} (hκ : κ < d)
    (hI : LInv n d A track s) (hI' : LInv n d A track' t) (hS : 0 < s.numS) (hS' : 0 < t.numS)
    (h : Sim s t) : Sim (hsizePass o κ κ s).1 (hsizePass o κ κ t).1 ∧
      (HPLLL.hsizePass o κ κ s).2 = (HPLLL.hsizePass o κ κ t).2 := by
  obtain ⟨a1, a2, a3⟩ := hsizePass_canon o hκ hI hS
  obtain ⟨b1, b2, b3⟩ := hsizePass_canon o hκ hI' hS'
  obtain ⟨e1, e2⟩ := sizeUpdateRLoop_fp o κ κ s t (fun _ => o.zero) false h.fp
  have f := (hsizePass_zs o (κ := κ) (le_refl κ) s).frame
  have g := (hsizePass_zs o (κ := κ) (le_refl κ) t).frame
  refine ⟨?_, by rw [a2, b2, e2]⟩
  constructor
  · rw [f.n, g.n, h.n]
  · rw [f.d, g.d, h.d]
  · rw [a3, b3, e2, h.fastLong, h.str, h.B]
  · rw [f.kappaMax, g.kappaMax, h.kappaMax]
  · rw [f.nblovMax, g.nblovMax, h.nblovMax]
  · rw [f.str, g.str, h.str]
  · rw [f.nblov, g.nblov, h.nblov]
  · rw [f.nbswaps, g.nbswaps, h.nbswaps]
  · rw [f.seysenFlag, g.seysenFlag, h.seysenFlag]
  · rw [f.fastLong, g.fastLong, h.fastLong]
  · rw [a1, b1, e1]
  · rw [f.verboseDepth, g.verboseDepth, h.verboseDepth]

theorem Sim.drop {κ : Nat} {s t : Lat F} (h : Sim s t) :
    Sim { s with fp := { s.fp with colKept := setAt s.fp.colKept κ false } }
      { t with fp := { t.fp with colKept := setAt t.fp.colKept κ false } } := by
  obtain ⟨h1, h2, h3, h4, h5, h6, h7, h8, h9, h10, h11, h12⟩ := h
  constructor <;> first | assumption | (simp only [h11])

theorem SimO.hsizeLoop {n d κ : Nat} {A : Mat Int} {track track' : Prop} (hκ : κ < d) (fuel : Nat) :
    ∀ (b : Bool) (s t : Lat F), LInv n d A track s → LInv n d A track' t → 0 < s.numS → 0 < t.numS →
      Sim s t → SimO (HPLLL.hsizeLoop o κ κ fuel b s) (HPLLL.hsizeLoop o κ κ fuel b t) := by
  induction fuel with
  | zero => intro b s t _ _ _ _ _; exact trivial
  | succ fuel ih =>
    intro b s t hI hI' hS hS' h
    obtain ⟨p1, p2⟩ := Sim.hsizePass o hκ hI hI' hS hS' h
    have zs := hsizePass_zs o (κ := κ) (le_refl κ) s
    have zt := hsizePass_zs o (κ := κ) (le_refl κ) t
    simp only [HPLLL.hsizeLoop, p2, p1.fp]
    have q1 := (p1.drop (κ := κ)).hhR o κ
    have eN : (Lat.hhR o κ { (HPLLL.hsizePass o κ κ s).1 with
        fp := { (HPLLL.hsizePass o κ κ s).1.fp with
          colKept := setAt (HPLLL.hsizePass o κ κ s).1.fp.colKept κ false } }).fp =
      (Lat.hhR o κ { (HPLLL.hsizePass o κ κ t).1 with
        fp := { (HPLLL.hsizePass o κ κ t).1.fp with
          colKept := setAt (HPLLL.hsizePass o κ κ t).1.fp.colKept κ false } }).fp := q1.fp
    rw [p1.fp] at eN q1
    simp only [eN]
    split
    · split
      · split
        · exact ⟨rfl, q1⟩
        · exact ⟨rfl, q1⟩
      · refine ih _ _ _ ?_ ?_ ?_ ?_ q1
        · exact (hI.zsteps hκ zs).congr rfl rfl rfl rfl rfl rfl rfl rfl
        · exact (hI'.zsteps hκ zt).congr rfl rfl rfl rfl rfl rfl rfl rfl
        · show 0 < (HPLLL.hsizePass o κ κ s).1.numS
          rw [zs.frame.numS]; exact hS
        · show 0 < (HPLLL.hsizePass o κ κ t).1.numS
          rw [zt.frame.numS]; exact hS'
    · exact ⟨rfl, p1⟩

theorem SimO.reduce {n d κ : Nat} {A : Mat Int} {track track' : Prop} (h0 : 0 < κ) (hκ : κ < d)
    (fuel : Nat) (s t : Lat F) (hI : LInv n d A track s) (hI' : LInv n d A track' t)
    (hS : 0 < s.numS) (hS' : 0 < t.numS) (hf : s.seysenFlag < 1) (h : Sim s t) :
    SimO (hlllReduce o fuel κ s) (hlllReduce o fuel κ t) := by
  unfold hlllReduce
  rw [← h.seysenFlag, if_pos hf, if_pos hf]
  unfold hsizereduce
  simp only [Nat.lt_irrefl, if_false]
  rw [show κ - 1 + 1 = κ by omega]
  refine SimO.hsizeLoop (n := n) (A := A) (track := track) (track' := track') o hκ fuel true _ _ ?_ ?_ hS hS' (h.hhR o κ)
  · exact hI.congr rfl rfl rfl rfl rfl rfl rfl rfl
  · exact hI'.congr rfl rfl rfl rfl rfl rfl rfl rfl

theorem Sim.prep {s t : Lat F} (h : Sim s t) (κ : Nat) : Sim (hlllPrep o κ s) (hlllPrep o κ t) := by
  unfold hlllPrep
  split
  · refine Sim.hhV o (Sim.hhR o ?_ 0) 0
    obtain ⟨h1, h2, h3, h4, h5, h6, h7, h8, h9, h10, h11, h12⟩ := h
    constructor <;> first | assumption | (simp only [h11, h2])
  · obtain ⟨h1, h2, h3, h4, h5, h6, h7, h8, h9, h10, h11, h12⟩ := h
    constructor <;> first | assumption | (simp only [h11, h2])

theorem Sim.down {s t : Lat F} (h : Sim s t) (κ : Nat) : Sim (hlllDown κ s) (hlllDown κ t) := by
  obtain ⟨h1, h2, h3, h4, h5, h6, h7, h8, h9, h10, h11, h12⟩ := h
  constructor <;> first | assumption | (simp only [hlllDown, h3, h6, h8, h11])

theorem Sim.up {s t : Lat F} (h : Sim s t) (κ : Nat) : Sim (hlllUp κ s) (hlllUp κ t) := by
  obtain ⟨h1, h2, h3, h4, h5, h6, h7, h8, h9, h10, h11, h12⟩ := h
  constructor <;> first | assumption | (simp only [hlllUp, h11])

theorem SimO.loop {n d : Nat} {A : Mat Int} {track track' : Prop} (δ : F) (fuel : Nat) :
    ∀ (h g : HState F), LInv n d A track h.s → LInv n d A track' g.s → 0 < h.s.numS → 0 < g.s.numS →
      h.s.seysenFlag < 1 → h.s.kappaMax ≤ d → 0 < h.kappa → Sim h.s g.s → h.kappa = g.kappa →
      h.prevkappa = g.prevkappa → h.prevR = g.prevR →
      SimO (hlllLoop o δ fuel h) (hlllLoop o δ fuel g) := by
  induction fuel with
  | zero => intros; exact trivial
  | succ fuel ih =>
    intro h g hI hI' hS hS' hf hkm h0 hs hk hpk hpr
    obtain ⟨gs, gk, gp, gr⟩ := g
    simp only [] at hI' hS' hs hk hpk hpr
    subst hk hpk hpr
    simp only [hlllLoop]
    rw [← hs.kappaMax, ← hs.nblov, ← hs.nblovMax]
    split
    · rename_i hc
      have hκ : h.kappa < d := by omega
      have zp := hlllPrep_zs o h.kappa h.s
      have zp' := hlllPrep_zs o h.kappa gs
      have hIp := hI.zsteps hκ zp
      have hIp' := hI'.zsteps hκ zp'
      have hr := SimO.reduce o h0 hκ (fuel + 1) (hlllPrep o h.kappa h.s) (hlllPrep o h.kappa gs)
        hIp hIp' (by rw [zp.frame.numS]; exact hS) (by rw [zp'.frame.numS]; exact hS')
        (by rw [zp.frame.seysenFlag]; exact hf) (hs.prep o h.kappa)
      unfold hlllStep
      simp only []
      cases e1 : hlllReduce o (fuel + 1) h.kappa (hlllPrep o h.kappa h.s) with
      | none =>
        cases e2 : hlllReduce o (fuel + 1) h.kappa (hlllPrep o h.kappa gs) with
        | none => trivial
        | some r => rw [e1, e2] at hr; exact hr.elim
      | some r =>
        cases e2 : hlllReduce o (fuel + 1) h.kappa (hlllPrep o h.kappa gs) with
        | none => rw [e1, e2] at hr; exact hr.elim
        | some r' =>
          obtain ⟨fl, s1⟩ := r
          obtain ⟨fl', s2⟩ := r'
          rw [e1, e2] at hr
          obtain ⟨rfl, hs1⟩ := hr
          have z1 := hlllReduce_zs o h0 _ _ _ _ e1
          have z2 := hlllReduce_zs o h0 _ _ _ _ e2
          have hI1 := hIp.zsteps hκ z1
          have hI2 := hIp'.zsteps hκ z2
          simp only [← hs1.fp, ← hs1.str]
          by_cases hfl : fl = -1
          · simp only [hfl, if_true]; exact ⟨rfl, hs1⟩
          · simp only [if_neg hfl]
            set s1' : Lat F := { s1 with
              nblov := s1.nblov + 1
              ub := s1.ub || !(decide (h.kappa < s1.d ∧ h.kappa < s1.n ∧
                nmaxOf s1.str h.kappa ≤ s1.n)) } with hs1'
            set s2' : Lat F := { s2 with
              nblov := s2.nblov + 1
              str := s1.str
              fp := s1.fp
              ub := s2.ub || !(decide (h.kappa < s2.d ∧ h.kappa < s2.n ∧
                nmaxOf s1.str h.kappa ≤ s2.n)) } with hs2'
            have hsim : Sim s1' s2' := by
              obtain ⟨h1, h2, h3, h4, h5, h6, h7, h8, h9, h10, h11, h12⟩ := hs1
              constructor <;> first | assumption | rfl | (simp only [hs1', hs2', h7, h11])
            have hI1' : LInv n d A track s1' := hI1.congr rfl rfl rfl rfl rfl rfl rfl rfl
            have hI2' : LInv n d A track' s2' := by
              apply hI2.congr <;> first | rfl | exact hs1.str | exact hs1.str.symm
            have hS1 : 0 < s1.numS := by rw [z1.frame.numS, zp.frame.numS]; exact hS
            have hS2 : 0 < s2.numS := by rw [z2.frame.numS, zp'.frame.numS]; exact hS'
            have hf1 : s1.seysenFlag < 1 := by
              rw [z1.frame.seysenFlag, zp.frame.seysenFlag]; exact hf
            have hkm1 : s1.kappaMax ≤ d := by
              rw [z1.frame.kappaMax, zp.frame.kappaMax]; exact hkm
            have hv := hsim.hhV o h.kappa
            have hvfp : (s2'.hhV o h.kappa).fp = (s1'.hhV o h.kappa).fp := hv.fp.symm
            rw [hvfp]
            by_cases hle : o.le (lovtest o δ h.kappa s1.fp) (newt o s1.str h.kappa s1.fp) = true
            · simp only [hle, if_true]
              by_cases hpf : h.prevkappa = h.kappa + 1 ∧
                o.lt (h.prevR h.kappa) (o.abs ((s1'.hhV o h.kappa).fp.R h.kappa h.kappa)) = true
              · simp only [hpf, and_self, if_true]; exact ⟨rfl, hv⟩
              · simp only [if_neg hpf]
                exact ih _ _ (hI1'.congr rfl rfl rfl rfl rfl rfl rfl rfl)
                  (hI2'.congr rfl rfl rfl rfl rfl rfl rfl rfl) hS1 hS2 hf1 hkm1 (Nat.succ_pos _)
                  (hv.up h.kappa) rfl rfl rfl
            · simp only [hle, Bool.false_eq_true, if_false]
              exact ih _ _ (hI1'.down hκ h0) (hI2'.down hκ h0) hS1 hS2 hf1 hkm1
                (by show 0 < max (h.kappa - 1) 1; omega) (hsim.down h.kappa) rfl rfl rfl
    · exact ⟨rfl, hs⟩

theorem SimO.hlll {n d : Nat} {A : Mat Int} {track track' : Prop} (fuel : Nat) (δ : F) (v : Bool)
    (s t : Lat F) (hI : LInv n d A track s) (hI' : LInv n d A track' t) (hS : 0 < s.numS)
    (hS' : 0 < t.numS) (hf : s.seysenFlag < 1) (hkm : s.kappaMax ≤ d) (h : Sim s t) :
    SimO (HPLLL.hlll o fuel δ v s) (HPLLL.hlll o fuel δ v t) := by
  have h1 : Sim (if v then { s with verboseDepth := s.verboseDepth - 1 } else s)
      (if v then { t with verboseDepth := t.verboseDepth - 1 } else t) := by
    cases v
    · exact h
    · obtain ⟨h1, h2, h3, h4, h5, h6, h7, h8, h9, h10, h11, h12⟩ := h
      constructor <;> first | assumption | (simp only [if_true, h12, *])
  have hl : SimO (hlllLoop o δ fuel (hlllInit o
      (if v then { s with verboseDepth := s.verboseDepth - 1 } else s)))
      (hlllLoop o δ fuel (hlllInit o
      (if v then { t with verboseDepth := t.verboseDepth - 1 } else t))) := by
    refine SimO.loop o (n := n) (d := d) (A := A) (track := track) (track' := track') δ fuel _ _
      ?_ ?_ ?_ ?_ ?_ ?_ Nat.one_pos ?_ rfl rfl rfl
    · cases v <;> exact hI.congr rfl rfl rfl rfl rfl rfl rfl rfl
    · cases v <;> exact hI'.congr rfl rfl rfl rfl rfl rfl rfl rfl
    · cases v <;> exact hS
    · cases v <;> exact hS'
    · cases v <;> exact hf
    · cases v <;> exact hkm
    · obtain ⟨h1, h2, h3, h4, h5, h6, h7, h8, h9, h10, h11, h12⟩ := h1
      constructor <;> first | assumption | (simp only [hlllInit, h2, h11])
  unfold HPLLL.hlll
  simp only []
  cases e1 : hlllLoop o δ fuel (hlllInit o
      (if v then { s with verboseDepth := s.verboseDepth - 1 } else s)) with
  | none =>
    cases e2 : hlllLoop o δ fuel (hlllInit o
      (if v then { t with verboseDepth := t.verboseDepth - 1 } else t)) with
    | none => trivial
    | some r => rw [e1, e2] at hl; exact hl.elim
  | some r =>
    cases e2 : hlllLoop o δ fuel (hlllInit o
      (if v then { t with verboseDepth := t.verboseDepth - 1 } else t)) with
    | none => rw [e1, e2] at hl; exact hl.elim
    | some r' =>
      rw [e1, e2] at hl
      obtain ⟨a, hsim⟩ := hl
      refine ⟨a, ?_⟩
      cases v
      · exact hsim
      · obtain ⟨h1, h2, h3, h4, h5, h6, h7, h8, h9, h10, h11, h12⟩ := hsim
        constructor <;> first | assumption | (simp only [if_true, h12])

end HPLLL
