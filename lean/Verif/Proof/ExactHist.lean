import Verif.Proof.ExactExit
import Verif.Proof.Short
import Verif.Proof.Fuel
import Verif.Proof.History
/-! Histories of calls in exact arithmetic. -/

namespace HPLLL
open Spec Finset

variable {o : FPOps ℝ}

theorem ExInv.loop_head (ho : Exact o) {n d : ℕ} {A : Mat Int} {track : Prop} {δ : ℝ}
    (hA : FullColumnRank (toMatrix n d A)) : ∀ (fuel : ℕ) (h : HState ℝ), ExInv n d A track δ h →
    h.s.kappaMax = d → ∀ s', hlllLoop o δ fuel h = some (0, s') →
    ∃ h', ExInv n d A track δ h' ∧ h'.s = s' := by
  intro fuel
  induction fuel with
  | zero => intro h _ _ s' h2; simp [hlllLoop] at h2
  | succ fuel ih =>
    intro h hE hkm s' hl
    simp only [hlllLoop] at hl
    split at hl
    · rename_i hc
      have hκd : h.kappa < d := by omega
      have hst := hE.step ho hA hκd (fuel + 1)
      cases hs : hlllStep o (fuel + 1) δ h with
      | diverge => rw [hs] at hl; simp at hl
      | fail s => rw [hs] at hl; simp at hl
      | next h1 =>
        rw [hs] at hl hst
        obtain ⟨e1, e2, e3, e4⟩ := hst
        exact ih h1 e1 (by rw [e4.kappaMax, hkm]) s' hl
    · obtain ⟨-, rfl⟩ := by simpa using hl
      exact ⟨h, hE, rfl⟩

/-- An object on which `hlll` in exact arithmetic is known to work. -/
structure ExReady (n d : ℕ) (A : Mat Int) (s : Lat ℝ) : Prop where
  inv : LInv n d A False s
  numS : 0 < s.numS
  bz : ∀ c < d, ∀ r, nmaxOf s.str c ≤ r → r < n → s.fp.Bfp c r = 0
  km : s.kappaMax = d

theorem ExReady.init {n d : ℕ} {A : Mat Int} {s : Lat ℝ} (hR : ExReady n d A s) (δ : ℝ) (v : Bool) :
    ExInv n d A False δ (hlllInit o (if v then { s with verboseDepth := s.verboseDepth - 1 } else s)) := by
  refine ExInv.init ?_ ?_ ?_
  · cases v
    · exact hR.inv
    · exact hR.inv.congr rfl rfl rfl rfl rfl rfl rfl rfl
  · cases v <;> exact hR.numS
  · cases v <;> exact hR.bz

theorem ExReady.hlll (ho : Exact o) {n d : ℕ} {A : Mat Int} {s s' : Lat ℝ}
    (hA : FullColumnRank (toMatrix n d A)) (hR : ExReady n d A s) {fuel : ℕ} {δ : ℝ} (hδ : δ ≤ 1)
    {v : Bool} {st : ℤ} (h : hlll o fuel δ v s = some (st, s')) :
    st = 0 ∧ ExReady n d A s' ∧ (s'.nblov < s'.nblovMax →
      LovaszCond δ (toMatrix n d s'.B) ∧ (s'.seysenFlag < 1 → SizeReduced (toMatrix n d s'.B))) := by
  have hE := hR.init (o := o) δ v
  have hX := hlll_exit o fuel δ v s s' st hR.inv (le_of_eq hR.km) h
  unfold HPLLL.hlll at h
  simp only [] at h
  split at h
  · simp at h
  · rename_i st1 s1 hl
    simp only [Option.some.injEq, Prod.mk.injEq] at h
    obtain ⟨rfl, h⟩ := h
    have hkm : (hlllInit o (if v then { s with verboseDepth := s.verboseDepth - 1 } else s)).s.kappaMax
        = d := by cases v <;> exact hR.km
    have hEx := ExInv.loop ho hA fuel _ hE hkm _ _ hl
    have hst : st1 = 0 := by
      rcases hX.status with h | h
      · exact h
      · exact absurd hδ (hEx.fail h)
    subst hst
    obtain ⟨h', hE', rfl⟩ := ExInv.loop_head ho hA fuel _ hE hkm _ hl
    have eB : s'.B = h'.s.B := by rw [← h]; cases v <;> rfl
    have eS : s'.str = h'.s.str := by rw [← h]; cases v <;> rfl
    have eF : s'.fp = h'.s.fp := by rw [← h]; cases v <;> rfl
    have eN : s'.nblov = h'.s.nblov := by rw [← h]; cases v <;> rfl
    have eM : s'.nblovMax = h'.s.nblovMax := by rw [← h]; cases v <;> rfl
    have eY : s'.seysenFlag = h'.s.seysenFlag := by rw [← h]; cases v <;> rfl
    refine ⟨rfl, ⟨hX.inv, ?_, ?_, ?_⟩, ?_⟩
    · rw [hX.cfg.numS]; exact hR.numS
    · rw [eS, eF]; exact hE'.head.bz
    · rw [hX.cfg.kappaMax]; exact hR.km
    · intro hb
      obtain ⟨h2, hE2, e2, hd2⟩ := hEx.done rfl (by omega)
      rw [eB, eY, ← e2]
      by_cases hd1 : d ≤ 1
      · constructor
        · intro i j hij
          have := i.2; omega
        · intro _ i j hij
          have hij' : (j : ℕ) < i := hij
          have := i.2; omega
      · have hk := hE2.kd
        have hκ : h2.kappa = d := by omega
        have hg := hE2.inv.geo hA
        have hdn : d ≤ n := by
          have := hg.diag (d - 1) (by omega); have := hg.le (d - 1) (by omega); omega
        have hq := (hE2.head.full (by omega)).qr
        have hr := hE2.red (by omega)
        rw [hκ] at hq hr
        have := hq.reduced hdn hr
        exact ⟨this.2, this.1⟩

/-- Termination from a ready object. -/
theorem ExReady.terminates (ho : ExactTies o) {n d : ℕ} {A : Mat Int} {s : Lat ℝ}
    (hA : FullColumnRank (toMatrix n d A)) (hR : ExReady n d A s) {δ : ℝ} (hδ : δ ≤ 1)
    (hm : s.seysenFlag < 1) (v : Bool) :
    ∃ fuel s', HPLLL.hlll o fuel δ v s = some (0, s') := by
  have hE := hR.init (o := o) δ v
  set h0 := hlllInit o (if v then { s with verboseDepth := s.verboseDepth - 1 } else s) with hh0
  have hkm : h0.s.kappaMax = d := by cases v <;> exact hR.km
  have hsf : h0.s.seysenFlag < 1 := by cases v <;> exact hm
  obtain ⟨⟨st, s1⟩, hr⟩ := ExInv.loop_term ho hδ hA (2 * pot n d h0.s.B + (d - h0.kappa) + 2).toNat h0 hE
    hkm hsf (by omega)
  have hh : ∃ s', HPLLL.hlll o (2 * pot n d h0.s.B + (d - h0.kappa) + 2).toNat δ v s =
      some (st, s') := by
    unfold HPLLL.hlll
    simp only [← hh0, hr]
    exact ⟨_, rfl⟩
  obtain ⟨s', hs'⟩ := hh
  obtain ⟨rfl, -, -⟩ := hR.hlll ho.toExact hA hδ hs'
  exact ⟨_, s', hs'⟩

theorem ExReady.assign {n d : ℕ} {A : Mat Int} {s : Lat ℝ} (hR : ExReady n d A s) (A' : Mat Int)
    (hp : ∀ c < d, s.str c ≤ matrixStructure n A' c) : ExReady n d A' (s.assign A') := by
  have hn := hR.inv.hn
  refine ⟨LInv.of_basis A' _ _ hn hR.inv.hd rfl (by show matrixStructure s.n A' = _; rw [hn])
    (fun h => h.elim), hR.numS, ?_, hR.km⟩
  intro c hc r h1 h2
  have h1 : nmaxOf (matrixStructure s.n A') c ≤ r := h1
  refine hR.bz c hc r ?_ h2
  have := hp c hc
  rw [hn] at h1
  unfold nmaxOf at *
  omega

/-- The profile never exceeds that of the last column of the last assigned basis. -/
theorem hlll_str_bound {F : Type} (o : FPOps F) {d : Nat} (m : Int) (δ : F) (fuel : Nat) (v : Bool)
    (s s' : Lat F) (st : Int) (hkm : s.kappaMax ≤ d) (hP : ∀ c < d, s.str c ≤ m)
    (hr : HPLLL.hlll o fuel δ v s = some (st, s')) : ∀ c < d, s'.str c ≤ m := by
  refine hlll_induct o (fun s => ∀ c < d, s.str c ≤ m) d ?_ ?_ ?_ ?_ ?_ δ fuel v s s' st hkm hP hr
  · intro κ hκ s s' h hI
    rw [h.frame.str]; exact hI
  · intro κ hκ h0 s hI c hc
    simp only [hlllDown]
    by_cases h1 : c = κ - 1
    · subst h1; rw [setAt_same]; exact hI κ hκ
    · rw [setAt_ne _ _ h1]; exact hI c hc
  · intro s k h; exact h
  · intro s p b h; exact h
  · intro s k h; exact h

/-- Histories allowed in exact arithmetic: `hlll` calls are exact with `δ ≤ 1`, at least one thread,
every basis assigned has independent columns, and its first column reaches at least as low as all
columns of the basis it replaces (nothing is asked if storage is reallocated by `setprec` first --
see `Lat.assign`, which does not clear the floating point copy of the basis). -/
def ExHist (n d : ℕ) : Mat Int → List (Call ℝ) → Prop
  | _, [] => True
  | A, .hlll o δ _ :: cs => Exact o ∧ δ ≤ 1 ∧ ExHist n d A cs
  | A, .assign A' :: cs => FullColumnRank (toMatrix n d A') ∧
      matrixStructure n A (d - 1) ≤ matrixStructure n A' 0 ∧ ExHist n d A' cs
  | A, .shiftAssign A' sh :: cs => FullColumnRank (toMatrix n d fun j i => mul2si (A' j i) (sh i)) ∧
      matrixStructure n A (d - 1) ≤ matrixStructure n (fun j i => mul2si (A' j i) (sh i)) 0 ∧
      ExHist n d (fun j i => mul2si (A' j i) (sh i)) cs
  | A, .setNblovMax _ :: cs => ExHist n d A cs
  | A, .setNumS S _ :: cs => 0 < S ∧ ExHist n d A cs
  | A, .setprec o _ :: cs => Exact o ∧ ExHist n d A cs
  | A, .householder _ :: cs => ExHist n d A cs

theorem exHist_snoc {n d : ℕ} : ∀ (A : Mat Int) (cs : List (Call ℝ)) (c : Call ℝ),
    ExHist n d A (cs ++ [c]) ↔ ExHist n d A cs ∧ ExHist n d (lastBasis A cs) [c] := by
  intro A cs
  induction cs generalizing A with
  | nil => intro c; simp [ExHist, lastBasis]
  | cons a cs ih =>
    intro c
    cases a <;> simp only [List.cons_append, ExHist, lastBasis, ih, and_assoc]

theorem ExReady.runs {n d : ℕ} {A : Mat Int} {s s' : Lat ℝ} {cs : List (Call ℝ)}
    (hA : FullColumnRank (toMatrix n d A)) (h : ExReady n d A s)
    (hb : ∀ c < d, s.str c ≤ matrixStructure n A (d - 1))
    (hr : Runs s cs s') (hc : ExHist n d A cs) :
    ExReady n d (lastBasis A cs) s' ∧ FullColumnRank (toMatrix n d (lastBasis A cs)) ∧
      (∀ c < d, s'.str c ≤ matrixStructure n (lastBasis A cs) (d - 1)) ∧
      s'.seysenFlag = s.seysenFlag := by
  induction hr with
  | nil => exact ⟨h, hA, hb, rfl⟩
  | snoc t u cs c hr hd ih =>
    rw [exHist_snoc] at hc
    obtain ⟨i1, i2, i3, i4⟩ := ih hc.1
    have hc2 := hc.2
    have asg : ∀ A' : Mat Int, FullColumnRank (toMatrix n d A') →
        matrixStructure n (lastBasis A cs) (d - 1) ≤ matrixStructure n A' 0 →
        ExReady n d A' (t.assign A') ∧ FullColumnRank (toMatrix n d A') ∧
        (∀ c < d, (t.assign A').str c ≤ matrixStructure n A' (d - 1)) ∧
        (t.assign A').seysenFlag = s.seysenFlag := by
      intro A' h1 h2
      refine ⟨i1.assign A' fun c hc => ?_, h1, fun c hc => ?_, i4⟩
      · exact le_trans (i3 c hc) (le_trans h2 (matrixStructure_mono n A' (Nat.zero_le c)))
      · show matrixStructure t.n A' c ≤ _
        rw [i1.inv.hn]; exact matrixStructure_mono n A' (by omega)
    rw [lastBasis_snoc]
    cases hd with
    | hlll o δ v _ _ fuel st hl =>
      obtain ⟨ho, hδ, -⟩ := hc2
      obtain ⟨-, r, -⟩ := i1.hlll ho i2 hδ hl
      refine ⟨r, i2, ?_, ?_⟩
      · exact hlll_str_bound o _ δ fuel v t u st (le_of_eq i1.km) i3 hl
      · rw [(hlll_exit o fuel δ v t u st i1.inv (le_of_eq i1.km) hl).cfg.seysenFlag, i4]
    | assign A' => exact asg A' hc2.1 hc2.2.1
    | shiftAssign A' sh => exact asg _ hc2.1 hc2.2.1
    | setNblovMax nb =>
      exact ⟨⟨i1.inv.congr rfl rfl rfl rfl rfl rfl rfl rfl, i1.numS, i1.bz, i1.km⟩, i2, i3, i4⟩
    | setNumS S thr =>
      obtain ⟨hn, hd, hlt, hmono, hsupp, hseq, husupp, htr, hW⟩ := i1.inv
      exact ⟨⟨⟨hn, hd, hlt, hmono, hsupp, fun h => h.elim, fun h => h.elim, fun h => h.elim, hW⟩,
        hc2.1, i1.bz, i1.km⟩, i2, i3, i4⟩
    | setprec o junk =>
      refine ⟨⟨i1.inv.congr rfl rfl rfl rfl rfl rfl rfl rfl, i1.numS, ?_, i1.km⟩, i2, i3, i4⟩
      intro c _ r _ _
      exact hc2.1.zero
    | householder o =>
      refine ⟨⟨i1.inv.congr rfl rfl rfl rfl rfl rfl rfl rfl, i1.numS, ?_, i1.km⟩, i2, i3, i4⟩
      have hB : ∀ (l : List ℕ) (p : FPart ℝ),
          (l.foldl (fun p κ => hhAllCol o t.n t.d t.B κ p) p).Bfp = p.Bfp := by
        intro l
        induction l with
        | nil => intro p; rfl
        | cons a l ih =>
          intro p
          rw [List.foldl_cons, ih]
          have h2 : ∀ (l : List ℕ) (p : FPart ℝ),
            (l.foldl (fun p k => hhAllApply o t.n a k p) p).Bfp = p.Bfp := by
            intro l
            induction l with
            | nil => intro p; rfl
            | cons b l ih => intro p; rw [List.foldl_cons, ih]; rfl
          simp only [hhAllCol, householderV]
          rw [h2]
      intro c hc r h1 h2
      show ((List.range t.d).foldl (fun p κ => hhAllCol o t.n t.d t.B κ p) t.fp).Bfp c r = 0
      rw [hB]; exact i1.bz c hc r h1 h2

end HPLLL
