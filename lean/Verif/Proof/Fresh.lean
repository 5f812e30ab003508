import Verif.Proof.Plain
import Verif.Proof.Swaps
import Verif.Proof.ExactHist
/-! Objects with a history compared with each other and with new objects. -/

namespace HPLLL
open Spec Matrix

variable {F : Type}

/-- The same call; the content of reallocated storage may differ. -/
def Call.same : Call F → Call F → Prop
  | .setprec o _, .setprec o' _ => o = o'
  | a, b => a = b

/-- All bases assigned have independent columns. -/
def RankHist (n d : Nat) (cs : List (Call F)) : Prop :=
  (∀ A, Call.assign A ∈ cs → FullColumnRank (toMatrix n d A)) ∧
  (∀ A sh, Call.shiftAssign A sh ∈ cs →
    FullColumnRank (toMatrix n d fun j i => mul2si (A j i) (sh i)))

/-- Budget of tests set last. -/
def lastNblov (nb : Nat) : List (Call F) → Nat
  | [] => nb
  | .setNblovMax k :: cs => lastNblov k cs
  | _ :: cs => lastNblov nb cs

/-- Number of threads and threshold set last. -/
def lastNumS (S : Nat × Int) : List (Call F) → Nat × Int
  | [] => S
  | .setNumS k t :: cs => lastNumS (k, t) cs
  | _ :: cs => lastNumS S cs

theorem lastNblov_snoc (nb : Nat) (cs : List (Call F)) (c : Call F) :
    lastNblov nb (cs ++ [c]) = lastNblov (lastNblov nb cs) [c] := by
  induction cs generalizing nb with
  | nil => rfl
  | cons a cs ih => cases a <;> exact ih _

theorem lastNumS_snoc (S : Nat × Int) (cs : List (Call F)) (c : Call F) :
    lastNumS S (cs ++ [c]) = lastNumS (lastNumS S cs) [c] := by
  induction cs generalizing S with
  | nil => rfl
  | cons a cs ih => cases a <;> exact ih _

theorem rankHist_last {n d : Nat} {A : Mat Int} (hA : FullColumnRank (toMatrix n d A))
    {cs : List (Call F)} (h : RankHist n d cs) : FullColumnRank (toMatrix n d (lastBasis A cs)) := by
  induction cs generalizing A with
  | nil => exact hA
  | cons c cs ih =>
    have h' : RankHist n d cs := ⟨fun A hm => h.1 A (List.mem_cons_of_mem _ hm),
      fun A sh hm => h.2 A sh (List.mem_cons_of_mem _ hm)⟩
    cases c with
    | assign A' => exact ih (h.1 A' (by simp)) h'
    | shiftAssign A' sh => exact ih (h.2 A' sh (by simp)) h'
    | _ => exact ih hA h'

theorem hhAll_Bfp (o : FPOps F) (n d : Nat) (B : Mat Int) : ∀ (l : List ℕ) (p : FPart F),
    (l.foldl (fun p κ => hhAllCol o n d B κ p) p).Bfp = p.Bfp ∧
    (l.foldl (fun p κ => hhAllCol o n d B κ p) p).x = p.x := by
  intro l
  induction l with
  | nil => intro p; exact ⟨rfl, rfl⟩
  | cons a l ih =>
    intro p
    rw [List.foldl_cons, (ih _).1, (ih _).2]
    have h2 : ∀ (l : List ℕ) (p : FPart F),
      (l.foldl (fun p k => hhAllApply o n a k p) p).Bfp = p.Bfp ∧
      (l.foldl (fun p k => hhAllApply o n a k p) p).x = p.x := by
      intro l
      induction l with
      | nil => intro p; exact ⟨rfl, rfl⟩
      | cons b l ih => intro p; rw [List.foldl_cons, (ih _).1, (ih _).2]; exact ⟨rfl, rfl⟩
    simp only [hhAllCol, householderV]
    rw [(h2 _ _).1, (h2 _ _).2]
    exact ⟨rfl, rfl⟩

/-- Equality on all rows. -/
def eqRel : Bool → F → F → Prop := fun _ a b => a = b

theorem OAgree.some {R : Lat F → Lat F → Prop} {x y : Option (Int × Lat F)} (h : OAgree R x y)
    {a b : Int} {s t : Lat F} (hx : x = some (a, s)) (hy : y = some (b, t)) : a = b ∧ R s t := by
  subst hx hy; exact h

theorem OAgree.map {R : Lat F → Lat F → Prop} {x y : Option (Int × Lat F)} (h : OAgree R x y)
    {α : Type} (f : Int × Lat F → α) (hf : ∀ a s t, R s t → f (a, s) = f (a, t)) :
    x.map f = y.map f := by
  cases x with
  | none => cases y with
    | none => rfl
    | some y => exact h.elim
  | some x => cases y with
    | none => exact h.elim
    | some y =>
      obtain ⟨a, s⟩ := x
      obtain ⟨b, t⟩ := y
      obtain ⟨rfl, h⟩ := h
      simp only [Option.map_some]
      rw [hf a s t h]

/-- Two runs of the same calls. -/
theorem agree_does {n d : Nat} {A : Mat Int} {forU : Bool} {vd : Int} {seq : Prop}
    {s t s' t' : Lat F} {c c' : Call F} (hA : FullColumnRank (toMatrix n d A))
    (hs : HistInv n d A forU vd seq s) (ht : HistInv n d A forU vd seq t)
    (h : Agree eqRel n d s t) (hc : c.same c') (h1 : Does s c s') (h2 : Does t c' t') :
    Agree eqRel n d s' t' := by
  have hz := h.z
  have e : s.n = t.n ∧ s.d = t.d ∧ s.transf = t.transf ∧ s.B = t.B ∧ s.U = t.U ∧
    s.kappaMax = t.kappaMax ∧ s.nblovMax = t.nblovMax ∧ s.str = t.str ∧ s.nblov = t.nblov ∧
    s.nbswaps = t.nbswaps ∧ s.numS = t.numS ∧ s.parThr = t.parThr ∧ s.seysenFlag = t.seysenFlag ∧
    s.fastLong = t.fastLong ∧ s.verboseDepth = t.verboseDepth ∧ s.ub = t.ub := by
    simpa only [Lat.z, ZPart.mk.injEq] using hz
  obtain ⟨e1, e2, e3, e4, e5, e6, e7, e8, e9, e10, e11, e12, e13, e14, e15, e16⟩ := e
  have asg : ∀ A', Agree eqRel n d (s.assign A') (t.assign A') := by
    intro A'
    refine ⟨?_, h.x, fun j hj r _ hr => h.be j hj r hr, h.be⟩
    simp only [Lat.z, Lat.assign, e1, e2, e3, e5, e6, e7, e10, e11, e12, e13, e14, e15, e16]
  cases h1 with
  | hlll o δ v _ _ fuel st hl =>
    cases h2 with
    | hlll o' δ' v' _ _ fuel' st' hl' =>
      injection hc with g1 g2 g3
      subst g1 g2 g3
      have hl1 := hlll_mono o fuel fuel' δ v s _ hl
      have hl2 := hlll_mono o fuel' fuel δ v t _ hl'
      rw [Nat.add_comm] at hl2
      exact ((h.hlll o (fun _ _ h => h) (fun _ _ h => h) (fun _ => rfl) hA (fuel + fuel') δ v
        (le_of_eq ht.km) ht.inv hs.inv).some hl1 hl2).2
    | _ => simp [Call.same] at hc
  | assign A' =>
    cases h2 with
    | assign A'' => injection hc with hc; subst hc; exact asg _
    | _ => simp [Call.same] at hc
  | shiftAssign A' sh =>
    cases h2 with
    | shiftAssign A'' sh' => injection hc with hc hc'; subst hc hc'; exact asg _
    | _ => simp [Call.same] at hc
  | setNblovMax nb =>
    cases h2 with
    | setNblovMax nb' =>
      injection hc with hc; subst hc
      refine ⟨?_, h.x, h.bz, h.be⟩
      simp only [Lat.z, Lat.setNblovMax, e1, e2, e3, e4, e5, e6, e8, e9, e10, e11, e12, e13, e14, e15, e16]
    | _ => simp [Call.same] at hc
  | setNumS S thr =>
    cases h2 with
    | setNumS S' thr' =>
      injection hc with hc hc'; subst hc hc'
      refine ⟨?_, h.x, h.bz, h.be⟩
      simp only [Lat.z, Lat.setNumS, e1, e2, e3, e4, e5, e6, e7, e8, e9, e10, e13, e14, e15, e16]
    | _ => simp [Call.same] at hc
  | setprec o j =>
    cases h2 with
    | setprec o' j' =>
      have hc : o = o' := hc
      subst hc
      exact ⟨hz, h.x, fun _ _ _ _ _ => rfl, fun _ _ _ _ => rfl⟩
    | _ => simp [Call.same] at hc
  | householder o =>
    cases h2 with
    | householder o' =>
      injection hc with hc; subst hc
      refine ⟨?_, fun a b => ?_, fun j hj r a b => ?_, fun j hj r a => ?_⟩
      · simp only [Lat.z, Lat.householder, e1, e2, e3, e4, e5, e6, e7, e8, e9, e10, e11, e12, e13, e14,
          e15, e16]
      · simp only [Lat.householder]
        rw [(hhAll_Bfp _ _ _ _ _ _).2, (hhAll_Bfp _ _ _ _ _ _).2]
        exact h.x a b
      · simp only [Lat.householder]
        rw [(hhAll_Bfp _ _ _ _ _ _).1, (hhAll_Bfp _ _ _ _ _ _).1]
        exact h.bz j hj r a b
      · simp only [Lat.householder]
        rw [(hhAll_Bfp _ _ _ _ _ _).1, (hhAll_Bfp _ _ _ _ _ _).1]
        exact h.be j hj r a
    | _ => simp [Call.same] at hc

theorem same_lastBasis (A : Mat Int) : ∀ {cs cs' : List (Call F)}, List.Forall₂ Call.same cs cs' →
    lastBasis A cs = lastBasis A cs' := by
  intro cs cs' h
  induction h generalizing A with
  | nil => rfl
  | @cons a b l l' hab _ ih =>
    cases a <;> cases b <;> simp only [Call.same, reduceCtorEq] at hab <;> first
      | (injection hab with g; subst g; exact ih _)
      | (injection hab with g g'; subst g g'; exact ih _)
      | exact ih _

theorem rankHist_snoc {n d : Nat} {cs : List (Call F)} {c : Call F} (h : RankHist n d (cs ++ [c])) :
    RankHist n d cs :=
  ⟨fun A hm => h.1 A (List.mem_append_left _ hm), fun A sh hm => h.2 A sh (List.mem_append_left _ hm)⟩

theorem agree_runs {n d : Nat} {A : Mat Int} {forU : Bool} {vd : Int} {s t s' : Lat F}
    {cs : List (Call F)} (hA : FullColumnRank (toMatrix n d A)) (hR : RankHist n d cs)
    (hs : HistInv n d A forU vd True s) (ht : HistInv n d A forU vd True t)
    (h : Agree eqRel n d s t) (h1 : Runs s cs s') :
    ∀ (cs' : List (Call F)) (t' : Lat F), List.Forall₂ Call.same cs cs' → Runs t cs' t' →
      Agree eqRel n d s' t' := by
  induction h1 with
  | nil =>
    intro cs' t' hf h2
    cases hf
    generalize hl : ([] : List (Call F)) = l at h2
    cases h2 with
    | nil => exact h
    | snoc => simp at hl
  | snoc u w cs c hr hd ih =>
    intro cs' t' hf h2
    cases h2 with
    | nil => have := hf.length_eq; simp at this
    | snoc u' _ ds c' hr' hd' =>
      have hlen : cs.length = ds.length := by have := hf.length_eq; simpa using this
      have hf' : List.Forall₂ Call.same cs ds ∧ Call.same c c' := by
        rw [List.forall₂_iff_get] at hf ⊢
        obtain ⟨-, hg⟩ := hf
        refine ⟨⟨hlen, fun i a b => ?_⟩, ?_⟩
        · have := hg i (by simp; omega) (by simp; omega)
          simpa [List.getElem_append_left a, List.getElem_append_left b] using this
        · have := hg cs.length (by simp) (by simp; omega)
          simpa [hlen] using this
      have hR' := rankHist_snoc hR
      have hb := same_lastBasis A hf'.1
      have i1 := hs.runs hr
      have i2 := ht.runs hr'
      rw [← hb] at i2
      have hsq : SeqHist d cs ↔ SeqHist d ds := by
        unfold SeqHist
        have key : ∀ S thr, Call.setNumS S thr ∈ cs ↔ Call.setNumS S thr ∈ ds := by
          intro S thr
          obtain ⟨hff, -⟩ := hf'
          clear * - hff
          induction hff with
          | nil => simp
          | @cons a b l l' hab _ ih =>
            simp only [List.mem_cons, ih]
            have : Call.setNumS S thr = a ↔ Call.setNumS S thr = b := by
              cases a <;> cases b <;> simp_all [Call.same]
            rw [this]
        simp only [key]
      have hsq' : SeqHist d ds = SeqHist d cs := propext hsq.symm
      rw [hsq'] at i2
      exact agree_does (rankHist_last hA hR') i1 i2 (ih hR' _ _ hf'.1 hr') hf'.2 hd hd'

/-! ### Used and new objects -/

/-- Histories for which the floating point copy of the basis is clean wherever the next basis needs
it: `dirty` says whether `hlll` has been called since the storage was (re)allocated, in which case the
first column of a new basis must reach at least as low as all columns of the basis it replaces;
`z0` is the value given to new storage. -/
def CleanHist (n d : Nat) (z0 : F) : Bool → Mat Int → List (Call F) → Prop
  | _, _, [] => True
  | _, A, .hlll _ _ _ :: cs => CleanHist n d z0 true A cs
  | b, A, .assign A' :: cs => FullColumnRank (toMatrix n d A') ∧
      (b = true → matrixStructure n A (d - 1) ≤ matrixStructure n A' 0) ∧ CleanHist n d z0 b A' cs
  | b, A, .shiftAssign A' sh :: cs =>
      FullColumnRank (toMatrix n d fun j i => mul2si (A' j i) (sh i)) ∧
      (b = true → matrixStructure n A (d - 1) ≤ matrixStructure n (fun j i => mul2si (A' j i) (sh i)) 0) ∧
      CleanHist n d z0 b (fun j i => mul2si (A' j i) (sh i)) cs
  | b, A, .setNblovMax _ :: cs => CleanHist n d z0 b A cs
  | b, A, .setNumS _ _ :: cs => CleanHist n d z0 b A cs
  | _, A, .setprec o _ :: cs => o.zero = z0 ∧ CleanHist n d z0 false A cs
  | b, A, .householder _ :: cs => CleanHist n d z0 b A cs

/-- `dirty` at the end of a history. -/
def dirty : Bool → List (Call F) → Bool
  | b, [] => b
  | _, .hlll _ _ _ :: cs => dirty true cs
  | _, .setprec _ _ :: cs => dirty false cs
  | b, _ :: cs => dirty b cs

theorem cleanHist_snoc {n d : Nat} {z0 : F} : ∀ (b : Bool) (A : Mat Int) (cs : List (Call F)) (c : Call F),
    CleanHist n d z0 b A (cs ++ [c]) ↔
      CleanHist n d z0 b A cs ∧ CleanHist n d z0 (dirty b cs) (lastBasis A cs) [c] := by
  intro b A cs
  induction cs generalizing A b with
  | nil => intro c; simp [CleanHist, lastBasis, dirty]
  | cons a cs ih =>
    intro c
    cases a <;> simp only [List.cons_append, CleanHist, lastBasis, dirty, ih, and_assoc]

theorem dirty_snoc (b : Bool) (cs : List (Call F)) (c : Call F) :
    dirty b (cs ++ [c]) = dirty (dirty b cs) [c] := by
  induction cs generalizing b with
  | nil => rfl
  | cons a cs ih => cases a <;> exact ih _

/-- What is kept along such a history. -/
structure CInv (n d : Nat) (z0 : F) (A : Mat Int) (dt : Bool) (nb : Nat) (S : Nat × Int) (method : Int)
    (lf forU : Bool) (s : Lat F) : Prop where
  rank : FullColumnRank (toMatrix n d A)
  nb : s.nblovMax = nb
  S : s.numS = S.1 ∧ s.parThr = S.2
  m : s.seysenFlag = method
  lf : s.fastLong = lf
  u : forU = false → s.U = idMat
  bz : ∀ j < d, ∀ r, (dt = true → nmaxOf s.str j ≤ r) → r < n → s.fp.Bfp j r = z0
  str : ∀ c < d, s.str c ≤ matrixStructure n A (d - 1)

/-- Only clean rows are compared. -/
def cleanRel (z0 : F) : Bool → F → F → Prop := fun b x y => b = true → x = y ∧ y = z0

theorem hlll_U_false (o : FPOps F) (fuel : Nat) (δ : F) (v : Bool) (s s' : Lat F) (st : Int) (U0 : Mat Int)
    (hs : s.transf = false ∧ s.U = U0) (h : hlll o fuel δ v s = some (st, s')) :
    s'.transf = false ∧ s'.U = U0 := by
  refine hlll_induct o (fun s => s.transf = false ∧ s.U = U0) s.kappaMax ?_ ?_ ?_ ?_ ?_ δ fuel v s s' st
    (le_refl _) hs h
  · intro κ _ s s' hz hp
    cases hz with
    | fp => exact hp
    | col p b i c h => exact ⟨hp.1, by simp [hp.1, hp.2]⟩
    | pcol => exact hp
  · intro κ _ _ s hp
    exact ⟨hp.1, by simp [hlllDown, hp.1, hp.2]⟩
  · intro s k h; exact h
  · intro s p b h; exact h
  · intro s k h; exact h

theorem CInv.hlll {n d : Nat} {z0 : F} {A : Mat Int} {dt : Bool} {nb : Nat} {S : Nat × Int} {method : Int}
    {lf forU : Bool} {vd : Int} {seq : Prop} {s s' : Lat F} (o : FPOps F) (δ : F) (v : Bool) (fuel : Nat)
    (st : Int) (h : CInv n d z0 A dt nb S method lf forU s) (hi : HistInv n d A forU vd seq s)
    (hl : hlll o fuel δ v s = some (st, s')) : CInv n d z0 A true nb S method lf forU s' := by
  have hX := (hlll_exit o fuel δ v s s' st hi.inv (le_of_eq hi.km) hl).cfg
  refine ⟨h.rank, hX.nblovMax.trans h.nb, ⟨hX.numS.trans h.S.1, hX.parThr.trans h.S.2⟩,
    hX.seysenFlag.trans h.m, hX.fastLong.trans h.lf, fun hf => ?_, ?_,
    hlll_str_bound o _ δ fuel v s s' st (le_of_eq hi.km) h.str hl⟩
  · exact (hlll_U_false o fuel δ v s s' st idMat ⟨hi.tr.trans hf, h.u hf⟩ hl).2
  · have ha : Agree (cleanRel z0) n d s s :=
      ⟨rfl, fun _ _ => rfl, fun j hj r h1 h2 _ => ⟨rfl, h.bz j hj r (fun _ => h1) h2⟩,
        fun _ _ _ _ hc => by simp at hc⟩
    have hq := (ha.hlll o (fun _ _ h => (h rfl).1) (fun _ _ _ hc => by simp at hc)
      (fun _ hc => by simp at hc) h.rank fuel δ v (le_of_eq hi.km) hi.inv hi.inv).some hl hl
    intro j hj r h1 h2
    exact (hq.2.bz j hj r (h1 rfl) h2 rfl).2

theorem CInv.assign {n d : Nat} {z0 : F} {A A' : Mat Int} {dt : Bool} {nb : Nat} {S : Nat × Int}
    {method : Int} {lf forU : Bool} {vd : Int} {seq : Prop} {s : Lat F}
    (h : CInv n d z0 A dt nb S method lf forU s) (hi : HistInv n d A forU vd seq s)
    (hA' : FullColumnRank (toMatrix n d A'))
    (hp : dt = true → matrixStructure n A (d - 1) ≤ matrixStructure n A' 0) :
    CInv n d z0 A' dt nb S method lf forU (s.assign A') := by
  refine ⟨hA', h.nb, h.S, h.m, h.lf, fun hf => ?_, ?_, fun c hc => ?_⟩
  · show (if s.transf then idMat else s.U) = idMat
    rw [h.u hf]; simp
  · intro j hj r h1 h2
    refine h.bz j hj r (fun hd => ?_) h2
    have h1 : nmaxOf (matrixStructure s.n A') j ≤ r := h1 hd
    have h3 := h.str j hj
    have h4 := hp hd
    have h5 := matrixStructure_mono n A' (Nat.zero_le j)
    rw [hi.inv.hn] at h1
    unfold nmaxOf at *
    omega
  · show matrixStructure s.n A' c ≤ _
    rw [hi.inv.hn]; exact matrixStructure_mono n A' (by omega)

theorem CInv.runs {n d : Nat} {z0 : F} {A : Mat Int} {dt : Bool} {nb : Nat} {S : Nat × Int}
    {method : Int} {lf forU : Bool} {vd : Int} {s s' : Lat F} {cs : List (Call F)}
    (h : CInv n d z0 A dt nb S method lf forU s) (hi : HistInv n d A forU vd True s)
    (hr : Runs s cs s') (hc : CleanHist n d z0 dt A cs) :
    CInv n d z0 (lastBasis A cs) (dirty dt cs) (lastNblov nb cs) (lastNumS S cs) method lf forU s' := by
  induction hr with
  | nil => exact h
  | snoc t u cs c hr hd ih =>
    rw [cleanHist_snoc] at hc
    have i1 := ih hc.1
    have i2 := hi.runs hr
    have hc2 := hc.2
    rw [lastBasis_snoc, dirty_snoc, lastNblov_snoc, lastNumS_snoc]
    cases hd with
    | hlll o δ v _ _ fuel st hl => exact i1.hlll o δ v fuel st i2 hl
    | assign A' => exact i1.assign i2 hc2.1 hc2.2.1
    | shiftAssign A' sh => exact i1.assign i2 hc2.1 hc2.2.1
    | setNblovMax k => exact ⟨i1.rank, rfl, i1.S, i1.m, i1.lf, i1.u, i1.bz, i1.str⟩
    | setNumS k thr => exact ⟨i1.rank, i1.nb, ⟨rfl, rfl⟩, i1.m, i1.lf, i1.u, i1.bz, i1.str⟩
    | setprec o junk =>
      refine ⟨i1.rank, i1.nb, i1.S, i1.m, i1.lf, i1.u, fun _ _ _ _ _ => hc2.1, i1.str⟩
    | householder o =>
      refine ⟨i1.rank, i1.nb, i1.S, i1.m, i1.lf, i1.u, fun j hj r h1 h2 => ?_, i1.str⟩
      simp only [Lat.householder]
      rw [(hhAll_Bfp _ _ _ _ _ _).1]
      exact i1.bz j hj r h1 h2

end HPLLL
