import Verif.Proof.Fresh
import Verif.Props.History
/-!
# What an object does does not depend on storage that was never written

`C53`: uninitialised memory.  `C19`: a used object after `assign` and a new object.
-/

namespace HPLLL.Props
open HPLLL Spec Matrix

variable {F : Type}

/-- What the caller of `hlll` sees: the status, `getbase()`, `getU()` and the number of tests. -/
def seen (r : Int × Lat F) : Int × ZMat × ZMat × Nat := (r.1, r.2.getbase, r.2.getU, r.2.nblov)

theorem agree_new (o : FPOps F) (junk junk' : F) (n d : Nat) (A : Mat Int) (forU : Bool) (method : Int)
    (longFlag : Bool) (hm : method < 1 ∨ longFlag = true) (vd : Int) :
    Agree eqRel n d (newLattice o junk n d A forU method longFlag vd)
      (newLattice o junk' n d A forU method longFlag vd) := by
  refine ⟨rfl, fun h1 h2 => ?_, fun _ _ _ _ _ => rfl, fun _ _ _ _ => rfl⟩
  have h1 : ¬ method < 1 := h1
  have h2 : longFlag = false := h2
  rcases hm with h | h
  · exact (h1 h).elim
  · rw [h] at h2; cases h2

theorem Agree.seen {E : Bool → F → F → Prop} {n d : Nat} {s t : Lat F} (h : Agree E n d s t) (a : Int) :
    Props.seen (a, s) = Props.seen (a, t) := by
  have hz := h.z
  simp only [Lat.z, ZPart.mk.injEq] at hz
  obtain ⟨e1, e2, e3, e4, e5, e6, e7, e8, e9, e10, e11, e12, e13, e14, e15, e16⟩ := hz
  simp only [Props.seen, Lat.getbase, Lat.getU, e1, e2, e3, e4, e5, e9]

/-- **C53.** Build two objects with the same arguments and make the same calls on both, in an
environment where all uninitialised floating point storage (of the constructor and of every
`setprec`) holds *different* values; the arithmetic of each call is arbitrary.  If all bases have
independent columns and, for the Seysen method, fast long arithmetic is on, then the next call
`hlll` does the same thing on both: it returns on both or on none, with the same status, base,
transformation and number of tests. -/
theorem C53_uninitialised_storage (o : FPOps F) (junk junk' : F) (n d : Nat) (A : Mat Int)
    (hA : FullColumnRank (toMatrix n d A)) (forU : Bool) (method : Int) (longFlag : Bool)
    (hm : method < 1 ∨ longFlag = true) (vd : Int) (cs cs' : List (Call F))
    (hc : List.Forall₂ Call.same cs cs') (hR : RankHist n d cs) (s s' : Lat F)
    (hr : Runs (newLattice o junk n d A forU method longFlag vd) cs s)
    (hr' : Runs (newLattice o junk' n d A forU method longFlag vd) cs' s') :
    s.getbase = s'.getbase ∧ s.getU = s'.getU ∧
    ∀ (o' : FPOps F) (fuel : Nat) (δ : F) (v : Bool),
      (hlll o' fuel δ v s).map seen = (hlll o' fuel δ v s').map seen := by
  have h0 := newLattice_hist o junk n d A forU method longFlag vd
  have h0' := newLattice_hist o junk' n d A forU method longFlag vd
  have h := agree_runs hA hR h0 h0' (agree_new o junk junk' n d A forU method longFlag hm vd) hr cs' s'
    hc hr'
  have hs := Agree.seen h 0
  simp only [seen, Prod.mk.injEq] at hs
  refine ⟨hs.2.1, hs.2.2.1, fun o' fuel δ v => ?_⟩
  have i1 := (h0.runs hr)
  have i2 := (h0'.runs hr')
  have hl : ∀ {s : Lat F} {seq : Prop} {B : Mat Int}, HistInv n d B forU vd seq s →
      LInv n d B False s := by
    intro s seq B h
    obtain ⟨hn, hd, hlt, hmono, hsupp, hseq, husupp, htr, W, hW, hB, hU⟩ := h.inv
    exact ⟨hn, hd, hlt, hmono, hsupp, fun h => h.elim, fun h => h.elim, fun h => h.elim, W, hW, hB,
      fun h => h.elim⟩
  have hb := same_lastBasis A hc
  rw [← hb] at i2
  exact (h.hlll o' (fun _ _ h => h) (fun _ _ h => h) (fun _ => rfl) (rankHist_last hA hR) fuel δ v
    (le_of_eq i2.km) (hl i2) (hl i1)).map seen (fun a s t h => Agree.seen h a)

/-- The hypotheses are met by a history with a change of precision in the middle. -/
example : RankHist (F := Int) 2 2
      [.hlll toyOps toy99 true, .setprec toyOps 5, .setNblovMax 7, .hlll toyOps toy99 false] ∧
    List.Forall₂ (Call.same (F := Int))
      [.hlll toyOps toy99 true, .setprec toyOps 5, .setNblovMax 7, .hlll toyOps toy99 false]
      [.hlll toyOps toy99 true, .setprec toyOps (-1), .setNblovMax 7, .hlll toyOps toy99 false] := by
  refine ⟨⟨by simp, by simp⟩, ?_⟩
  exact .cons rfl (.cons rfl (.cons rfl (.cons rfl .nil)))

/-- **C19.** A used object after `assign(A')` (or `shift_assign`) behaves as a new object on the new
basis: take any history of calls, with an arbitrary arithmetic for each of them, in which the bases
have independent columns and, each time a basis is replaced after a reduction, the first column of
the new one reaches at least as low as all columns of the previous one or `setprec` has reallocated
the storage in between.  If the last call is the assignment of `A'`, then `hlll` returns on this
object iff it returns on a new object constructed on `A'` with the same options (last budget of
tests and thread settings), with the same status, base, transformation and number of tests. -/
theorem C19_assign_fresh (o : FPOps F) (junk junk' : F) (n d : Nat) (hd : 0 < d) (A A' : Mat Int)
    (hA : FullColumnRank (toMatrix n d A)) (forU : Bool) (method : Int) (longFlag : Bool)
    (hm : method < 1 ∨ longFlag = true) (vd : Int) (cs : List (Call F)) (c : Call F)
    (hc : c = .assign A' ∨ ∃ A0 sh, c = .shiftAssign A0 sh ∧ A' = fun j i => mul2si (A0 j i) (sh i))
    (hH : CleanHist n d o.zero false A (cs ++ [c])) (s : Lat F)
    (hr : Runs (newLattice o junk n d A forU method longFlag vd) (cs ++ [c]) s)
    (o' : FPOps F) (fuel : Nat) (δ : F) (v : Bool) :
    (hlll o' fuel δ v s).map seen =
      (hlll o' fuel δ v (fresh o junk' n d A' forU method longFlag vd
        (lastNumS (1, 1000000) cs).1 (lastNumS (1, 1000000) cs).2 (lastNblov 4294967295 cs))).map seen := by
  have h0 := newLattice_hist o junk n d A forU method longFlag vd
  have c0 : CInv n d o.zero A false 4294967295 (1, 1000000) method longFlag forU
      (newLattice o junk n d A forU method longFlag vd) :=
    ⟨hA, rfl, ⟨rfl, rfl⟩, rfl, rfl, fun _ => rfl, fun _ _ _ _ _ => rfl,
      fun c hc => matrixStructure_mono n A (by omega)⟩
  have key : ∃ t : Lat F, s = t.assign A' ∧ FullColumnRank (toMatrix n d A') := by
    generalize hl : cs ++ [c] = l at hr
    cases hr with
    | nil => simp at hl
    | snoc t u ds c' h1 h2 =>
      have hl' := List.append_inj' hl rfl
      obtain ⟨rfl, hcc⟩ := hl'
      injection hcc with hcc
      subst hcc
      have hr2 := ((cleanHist_snoc _ _ _ _).1 hH).2
      rcases hc with rfl | ⟨A0, sh, rfl, rfl⟩
      · cases h2; exact ⟨t, rfl, hr2.1⟩
      · cases h2; exact ⟨t, rfl, hr2.1⟩
  obtain ⟨t, hst, hA'⟩ := key
  have hI := h0.runs hr
  have hC := c0.runs h0 hr hH
  have eb : lastBasis A (cs ++ [c]) = A' := by
    rw [lastBasis_snoc]
    rcases hc with rfl | ⟨A0, sh, rfl, rfl⟩ <;> rfl
  have e1 : lastNblov 4294967295 (cs ++ [c]) = lastNblov 4294967295 cs := by
    rw [lastNblov_snoc]
    rcases hc with rfl | ⟨A0, sh, rfl, rfl⟩ <;> rfl
  have e2 : lastNumS (1, 1000000) (cs ++ [c]) = lastNumS (1, 1000000) cs := by
    rw [lastNumS_snoc]
    rcases hc with rfl | ⟨A0, sh, rfl, rfl⟩ <;> rfl
  rw [eb] at hI hC
  rw [e1, e2] at hC
  generalize lastNblov 4294967295 cs = nb at hC ⊢
  generalize lastNumS (1, 1000000) cs = S at hC ⊢
  set fr := fresh o junk' n d A' forU method longFlag vd S.1 S.2 nb with hfr
  have hLs : LInv n d A' False s := by
    obtain ⟨hn, hd, hlt, hmono, hsupp, hseq, husupp, htr, W, hW, hB, hU⟩ := hI.inv
    exact ⟨hn, hd, hlt, hmono, hsupp, fun h => h.elim, fun h => h.elim, fun h => h.elim, W, hW, hB,
      fun h => h.elim⟩
  have hLf : LInv n d A' False (fr.sw s.nbswaps) :=
    (fresh_inv o junk' n d A' forU method longFlag vd S.1 S.2 nb False (fun h => h.elim)).congr
      rfl rfl rfl rfl rfl rfl rfl rfl
  have hdn : d ≤ n := by
    have hg := hLs.geom hA'
    have h1 := hg.diag (d - 1) (by omega)
    have h2 := hg.le (d - 1) (by omega)
    omega
  have hag : Agree (cleanRel o.zero) n d (fr.sw s.nbswaps) s := by
    refine ⟨?_, fun h1 h2 => ?_, fun j hj r h1 h2 _ => ?_, fun _ _ _ _ hc => by simp at hc⟩
    · have u1 := hI.inv.hn
      have u2 := hI.inv.hd
      have u3 := hI.tr
      have u4 : s.B = A' := by rw [hst]; rfl
      have u5 : s.U = idMat := by
        cases hf : forU
        · exact hC.u hf
        · have : t.transf = true := by rw [hf, hst] at u3; exact u3
          rw [hst]
          show (if t.transf then idMat else t.U) = idMat
          rw [this]; rfl
      have u6 := hI.km
      have u7 : s.str = matrixStructure n A' := by
        rw [← u1, hst]; rfl
      have u8 : s.nblov = 0 := by rw [hst]; rfl
      have u9 := hI.vd
      have u10 := hI.ub hdn
      simp only [Lat.z, Lat.sw, hfr, fresh, newLattice, Lat.setNumS, Lat.setNblovMax, u1, u2, u3, u4,
        u5, u6, u7, u8, u9, u10, hC.nb, hC.S.1, hC.S.2, hC.m, hC.lf, Nat.zero_add]
    · have h1 : ¬ method < 1 := by rw [← hC.m]; exact h1
      have h2 : longFlag = false := by rw [← hC.lf]; exact h2
      rcases hm with h | h
      · exact (h1 h).elim
      · rw [h] at h2; cases h2
    · have hz := hC.bz j hj r (fun _ => h1) h2
      exact ⟨hz.symm, hz⟩
  have hq := (hag.hlll o' (fun _ _ h => (h rfl).1) (fun _ _ _ hc => by simp at hc)
      (fun _ hc => by simp at hc) hA' fuel δ v (le_of_eq hI.km) hLs hLf).map seen
      (fun a s t h => Agree.seen h a)
  rw [← hq, hlll_sw]
  cases hlll o' fuel δ v fr with
  | none => rfl
  | some r => rfl

/-- The history of `C19_assign_not_fresh` is not clean (the first column of the new basis ends at row 0,
the previous basis reaches row 1); with a `setprec` in between, or with a new basis that reaches
row 1 at once, it is. -/
example : ¬ CleanHist 2 2 (0 : Int) false (ofCols [[3, 5], [5, -3]])
      [.hlll toyOps toy99 true, .assign (ofCols [[4, 0], [3, 1]])] := by
  simp [CleanHist, matrixStructure, lastNonzero, ofCols]

theorem rank22 (c0 c1 : List Int) (h : (toMatrix 2 2 (ofCols [c0, c1])).det ≠ 0) :
    FullColumnRank (toMatrix 2 2 (ofCols [c0, c1])) := Matrix.linearIndependent_cols_of_det_ne_zero h

example : CleanHist 2 2 (0 : Int) false (ofCols [[3, 5], [5, -3]])
      [.hlll toyOps toy99 true, .setprec toyOps 7, .assign (ofCols [[4, 0], [3, 1]]),
        .hlll toyOps toy99 true, .assign (ofCols [[4, 1], [3, 1]])] := by
  refine ⟨rfl, rank22 _ _ (by rw [Matrix.det_fin_two]; decide), by simp,
    rank22 _ _ (by rw [Matrix.det_fin_two]; decide), fun _ => ?_, trivial⟩
  simp [matrixStructure, lastNonzero, ofCols]

/-- **C53 (what does not hold).** Seysen method without fast long arithmetic: the multiplier applied to
the integers is the member `x`, which is never written, so that the result depends on the content of
uninitialised memory: with `5` there the second column is reduced to (-2,7), with `0` it is left at
(23,7), and 0 is returned in both cases. -/
theorem C53_seysen_nolong_uninitialised : ∃ s1 s2 : Lat Int,
    hlll toyOps 30 toy99 true (newLattice toyOps 0 2 2 (ofCols [[5, 0], [23, 7]]) true 1 false 0) =
      some (0, s1) ∧
    hlll toyOps 30 toy99 true
      (newLattice toyOps (5 * toyScale) 2 2 (ofCols [[5, 0], [23, 7]]) true 1 false 0) = some (0, s2) ∧
    s1.getbase ≠ s2.getbase := by
  have h1 : ((hlll toyOps 30 toy99 true
      (newLattice toyOps 0 2 2 (ofCols [[5, 0], [23, 7]]) true 1 false 0)).map fun q =>
        (q.1, toCols 2 2 q.2.B) == (0, [[5, 0], [23, 7]])) = some true := by decide +kernel
  have h2 : ((hlll toyOps 30 toy99 true
      (newLattice toyOps (5 * toyScale) 2 2 (ofCols [[5, 0], [23, 7]]) true 1 false 0)).map fun q =>
        (q.1, toCols 2 2 q.2.B) == (0, [[5, 0], [-2, 7]])) = some true := by decide +kernel
  rw [Option.map_eq_some_iff] at h1 h2
  obtain ⟨⟨a1, s1⟩, e1, h1⟩ := h1
  obtain ⟨⟨a2, s2⟩, e2, h2⟩ := h2
  rw [beq_iff_eq, Prod.mk.injEq] at h1 h2
  obtain ⟨rfl, h1⟩ := h1
  obtain ⟨rfl, h2⟩ := h2
  refine ⟨s1, s2, e1, e2, fun h => ?_⟩
  have hB : s1.B = s2.B := congrArg ZMat.M h
  rw [hB, h2] at h1
  exact absurd h1 (by decide)

end HPLLL.Props
