import Verif.Proof.FpHhAll
import Verif.Props.Swell
/-!
# C64: `hlll` in floating point — what the returned object satisfies, in the arithmetic it was run with

Any arithmetic in which operations with the number zero are exact (`ZeroLaws`; IEEE, MPFR, dpe, ...).
Nothing is assumed about the accuracy of the other operations.
-/

namespace HPLLL.Props
open HPLLL Spec

variable {F : Type} {o : FPOps F}

/-- Column `j` of the basis, converted to floating point. -/
def bfl (o : FPOps F) (n : Nat) (B : Mat Int) (j : Nat) : Nat → F :=
  fun r => if r < n then o.ofZ (B j r) else o.zero

theorem fresh_fInv (junk : F) (n d : Nat) (A : Mat Int) (forU : Bool)
    (method : Int) (longFlag : Bool) (vd : Int) (S : Nat) (thr : Int) (nb : Nat) (δ : F) (v : Bool) :
    Fl.FInv o n d A False δ (hlllInit o
      (if v then { fresh o junk n d A forU method longFlag vd S thr nb with
        verboseDepth := vd - 1 } else fresh o junk n d A forU method longFlag vd S thr nb)) := by
  have hI := fresh_inv o junk n d A forU method longFlag vd S thr nb False (fun h => h.elim)
  refine Fl.FInv.init ?_ ?_
  · cases v
    · exact hI
    · exact hI.congr rfl rfl rfl rfl rfl rfl rfl rfl
  · intro c _ r _ _
    cases v <;> rfl

/-- **C64.** When `hlll` returns 0 within its budget, the floating point factors it leaves are exactly
the Householder factorisation of the returned basis computed from scratch with the same operations
(no stale cached value, whatever swaps and reductions took place), every Lovász test succeeds on these
factors, and with the size reduction method every column passes the size test on them. -/
theorem C64_final_tests (hz : ZeroLaws o) (junk : F) (n d : Nat) (hd : 2 ≤ d) (A : Mat Int)
    (forU : Bool) (method : Int) (longFlag : Bool) (vd : Int) (S : Nat) (thr : Int) (nb : Nat)
    (hA : FullColumnRank (toMatrix n d A)) (fuel : Nat) (δ : F) (v : Bool) (s' : Lat F)
    (h : hlll o fuel δ v (fresh o junk n d A forU method longFlag vd S thr nb) = some (0, s'))
    (hb : s'.nblov < nb) :
    IsFpQR o n d (bfl o n s'.getbase.M) s'.fp.V s'.fp.R ∧
    (∀ k, 1 ≤ k → k < d → FpLovasz o n k δ (bfl o n s'.getbase.M) s'.fp.V s'.fp.R) ∧
    (method < 1 → ∀ k, 1 ≤ k → k < d → FpSized o n k (bfl o n s'.getbase.M) s'.fp.R) := by
  have hE := fresh_fInv (o := o) junk n d A forU method longFlag vd S thr nb δ v
  have hex := hlll_exit o fuel δ v _ _ _
    (fresh_inv o junk n d A forU method longFlag vd S thr nb False (fun h => h.elim))
    (le_refl d) h
  have hnb : s'.nblovMax = nb := hex.cfg.nblovMax
  have hsf : s'.seysenFlag = method := hex.cfg.seysenFlag
  unfold hlll at h
  simp only [] at h
  split at h
  · simp at h
  · rename_i st1 s1 hl
    simp only [Option.some.injEq, Prod.mk.injEq] at h
    obtain ⟨rfl, hs'⟩ := h
    have hl' : hlllLoop o δ fuel (hlllInit o (if v then
        { fresh o junk n d A forU method longFlag vd S thr nb with
        verboseDepth := vd - 1 } else fresh o junk n d A forU method longFlag vd S thr nb))
        = some (0, s1) := by
      cases v <;> exact hl
    have eB : s'.B = s1.B := by rw [← hs']; cases v <;> rfl
    have efp : s'.fp = s1.fp := by rw [← hs']; cases v <;> rfl
    have enb : s'.nblov = s1.nblov := by rw [← hs']; cases v <;> rfl
    have enm : s'.nblovMax = s1.nblovMax := by rw [← hs']; cases v <;> rfl
    have esf : s'.seysenFlag = s1.seysenFlag := by rw [← hs']; cases v <;> rfl
    obtain ⟨h', hF, hs1, hk⟩ := hE.loop hz hA fuel _ (by cases v <;> rfl) s1 hl'
      (by rw [← enb, ← enm, hnb]; exact hb)
    have hkd : h'.kappa = d := by have := hF.kd; omega
    have hne : h'.kappa ≠ 1 := by omega
    have hq := (hF.head.full hne).qr
    have ht := hF.tests hne
    rw [hkd, hs1] at hq ht
    have hg := hF.inv.geom hA
    have hsp := hF.inv.sup
    rw [hs1] at hg hsp
    show IsFpQR o n d (Fl.fvec o n s'.B) s'.fp.V s'.fp.R ∧ _
    rw [eB, efp]
    refine ⟨hq.spec hz hg hsp, ?_, ?_⟩
    · intro k h1 h2
      show FpLovasz o n k δ (Fl.fvec o n s'.B) _ _
      rw [eB]
      exact (ht k h1 h2).2
    · intro hm k h1 h2
      show FpSized o n k (Fl.fvec o n s'.B) _
      rw [eB]
      exact (ht k h1 h2).1 (by rw [← esf, hsf]; exact hm)

/-- **C64, getR().** The matrix returned by `getR()` after `hlll` is, bit for bit, the one which a new
object constructed on `getbase()` gives after `householder()` (unless a division by zero occurs in that
computation). -/
theorem C64_getR_recomputed (hz : ZeroLaws o) (junk junk' : F) (n d : Nat) (hd : 2 ≤ d) (hdn : d ≤ n)
    (A : Mat Int) (forU forU' : Bool) (method method' : Int) (longFlag longFlag' : Bool)
    (vd vd' : Int) (S : Nat) (thr : Int) (nb : Nat)
    (hA : FullColumnRank (toMatrix n d A)) (fuel : Nat) (δ : F) (v : Bool) (s' : Lat F)
    (h : hlll o fuel δ v (fresh o junk n d A forU method longFlag vd S thr nb) = some (0, s'))
    (hb : s'.nblov < nb)
    (hnz : ∀ k < d, o.isZero (fscal o n k (fapp o n s'.fp.V k (bfl o n s'.getbase.M k))) = false) :
    ∀ i < d, ∀ j < d, s'.getR o junk j i =
      ((newLattice o junk' n d s'.getbase.M forU' method' longFlag' vd').householder o).getR o junk' j i
    := by
  obtain ⟨h1, -, -⟩ := C64_final_tests hz junk n d hd A forU method longFlag vd S thr nb hA fuel δ v s'
    h hb
  have hex := hlll_exit o fuel δ v _ _ _
    (fresh_inv o junk n d A forU method longFlag vd S thr nb False (fun h => h.elim))
    (le_refl d) h
  have en : s'.n = n := hex.cfg.n
  have ed : s'.d = d := hex.cfg.d
  have h2 := Fl.householder_spec hz (newLattice o junk' n d s'.getbase.M forU' method' longFlag' vd') hdn
  have key := Fl.isFpQR_unique hdn h1 h2 hnz
  intro i hi j hj
  simp only [Lat.getR, en, ed]
  split
  · rename_i hij
    rw [if_pos (by omega), if_pos (by
      show i < min n d
      omega)]
    exact (key j hj i hij).symm
  · rfl

theorem toy_zeroLaws : ZeroLaws toyOps where
  ofZ := by simp [toyOps]
  addmul := by intro a v; simp [toyOps]
  submul := by intro a; simp [toyOps]
  div := by
    intro a h
    simp [toyOps]

/-- Non-vacuity: a run in a 64 bit fixed point arithmetic (not exact), with swaps and reductions, ends
with status 0, and no division by zero occurs. -/
theorem toy_run : ∃ t : Lat Int, hlll toyOps 60 toy99 false
      (fresh toyOps 7 3 3 (ofCols [[1, 0, 13], [0, 1, 8], [0, 0, 21]]) true 0 true 0 1 1000000 100)
        = some (0, t) ∧ t.nblov < 100 ∧ toCols 3 3 t.getbase.M = [[-1, -1, 0], [-1, 2, 3], [-2, 3, -2]] ∧
    ∀ k < 3, toyOps.isZero (fscal toyOps 3 k (fapp toyOps 3 t.fp.V k (bfl toyOps 3 t.getbase.M k)))
      = false := by
  have : (match hlll toyOps 60 toy99 false
      (fresh toyOps 7 3 3 (ofCols [[1, 0, 13], [0, 1, 8], [0, 0, 21]]) true 0 true 0 1 1000000 100) with
    | some (st, t) => decide (st = 0 ∧ t.nblov < 100 ∧
        toCols 3 3 t.getbase.M = [[-1, -1, 0], [-1, 2, 3], [-2, 3, -2]] ∧
        (List.range 3).all (fun k => !toyOps.isZero (fscal toyOps 3 k (fapp toyOps 3 t.fp.V k
          (bfl toyOps 3 t.getbase.M k)))) = true)
    | none => false) = true := by decide +kernel
  split at this
  · rename_i st t e
    obtain ⟨rfl, h2, h3, h4⟩ := of_decide_eq_true this
    refine ⟨t, e, h2, h3, fun k hk => ?_⟩
    have := List.all_eq_true.mp h4 k (List.mem_range.mpr hk)
    rw [Bool.not_eq_true'] at this
    exact this
  · simp at this

theorem toy_rank : FullColumnRank (toMatrix 3 3 (ofCols [[1, 0, 13], [0, 1, 8], [0, 0, 21]])) := by
  have : (toMatrix 3 3 (ofCols [[1, 0, 13], [0, 1, 8], [0, 0, 21]])).det ≠ 0 := by
    rw [Matrix.det_fin_three]; decide
  exact Matrix.linearIndependent_cols_of_det_ne_zero this

/-- The hypotheses of both theorems are met by this run. -/
example : ∃ t : Lat Int,
    IsFpQR toyOps 3 3 (bfl toyOps 3 t.getbase.M) t.fp.V t.fp.R ∧
    (∀ k, 1 ≤ k → k < 3 → FpLovasz toyOps 3 k toy99 (bfl toyOps 3 t.getbase.M) t.fp.V t.fp.R) ∧
    (∀ k, 1 ≤ k → k < 3 → FpSized toyOps 3 k (bfl toyOps 3 t.getbase.M) t.fp.R) ∧
    ∀ i < 3, ∀ j < 3, t.getR toyOps 7 j i =
      ((newLattice toyOps 8 3 3 t.getbase.M false 0 false 0).householder toyOps).getR toyOps 8 j i := by
  obtain ⟨t, h1, h2, -, h4⟩ := toy_run
  obtain ⟨a, b, c⟩ := C64_final_tests toy_zeroLaws 7 3 3 (by norm_num) _ true 0 true 0 1 1000000 100
    toy_rank 60 toy99 false t h1 h2
  exact ⟨t, a, b, c (by norm_num), C64_getR_recomputed toy_zeroLaws 7 8 3 3 (by norm_num) (le_refl _) _
    true false 0 0 true false 0 0 1 1000000 100 toy_rank 60 toy99 false t h1 h2 h4⟩

end HPLLL.Props
