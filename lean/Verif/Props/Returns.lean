import Verif.Proof.Returns
import Verif.Proof.Near
import Verif.Props.Lattice
/-!
# C67 — does `hlll` return?

`set_nblov_max` bounds the number of Lovász tests.  It does not bound the running time: the size
reduction of one column can go on for ever, because it stops only after two successive passes which do not
divide the squared length of the column by ten.
-/

namespace HPLLL.Props

open HPLLL.Spec Finset

variable {F : Type} {o : FPOps F}

/-- **C67, a run that never returns.**  In double precision arithmetic (53 bits, round to nearest, no
overflow or underflow occurs), with `delta = 0.99` and the default settings, `hlll` never returns on
`loopBasis`, a triangular 7 × 7 matrix with nonzero diagonal and entries of two digits. -/
theorem C67_never_returns (fuel : Nat) :
    hlll (nearOps 53) fuel (rnQ 53 (mkRat 99 100)) false
      (newLattice (nearOps 53) 0 7 7 loopBasis false 0 true 0) = none := by
  unfold hlll
  simp only [Bool.false_eq_true, if_false]
  have : hlllLoop (nearOps 53) (rnQ 53 (mkRat 99 100)) fuel
      (hlllInit (nearOps 53) (newLattice (nearOps 53) 0 7 7 loopBasis false 0 true 0)) = none :=
    Loop7.main_none 5 (by omega) fuel
  rw [this]

/-- The arithmetic of `C67_never_returns` is an honest one: every operation is correctly rounded, with
relative error at most `2^-52`, the matrix has rank 7, and `delta` is less than 1. -/
theorem C67_never_returns_honest :
    StdModel (nearOps 53) (fun x => (x : ℝ)) (2 / 2 ^ 53) ∧ ZeroLaws (nearOps 53) ∧
      FullColumnRank (toMatrix 7 7 loopBasis) ∧ rnQ 53 (mkRat 99 100) < 1 :=
  ⟨nearOps_std 53 (by norm_num), nearOps_zero 53, Loop7.rank7, by decide +kernel⟩

/-- **C67, the test budget does not help.**  The run of `C67_never_returns` gets stuck after five of the
4294967295 tests it is allowed to do: in the size reduction of the last column. -/
theorem C67_stuck_after_five_tests :
    ∃ h : HState Rat, Reached (nearOps 53) (rnQ 53 (mkRat 99 100))
        (hlllInit (nearOps 53) (newLattice (nearOps 53) 0 7 7 loopBasis false 0 true 0)) h ∧
      h.kappa = 6 ∧ h.s.nblov = 5 ∧ h.s.nblovMax = 4294967295 ∧
      ∀ fuel, hsizereduce (nearOps 53) fuel 6 0 (hlllPrep (nearOps 53) 6 h.s) = none := by
  refine ⟨Loop7.H 5, ?_, Loop7.last.1, Loop7.last.2.1, Loop7.last.2.2.2.1, ?_⟩
  · have : ∀ k ≤ 5, Reached Loop7.o7 Loop7.d7 (Loop7.H 0) (Loop7.H k) := by
      intro k
      induction k with
      | zero => intro _; exact .here
      | succ k ih =>
        intro hk
        have := Loop7.step_next k (by omega)
        exact .step 2 (ih (by omega)) this.2.1 this.2.2 this.1
    exact this 5 (by omega)
  · intro f
    unfold hsizereduce
    simp only [Nat.lt_irrefl, if_false]
    exact Loop7.loop_none f

/-- **C67, the main loop ends.**  For every arithmetic, method and state of the object: `hlll` returns if and only
if the reduction of the current column returns in every iteration the run gets to. -/
theorem C67_returns_iff_columns_do (o : FPOps F) (δ : F) (s : Lat F) :
    (∃ f r, hlll o f δ false s = some r) ↔
      ∀ h, Reached o δ (hlllInit o s) h → h.kappa < h.s.kappaMax → h.s.nblov < h.s.nblovMax →
        ∃ f r, hlllReduce o f h.kappa (hlllPrep o h.kappa h.s) = some r := by
  have hl : (∃ f r, hlll o f δ false s = some r) ↔ ∃ f r, hlllLoop o δ f (hlllInit o s) = some r := by
    unfold hlll
    simp only [Bool.false_eq_true, if_false]
    constructor
    · rintro ⟨f, r, h⟩
      cases hq : hlllLoop o δ f (hlllInit o s) with
      | none => rw [hq] at h; simp at h
      | some q => exact ⟨f, q, hq⟩
    · rintro ⟨f, r, h⟩
      exact ⟨f, _, by rw [h]⟩
  rw [hl]
  constructor
  · rintro ⟨f, r, h⟩ h' hR a b
    by_contra hc
    push Not at hc
    have hn : ∀ f, hlllReduce o f h'.kappa (hlllPrep o h'.kappa h'.s) = none := by
      intro f
      cases hq : hlllReduce o f h'.kappa (hlllPrep o h'.kappa h'.s) with
      | none => rfl
      | some q => exact absurd hq (hc f q)
    have := stuck_loop hR (fun f => reduce_loop a b hn f) f
    rw [h] at this; simp at this
  · intro hr
    by_contra hc
    push Not at hc
    have hn : ∀ f, hlllLoop o δ f (hlllInit o s) = none := by
      intro f
      cases hq : hlllLoop o δ f (hlllInit o s) with
      | none => rfl
      | some q => exact absurd hq (hc f q)
    obtain ⟨h, hR, a, b, hst⟩ := loop_stuck _ _ (by show 0 < 1; omega) rfl hn
    obtain ⟨f, r, hfr⟩ := hr h hR a b
    rw [hst f] at hfr
    simp at hfr

/-- **C67, what a run without end looks like.**  Any arithmetic of the standard model with
`(1-u)^-(2n+6) <= 21/20` (double precision: `n` up to `10^14`), any input of full rank, size reduction
(method 0).  If `hlll` does not return, then it is modifying one column `κ` of a basis of the input
lattice over and over, and the exact squared length of that column is divided by more than nine at least once in
any two successive passes, and infinitely often multiplied by more than nine in a single pass. -/
theorem C67_stuck_only_by_bouncing {val : F → ℝ} {u : ℝ} (hs : StdModel o val u) (hz : ZeroLaws o)
    (ht : ∃ e, |e| ≤ u ∧ val o.tenth = 1 / 10 * (1 + e)) (junk : F) (n d : Nat)
    (hu : (1 / (1 - u)) ^ (2 * n + 6) ≤ 21 / 20) (A : Mat Int) (forU : Bool) (longFlag : Bool) (vd : Int)
    (S : Nat) (thr : Int) (nb : Nat) (hA : FullColumnRank (toMatrix n d A)) (δ : F) (v : Bool)
    (h : ∀ fuel, hlll o fuel δ v (fresh o junk n d A forU 0 longFlag vd S thr nb) = none) :
    ∃ κ, 0 < κ ∧ κ < d ∧ ∃ W : Nat → Mat Int,
      (∀ k, ∃ T : Matrix (Fin d) (Fin d) ℤ, Unimodular T ∧ toMatrix n d (W k) = toMatrix n d A * T) ∧
      (∀ k c, c ≠ κ → W (k + 1) c = W k c) ∧
      (∀ k, sqLen n (W (k + 1) κ) * 9 < sqLen n (W k κ) ∨
        sqLen n (W (k + 2) κ) * 9 < sqLen n (W (k + 1) κ)) ∧
      (∀ K, ∃ k, K ≤ k ∧ 9 * sqLen n (W k κ) < sqLen n (W (k + 1) κ)) := by
  set s := fresh o junk n d A forU 0 longFlag vd S thr nb with hsd
  set s1 := (if v then { s with verboseDepth := s.verboseDepth - 1 } else s) with hs1
  have hn : ∀ f, hlllLoop o δ f (hlllInit o s1) = none := by
    intro f
    have := h f
    unfold hlll at this
    simp only [← hs1] at this
    cases hl : hlllLoop o δ f (hlllInit o s1) with
    | none => rfl
    | some q => rw [hl] at this; simp at this
  have e : s1.n = s.n ∧ s1.d = s.d ∧ s1.str = s.str ∧ s1.B = s.B ∧ s1.U = s.U ∧ s1.transf = s.transf ∧
      s1.numS = s.numS ∧ s1.parThr = s.parThr ∧ s1.fp = s.fp ∧ s1.kappaMax = s.kappaMax ∧
      s1.seysenFlag = s.seysenFlag := by
    rw [hs1]; split <;> exact ⟨rfl, rfl, rfl, rfl, rfl, rfl, rfl, rfl, rfl, rfl, rfl⟩
  obtain ⟨e1, e2, e3, e4, e5, e6, e7, e8, e9, e10, e11⟩ := e
  refine stuck_bounce hs hz ht hu hA (s := s1)
    ((fresh_inv o junk n d A forU 0 longFlag vd S thr nb False (fun h => h.elim)).congr e1 e2 e3 e4 e5 e6 e7 e8)
    ?_ (e10.trans rfl) (by rw [e11]; show (0 : Int) < 1; decide) hn
  intro c _ r _ _
  rw [e9]; rfl

/-- The hypotheses of `C67_stuck_only_by_bouncing` are met by `C67_never_returns`. -/
example : ∃ κ, 0 < κ ∧ κ < 7 ∧ ∃ W : Nat → Mat Int,
    (∀ k, ∃ T : Matrix (Fin 7) (Fin 7) ℤ, Unimodular T ∧
      toMatrix 7 7 (W k) = toMatrix 7 7 loopBasis * T) ∧
    (∀ k c, c ≠ κ → W (k + 1) c = W k c) ∧
    (∀ k, sqLen 7 (W (k + 1) κ) * 9 < sqLen 7 (W k κ) ∨
      sqLen 7 (W (k + 2) κ) * 9 < sqLen 7 (W (k + 1) κ)) ∧
    (∀ K, ∃ k, K ≤ k ∧ 9 * sqLen 7 (W k κ) < sqLen 7 (W (k + 1) κ)) := by
  refine C67_stuck_only_by_bouncing C67_never_returns_honest.1 C67_never_returns_honest.2.1 ?_ 0 7 7
    ?_ loopBasis false true 0 1 1000000 4294967295 C67_never_returns_honest.2.2.1 (rnQ 53 (mkRat 99 100)) false
    C67_never_returns
  · obtain ⟨e, h1, h2⟩ := rnQ_rel 53 (mkRat 1 10)
    refine ⟨e, h1.trans (by norm_num), ?_⟩
    rw [show (nearOps 53).tenth = rnQ 53 (mkRat 1 10) from rfl, h2]
    rw [Rat.mkRat_eq_div]; push_cast; ring
  · norm_num

end HPLLL.Props
