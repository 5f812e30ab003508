import Verif.Proof.SlllSafe
import Verif.Props.Slll
/-!
# C86: indices used by the segment LLL
-/

namespace HPLLL.Props
open HPLLL

variable {F : Type}

/-- Objects reached from a fresh `SLattice(A, S0, ...)` by calls `hlll(delta, S, nbthreads, lovmax)` with
`1 <= S <= S0`, each with its own parameters, number of threads and schedule. -/
inductive SegHistory (o : FPOps F) (c : SCst F) (n d S0 : ℕ) : SLat F → Prop
  | fresh (junk : F) (A : Mat ℤ) (forU : Bool) (method : ℤ) (longFlag : Bool) (vd : ℤ) :
      SegHistory o c n d S0 (newSLattice o junk n d A S0 forU method longFlag vd)
  | hlll (σ : Sched) (junk : F) (fuel : ℕ) (δ : F) (S lovmax : ℕ) (g : ℕ) {L L' : SLat F} :
      SegHistory o c n d S0 L → 0 < S → S ≤ S0 → L.hlll o c σ junk fuel δ S lovmax = some (g, L') →
      SegHistory o c n d S0 L'

/-- **C86.** For `n >= d >= 1`, in every history of calls with at most as many segments as at construction, no index was
out of range: for every arithmetic, schedule and content of uninitialised storage, in the object and in the block lattices
it creates. -/
theorem C86_index_safety (o : FPOps F) (c : SCst F) (n d S0 : ℕ) (hd : 0 < d) (hdn : d ≤ n) (L : SLat F)
    (h : SegHistory o c n d S0 L) : L.lat.ub = false := by
  suffices SLSafe (n + padLen d S0) (d + padLen d S0) (2 * S0 - 1) d L from this.safe.ub
  induction h with
  | fresh junk A forU method longFlag vd => exact newSLattice_safe o junk n d A S0 forU method longFlag vd
  | hlll σ junk fuel δ S lovmax g _ hS hSS hr ih =>
    exact SLSafe.hlll o c (by omega) (by omega) (by omega) junk fuel δ S lovmax hS hSS _ _ g ih hr

/-- **C86, exactly when.** On a fresh object (`d >= 1` columns), a call that returns used only valid indices if and only if
`d <= n` and `1 <= S <= S0`.  DEFECT: nothing checks `S <= S0`; with more segments the call writes beyond the end of
`swapstab`, allocated by the constructor. -/
theorem C86_index_safety_iff (o : FPOps F) (c : SCst F) (σ : Sched) (junk : F) (n d : ℕ) (hd : 0 < d) (A : Mat ℤ) (S0 : ℕ)
    (forU : Bool) (method : ℤ) (longFlag : Bool) (vd : ℤ) (fuel : ℕ) (δ : F) (S lovmax g : ℕ) (L' : SLat F)
    (hr : (newSLattice o junk n d A S0 forU method longFlag vd).hlll o c σ junk fuel δ S lovmax = some (g, L')) :
    L'.lat.ub = false ↔ d ≤ n ∧ 0 < S ∧ S ≤ S0 := by
  constructor
  · intro h
    by_contra hn
    have := Stk.slll_ub o c junk fuel δ S lovmax _ L' g (.inr ?_) hr
    · rw [h] at this; simp at this
    · show sphaseIdx (n + padLen d S0) (d + padLen d S0) S S 0 (2 * S0 - 1) false = false
      unfold sphaseIdx
      rw [decide_eq_false_iff_not]
      rintro ⟨h1, -, h2, -, -, h3⟩
      have := h2 h1
      simp only [Bool.false_eq_true, if_false] at this
      exact hn ⟨by omega, h1, by omega⟩
  · rintro ⟨hdn, hS, hSS⟩
    exact C86_index_safety o c n d S0 hd hdn L' (.hlll σ junk fuel δ S lovmax g (.fresh junk A forU method longFlag vd)
      hS hSS hr)

/-- A call within the range, and the defect: two segments on an object made for one. -/
theorem C86_witness :
    ((newSLattice toyOps 0 2 2 (ofCols [[1, 0], [1, 1]]) 1 true 0 true 0).hlll toyOps toySC .seq 0 3 toy99 1 1000).map
      (fun r => (r.1, r.2.lat.ub)) = some (0, false) ∧
    ((newSLattice toyOps 0 4 4 (ofCols [[1, 0, 0, 0], [1, 1, 0, 0], [0, 0, 1, 0], [0, 0, 0, 1]]) 1 true 0 true 0).hlll
      toyOps toySC .seq 0 4 toy99 2 1000).map
      (fun r => (r.1, r.2.lat.ub, toCols 4 4 r.2.getbase.M)) =
      some (0, true, [[1, 0, 0, 0], [0, 1, 0, 0], [0, 0, 1, 0], [0, 0, 0, 1]]) := by decide +kernel

end HPLLL.Props
