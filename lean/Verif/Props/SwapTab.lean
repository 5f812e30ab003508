import Verif.Props.Slll
import Mathlib.Algebra.BigOperators.Intervals
/-!
# The table of swaps of `SLattice`: C51
-/

namespace HPLLL.Props
open HPLLL Spec Finset

variable {F : Type} (o : FPOps F) (c : SCst F)

theorem list_sum_get {α : Type} (l : List α) (f : α → ℕ) :
    ∑ k ∈ range l.length, ((l[k]?).elim 0 f : ℕ) = (l.map f).sum := by
  induction l with
  | nil => rfl
  | cons a l ih => rw [List.length_cons, sum_range_succ', List.map_cons, List.sum_cons, ← ih, add_comm]; simp

theorem addSwaps_eq (odd : Bool) (BRs : List (Lat F)) (sw : ℕ → ℤ) (t : ℕ) :
    addSwaps odd BRs sw t = sw t +
      if t % 2 = (if odd then 1 else 0) then (((BRs[t / 2]?).elim 0 (·.nbswaps) : ℕ) : ℤ) else 0 := by
  unfold addSwaps
  cases BRs[t / 2]? with
  | none => simp
  | some b => by_cases h : t % 2 = (if odd then 1 else 0) <;> simp [h]

theorem sum_parity (odd : Bool) (S : ℕ) (hS : 0 < S) (f : ℕ → ℤ) :
    ∑ t ∈ range (2 * S - 1), (if t % 2 = (if odd then 1 else 0) then f (t / 2) else 0) =
      ∑ k ∈ range (if odd then S - 1 else S), f k := by
  obtain ⟨S, rfl⟩ : ∃ q, S = q + 1 := ⟨S - 1, by omega⟩
  induction S with
  | zero => cases odd <;> simp
  | succ S ih =>
    rw [show 2 * (S + 1 + 1) - 1 = (2 * (S + 1) - 1) + 1 + 1 by omega, sum_range_succ, sum_range_succ, ih (by omega)]
    have e1 : (2 * (S + 1) - 1) % 2 = 1 := by omega
    have e2 : (2 * (S + 1) - 1 + 1) % 2 = 0 := by omega
    have e3 : (2 * (S + 1) - 1) / 2 = S := by omega
    have e4 : (2 * (S + 1) - 1 + 1) / 2 = S + 1 := by omega
    rw [e1, e2, e3, e4]
    cases odd
    · simp [sum_range_succ]
    · simp [sum_range_succ]

/-- The table agrees with the counter. -/
structure TabOk (S : ℕ) (L : SLat F) : Prop where
  zero : ∀ t, 2 * S - 1 ≤ t → L.swapstab t = 0
  nonneg : ∀ t, 0 ≤ L.swapstab t
  sum : ∑ t ∈ range (2 * S - 1), L.swapstab t = L.lat.nbswaps

theorem reduceAndGap_counts (key : List ℕ) (fuel : ℕ) (L L' : SLat F) (g : ℕ)
    (h : reduceAndGap o c .seq key fuel L = some (g, L')) :
    L'.swapstab = L.swapstab ∧ L'.lat.nbswaps = L.lat.nbswaps := by
  constructor
  · unfold reduceAndGap at h
    simp only [] at h
    obtain ⟨r, -, hr⟩ := Option.map_eq_some_iff.1 h
    have := congrArg Prod.snd hr
    dsimp only at this
    rw [← this]
  · have := reduceAndGap_sched o c Sched.seq_ok Sched.seq_ok key fuel L.lat.nbswaps L
    have e : L.cnt L.lat.nbswaps = L := rfl
    rw [e, h] at this
    simp only [Option.map_some, Option.some.injEq, Prod.mk.injEq, true_and] at this
    have h2 := congrArg (fun L : SLat F => L.lat.nbswaps) this
    exact h2

theorem TabOk.phase {S : ℕ} (hS : 0 < S) {L L' : SLat F} (hL : TabOk S L) (junk : F) (key : List ℕ) (fuel : ℕ) (δ : F)
    (lovmax : ℕ) (odd : Bool) (b : Bool) (g : ℕ)
    (h : sphase o c .seq junk key fuel δ S lovmax odd L = some (b, g, L')) : TabOk S L' := by
  unfold sphase at h
  simp only [] at h
  split at h
  · simp at h
  rename_i BRs hBR
  have hlen := (allBlocks_some hBR).1
  split at h
  · simp at h
  rename_i gap L1 hL1
  obtain ⟨h1, h2⟩ := reduceAndGap_counts o c _ _ _ _ _ hL1
  dsimp only at h1 h2
  have h3 : L'.swapstab = L1.swapstab ∧ L'.lat.nbswaps = L1.lat.nbswaps := by
    simp only [Option.some.injEq, Prod.mk.injEq] at h
    obtain ⟨-, -, rfl⟩ := h
    split <;> exact ⟨rfl, rfl⟩
  have hr : L1.lat.nbswaps = L.lat.nbswaps + (BRs.map (·.nbswaps)).sum := h2
  refine ⟨fun t ht => ?_, fun t => ?_, ?_⟩
  · rw [h3.1, h1, addSwaps_eq, hL.zero t ht, zero_add]
    by_cases hp : t % 2 = (if odd then 1 else 0)
    · have : BRs[t / 2]? = none := by
        rw [List.getElem?_eq_none_iff, hlen]
        cases odd <;> simp at hp ⊢ <;> omega
      rw [if_pos hp, this]; rfl
    · rw [if_neg hp]
  · rw [h3.1, h1, addSwaps_eq]
    have := hL.nonneg t
    refine add_nonneg this ?_
    by_cases hp : t % 2 = (if odd then 1 else 0)
    · rw [if_pos hp]; exact Int.natCast_nonneg _
    · rw [if_neg hp]
  · rw [h3.1, h3.2, h1, hr, sum_congr rfl fun t _ => addSwaps_eq odd BRs L.swapstab t, sum_add_distrib, hL.sum,
      sum_parity odd S hS fun k => (((BRs[k]?).elim 0 (·.nbswaps) : ℕ) : ℤ), ← hlen, ← Nat.cast_sum, list_sum_get]
    push_cast
    rfl

theorem TabOk.phases {S : ℕ} (hS : 0 < S) (junk δ : F) (lovmax : ℕ) : ∀ (fuel : ℕ) (L L' : SLat F) (g : ℕ), TabOk S L →
    sphases o c .seq junk δ S lovmax fuel L = some (g, L') → TabOk S L' := by
  intro fuel
  induction fuel with
  | zero => intro L L' g _ h; simp [sphases] at h
  | succ fuel ih =>
    intro L L' g hL h
    unfold sphases at h
    split at h
    · simp at h
    rename_i s0 g0 L0 h0
    have t0 := hL.phase o c hS _ _ _ _ _ _ _ _ h0
    split at h
    · simp only [Option.some.injEq, Prod.mk.injEq] at h
      rw [← h.2]; exact t0
    split at h
    · simp at h
    rename_i s1 g1 L1 h1
    have t1 := t0.phase o c hS _ _ _ _ _ _ _ _ h1
    split at h
    · simp only [Option.some.injEq, Prod.mk.injEq] at h
      rw [← h.2]; exact t1
    split at h
    · simp only [Option.some.injEq, Prod.mk.injEq] at h
      rw [← h.2]; exact t1
    · exact ih _ _ _ t1 h

/-- **C51, table of swaps.** The public table `swapstab` after `hlll(delta, S, ...)` on a fresh object: it is not subject to the
race of the counter.  For every schedule, the entries before `2S - 1` sum up to the number of swaps counted by the
sequential run (`nbswaps` without lost updates), they are at least 0, and all the others are 0.  (For `S > S0` the entries from
`2 S0 - 1` on are outside of the allocated table, see C86.) -/
theorem C51_table (σ : Sched) (hσ : σ.Ok) (junk : F) (n d : Nat) (A : Mat Int) (S0 : Nat)
    (forU : Bool) (method : Int) (lf : Bool) (vd : Int) (fuel : Nat) (δ : F) (S lovmax : Nat) (hS : 0 < S)
    (g : Nat) (L' : SLat F)
    (hr : (newSLattice o junk n d A S0 forU method lf vd).hlll o c σ junk fuel δ S lovmax = some (g, L')) :
    ∃ Lseq, (newSLattice o junk n d A S0 forU method lf vd).hlll o c .seq junk fuel δ S lovmax = some (g, Lseq) ∧
      ∑ t ∈ range (2 * S - 1), L'.swapstab t = Lseq.lat.nbswaps ∧ (∀ t, 0 ≤ L'.swapstab t) ∧
      ∀ t, 2 * S - 1 ≤ t → L'.swapstab t = 0 := by
  have hs := C38_schedule_independent o c σ .seq hσ Sched.seq_ok junk fuel δ S lovmax
    (newSLattice o junk n d A S0 forU method lf vd)
  rw [hr] at hs
  obtain ⟨⟨g', Lseq⟩, h1, h2⟩ := Option.map_eq_some_iff.1 hs.symm
  simp only [slllObserved, Prod.mk.injEq] at h2
  obtain ⟨rfl, -, -, -, -, hsw, -⟩ := h2
  refine ⟨Lseq, h1, ?_⟩
  rw [← hsw]
  have h3 := h1
  unfold SLat.hlll at h3
  simp only [] at h3
  split at h3
  · simp at h3
  rename_i r L2 hL2
  simp only [Option.some.injEq, Prod.mk.injEq] at h3
  obtain ⟨-, rfl⟩ := h3
  have h0 := TabOk.phases o c hS junk δ lovmax fuel _ _ _
    ⟨fun t _ => rfl, fun t => le_refl _, by
      show ∑ t ∈ range (2 * S - 1), (0:ℤ) = ((0:ℕ):ℤ)
      simp⟩ hL2
  exact ⟨h0.sum, h0.nonneg, h0.zero⟩

/-- Non-vacuity of `C51_table`: the run of `C38_getU_is_last_phase`. -/
example : ∃ g L', (newSLattice toyOps 0 2 2 (ofCols [[1, 0], [1, 1]]) 1 true 0 true 0).hlll toyOps toySC .seq 0 3
      toy99 1 1000 = some (g, L') ∧ L'.swapstab 0 = L'.lat.nbswaps := by
  have h := C38_getU_is_last_phase
  cases hr : (newSLattice toyOps 0 2 2 (ofCols [[1, 0], [1, 1]]) 1 true 0 true 0).hlll toyOps toySC .seq 0 3
      toy99 1 1000 with
  | none => rw [hr] at h; simp at h
  | some r =>
    obtain ⟨L, h1, h2, -⟩ := C51_table toyOps toySC .seq Sched.seq_ok 0 2 2 _ 1 true 0 true 0 3 toy99 1 1000 (by omega)
      r.1 r.2 hr
    rw [hr, Option.some.injEq, Prod.ext_iff] at h1
    refine ⟨r.1, r.2, rfl, ?_⟩
    obtain rfl : r.2 = L := h1.2
    rw [← h2]
    simp

end HPLLL.Props
