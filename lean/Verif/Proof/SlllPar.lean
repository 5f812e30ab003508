import Verif.Proof.ParMat
import Verif.Model.Slll
/-! The parallel regions of `SLattice`: their effect does not depend on the schedule. -/

namespace HPLLL
open Spec

theorem Interleave.prepend_nil {α : Type} {Ps : List (List α)} {T : List α} (h : Interleave Ps T) :
    Interleave ([] :: Ps) T := by
  induction h with
  | done Ps hP => exact .done _ (by simpa using hP)
  | step L R a P T _ ih => exact Interleave.step ([] :: L) R a P T ih

theorem Interleave.flatten_seq {α : Type} (Ps : List (List α)) : Interleave Ps Ps.flatten := by
  induction Ps with
  | nil => exact .done _ (by simp)
  | cons P Ps ih =>
    induction P with
    | nil => simpa using ih.prepend_nil
    | cons a P ihP => exact Interleave.step [] Ps a P _ ihP

theorem Sched.seq_ok : Sched.seq.Ok := ⟨fun _ Ps => .flatten_seq Ps, fun _ Ps => .flatten_seq Ps⟩

/-! ### lists of stores -/

theorem tex_storeList (U : Mat Int) (l : Nat) (P : List PAct)
    (hP : ∀ a ∈ P, ∃ i j q r c, a = .store i j q r c) (s : PState) :
    (tex U l P s).loc = s.loc ∧
    (∀ q c r, (∀ i j, PAct.store i j q r c ∉ P) → (tex U l P s).sh q c r = s.sh q c r) ∧
    (∀ q c r v, (∃ i j, PAct.store i j q r c ∈ P) →
      (∀ i j, PAct.store i j q r c ∈ P → s.loc l j i = v) → (tex U l P s).sh q c r = v) := by
  induction P generalizing s with
  | nil => exact ⟨rfl, fun _ _ _ _ => rfl, fun _ _ _ _ h => by simp at h⟩
  | cons a P ih =>
    obtain ⟨i0, j0, q0, r0, c0, rfl⟩ := hP a (by simp)
    rw [tex_cons]
    obtain ⟨a1, a2, a3⟩ := ih (fun b hb => hP b (by simp [hb])) (pact U (l, .store i0 j0 q0 r0 c0) s)
    refine ⟨a1, fun q c r h => ?_, fun q c r v h hv => ?_⟩
    · rw [a2 q c r fun i j hm => h i j (by simp [hm])]
      simp only [pact, setAt]
      split
      · rename_i hq
        subst hq
        rw [setEntry_apply, if_neg]
        rintro ⟨rfl, rfl⟩
        exact h i0 j0 (by simp)
      · rfl
    · by_cases hm : ∃ i j, PAct.store i j q r c ∈ P
      · exact a3 q c r v hm fun i j hh => hv i j (by simp [hh])
      · rw [a2 q c r fun i j hh => hm ⟨i, j, hh⟩]
        obtain ⟨i, j, hh⟩ := h
        rcases List.mem_cons.mp hh with hh | hh
        · injection hh with e1 e2 e3 e4 e5
          subst e1 e2 e3 e4 e5
          simp only [pact, setAt, if_true]
          rw [setEntry_apply, if_pos ⟨rfl, rfl⟩]
          exact hv i j (by simp)
        · exact absurd ⟨i, j, hh⟩ hm

/-! ### putblock -/

theorem mem_sputStores {sdim dec k : Nat} {a : PAct}
    (h : a ∈ progFor 0 sdim fun j => progFor 0 sdim fun i =>
      [PAct.store i j 0 (k * sdim + i + dec) (k * sdim + j + dec)]) :
    ∃ i < sdim, ∃ j < sdim, a = .store i j 0 (k * sdim + i + dec) (k * sdim + j + dec) := by
  obtain ⟨j, -, hj, h⟩ := mem_progFor h
  obtain ⟨i, -, hi, h⟩ := mem_progFor h
  exact ⟨i, hi, j, hj, by simpa using h⟩

theorem progFor_mem {a b i : Nat} {P : Nat → List PAct} {x : PAct} (ha : a ≤ i) (hb : i < b)
    (h : x ∈ P i) : x ∈ progFor a b P := by
  unfold progFor
  exact List.mem_flatMap.mpr ⟨i, by rw [List.mem_range'_1]; omega, h⟩

theorem sputProg_task (U : Mat Int) (sdim dec : Nat) (Us : Nat → Mat Int) (k : Nat) :
    Task U k (sputProg sdim dec Us k) (fun _ _ => False)
      (fun q c r => q = 0 ∧ k * sdim + dec ≤ c ∧ c < k * sdim + dec + sdim ∧
        k * sdim + dec ≤ r ∧ r < k * sdim + dec + sdim)
      (fun _ _ c r => Us k (c - (k * sdim + dec)) (r - (k * sdim + dec))) := by
  have hrun : ∀ s, execAll (pact U) ((sputProg sdim dec Us k).map fun a => (k, a)) s =
      tex U k (progFor 0 sdim fun j => progFor 0 sdim fun i =>
        [.store i j 0 (k * sdim + i + dec) (k * sdim + j + dec)])
        (pact U (k, .comp fun _ => Us k) s) := fun s => rfl
  have hst : ∀ a ∈ (progFor 0 sdim fun j => progFor 0 sdim fun i =>
        [PAct.store i j 0 (k * sdim + i + dec) (k * sdim + j + dec)]),
      ∃ i j q r c, a = .store i j q r c := by
    intro a ha
    obtain ⟨i, _, j, _, rfl⟩ := mem_sputStores ha
    exact ⟨_, _, _, _, _, rfl⟩
  refine ⟨?_, ?_, ?_, ?_, ?_⟩
  · intro a ha
    rcases List.mem_cons.mp ha with rfl | ha
    · trivial
    · obtain ⟨i, _, j, _, rfl⟩ := mem_sputStores ha
      trivial
  · intro a ha
    rcases List.mem_cons.mp ha with rfl | ha
    · trivial
    · obtain ⟨i, hi, j, hj, rfl⟩ := mem_sputStores ha
      exact ⟨rfl, by omega, by omega, by omega, by omega⟩
  · rintro s q c r ⟨rfl, h1, h2, h3, h4⟩
    rw [hrun]
    obtain ⟨-, -, a3⟩ := tex_storeList U k _ hst (pact U (k, .comp fun _ => Us k) s)
    refine a3 0 c r _ ⟨r - (k * sdim + dec), c - (k * sdim + dec), ?_⟩ ?_
    · refine progFor_mem (i := c - (k * sdim + dec)) (Nat.zero_le _) (by omega) ?_
      refine progFor_mem (i := r - (k * sdim + dec)) (Nat.zero_le _) (by omega) ?_
      simp only [List.mem_singleton, PAct.store.injEq, true_and]
      omega
    · intro i j hm
      obtain ⟨i', hi', j', hj', e⟩ := mem_sputStores hm
      injection e with e1 e2 e3 e4 e5
      simp only [pact, setAt, if_true]
      congr 1 <;> omega
  · intro s q c r hw
    rw [hrun]
    obtain ⟨-, a2, -⟩ := tex_storeList U k _ hst (pact U (k, .comp fun _ => Us k) s)
    rw [a2]
    · rfl
    · intro i j hm
      obtain ⟨i', hi', j', hj', e⟩ := mem_sputStores hm
      injection e with e1 e2 e3 e4 e5
      exact hw ⟨e3, by omega, by omega, by omega, by omega⟩
  · intro _ _ _ _ _ _ _; rfl

theorem block_disj {w l k a : Nat} (h : l ≠ k) (h1 : l * w ≤ a) (h2 : a < l * w + w)
    (h3 : k * w ≤ a) (h4 : a < k * w + w) : False := by
  rcases Nat.lt_or_gt_of_ne h with h | h
  · have : (l + 1) * w ≤ k * w := Nat.mul_le_mul_right _ h
    rw [Nat.succ_mul] at this; omega
  · have : (k + 1) * w ≤ l * w := Nat.mul_le_mul_right _ h
    rw [Nat.succ_mul] at this; omega

/-- `U_even` after the phase: the diagonal blocks are those computed by the threads, the rest is the
identity. -/
theorem sput_apply {σ : Sched} (hσ : σ.Ok) (key : List Nat) (d S dec nb : Nat) (Us : Nat → Mat Int)
    (U0 : Mat Int) :
    (∀ k < nb, ∀ j < d / S, ∀ i < d / S,
      sput σ key d S dec nb Us U0 (k * (d / S) + dec + j) (k * (d / S) + dec + i) = Us k j i) ∧
    (∀ c r, (∀ k < nb, ¬ (k * (d / S) + dec ≤ c ∧ c < k * (d / S) + dec + d / S ∧
        k * (d / S) + dec ≤ r ∧ r < k * (d / S) + dec + d / S)) →
      sput σ key d S dec nb Us U0 c r = setId d d U0 c r) := by
  have h := tasks_all_schedules (fun _ _ => 0) nb (sputProg (d / S) dec Us) _ _ _
    (fun k _ => sputProg_task (fun _ _ => 0) (d / S) dec Us k)
    (by
      rintro l hl k hk hlk q c r ⟨rfl, h1, h2, h3, h4⟩
      refine ⟨?_, fun _ h => h⟩
      rintro ⟨-, g1, g2, g3, g4⟩
      exact block_disj (w := d / S) (a := c - dec) hlk (by omega) (by omega) (by omega) (by omega))
    _ (hσ.acts (1 :: key) _) ⟨fun _ => setId d d U0, fun _ _ _ => 0⟩
  refine ⟨fun k hk j hj i hi => ?_, fun c r hn => ?_⟩
  · unfold sput
    rw [h.1 k hk 0 _ _ ⟨rfl, by omega, by omega, by omega, by omega⟩]
    congr 1 <;> omega
  · unfold sput
    rw [h.2 0 c r]
    rintro k hk ⟨-, g1, g2, g3, g4⟩
    exact hn k hk ⟨g1, g2, g3, g4⟩

theorem sput_sched {σ : Sched} (hσ : σ.Ok) (key : List Nat) (d S dec nb : Nat) (Us : Nat → Mat Int)
    (U0 : Mat Int) : sput σ key d S dec nb Us U0 = sput .seq key d S dec nb Us U0 := by
  obtain ⟨a1, a2⟩ := sput_apply hσ key d S dec nb Us U0
  obtain ⟨b1, b2⟩ := sput_apply Sched.seq_ok key d S dec nb Us U0
  funext c r
  by_cases h : ∃ k < nb, (k * (d / S) + dec ≤ c ∧ c < k * (d / S) + dec + d / S ∧
        k * (d / S) + dec ≤ r ∧ r < k * (d / S) + dec + d / S)
  · obtain ⟨k, hk, g1, g2, g3, g4⟩ := h
    have e1 : c = k * (d / S) + dec + (c - (k * (d / S) + dec)) := by omega
    have e2 : r = k * (d / S) + dec + (r - (k * (d / S) + dec)) := by omega
    rw [e1, e2, a1 k hk _ (by omega) _ (by omega), b1 k hk _ (by omega) _ (by omega)]
  · have h' : ∀ k < nb, ¬ (k * (d / S) + dec ≤ c ∧ c < k * (d / S) + dec + d / S ∧
        k * (d / S) + dec ≤ r ∧ r < k * (d / S) + dec + d / S) := fun k hk g => h ⟨k, hk, g⟩
    rw [a2 c r h', b2 c r h']

/-! ### pmatprod -/

theorem tex_prodEntry (U : Mat Int) (l i j n : Nat) (hn : 0 < n) (f g : Nat → Nat × Nat) (s : PState) :
    let s' := tex U l (.mul i j (f 0).1 (f 0).2 (g 0).1 (g 0).2 ::
      progFor 1 n fun k => [.addmul i j (f k).1 (f k).2 (g k).1 (g k).2]) s
    s'.sh = s.sh ∧ ∀ j' i', s'.loc l j' i' = if j' = j ∧ i' = i then
      ∑ k ∈ Finset.range n, s.sh 0 (f k).2 (f k).1 * U (g k).2 (g k).1
      else s.loc l j' i' := by
  rw [tex_cons, tex_progFor]
  refine forRange_ind (fun n (t : PState) => t.sh = s.sh ∧ ∀ j' i', t.loc l j' i' =
    if j' = j ∧ i' = i then
      ∑ k ∈ Finset.range n, s.sh 0 (f k).2 (f k).1 * U (g k).2 (g k).1
      else s.loc l j' i') hn _ _ ?_ ?_
  · refine ⟨rfl, fun j' i' => ?_⟩
    simp only [pact, setAt, if_true, setEntry_apply, Finset.sum_range_one]
  · rintro k t _ _ ⟨h1, h2⟩
    refine ⟨h1, fun j' i' => ?_⟩
    show setAt t.loc l _ l j' i' = _
    simp only [setAt, if_true, setEntry_apply, Finset.sum_range_succ]
    split
    · rw [h2, if_pos ⟨rfl, rfl⟩, h1]
    · rename_i hne; rw [h2, if_neg hne]

/-- One row of `spmatprodProg`. -/
def sprow (sdim sh i : Nat) : List PAct :=
  (progFor 0 sdim fun j => .mul i j i sh sh (sh + j) ::
      progFor 1 sdim fun k => [.addmul i j i (sh + k) (sh + k) (sh + j)]) ++
    progFor 0 sdim fun j => [.store i j 0 i (sh + j)]

theorem tex_sprow (U : Mat Int) (l sdim sh i : Nat) (s : PState) (q c r : Nat) :
    (tex U l (sprow sdim sh i) s).sh q c r =
      if q = 0 ∧ r = i ∧ sh ≤ c ∧ c < sh + sdim then
        ∑ k ∈ Finset.range sdim, s.sh 0 (sh + k) i * U c (sh + k)
      else s.sh q c r := by
  unfold sprow
  rw [tex_append]
  rcases Nat.eq_zero_or_pos sdim with h0 | hpos
  · subst h0
    rw [if_neg (by omega)]
    rfl
  have hcomp : ∀ w, 
      let s' := tex U l (progFor 0 w fun j => .mul i j i sh sh (sh + j) ::
        progFor 1 sdim fun k => [.addmul i j i (sh + k) (sh + k) (sh + j)]) s
      s'.sh = s.sh ∧ ∀ j < w, s'.loc l j i =
        ∑ k ∈ Finset.range sdim, s.sh 0 (sh + k) i * U (sh + j) (sh + k) := by
    intro w
    rw [tex_progFor]
    refine forRange_ind (fun w (t : PState) => t.sh = s.sh ∧ ∀ j < w, t.loc l j i =
        ∑ k ∈ Finset.range sdim, s.sh 0 (sh + k) i * U (sh + j) (sh + k)) (Nat.zero_le w) _ _
        ⟨rfl, fun j h => by omega⟩ ?_
    rintro j t _ _ ⟨h1, h2⟩
    obtain ⟨e1, e2⟩ := tex_prodEntry U l i j sdim hpos (fun k => (i, sh + k))
      (fun k => (sh + k, sh + j)) t
    refine ⟨e1.trans h1, fun j' hj' => ?_⟩
    simp only [Nat.add_zero] at e2
    rw [e2, h1]
    by_cases h : j' = j
    · subst h; rw [if_pos ⟨rfl, rfl⟩]
    · rw [if_neg (fun hh => h hh.1), h2 j' (by omega)]
  obtain ⟨c1, c2⟩ := hcomp sdim
  generalize tex U l (progFor 0 sdim fun j => .mul i j i sh sh (sh + j) ::
        progFor 1 sdim fun k => [.addmul i j i (sh + k) (sh + k) (sh + j)]) s = t at c1 c2 ⊢
  have hmem : ∀ a ∈ (progFor 0 sdim fun j => [PAct.store i j 0 i (sh + j)]),
      ∃ j < sdim, a = .store i j 0 i (sh + j) := by
    intro a ha
    obtain ⟨j, -, hj, h⟩ := mem_progFor ha
    exact ⟨j, hj, by simpa using h⟩
  obtain ⟨-, a2, a3⟩ := tex_storeList U l _ (fun a ha => by
    obtain ⟨j, _, rfl⟩ := hmem a ha; exact ⟨_, _, _, _, _, rfl⟩) t
  split
  · rename_i h
    obtain ⟨rfl, rfl, h1, h2⟩ := h
    refine a3 0 c r _ ⟨r, c - sh, progFor_mem (i := c - sh) (Nat.zero_le _) (by omega) ?_⟩ ?_
    · simp only [List.mem_singleton, PAct.store.injEq, true_and]; omega
    · intro i' j' hm
      obtain ⟨j, hj, e⟩ := hmem _ hm
      injection e with e1 e2 e3 e4 e5
      subst e1 e2
      rw [c2 j' hj, e5]
  · rename_i h
    rw [a2, c1]
    intro i' j' hm
    obtain ⟨j, hj, e⟩ := hmem _ hm
    injection e with e1 e2 e3 e4 e5
    exact h ⟨e3, e4, by omega, by omega⟩

theorem spmatprodProg_task (U : Mat Int) (n sdim : Nat) (odd : Bool) (b : Nat) :
    Task U b (spmatprodProg n sdim odd b)
      (fun c r => r < n ∧ pshift sdim b odd ≤ c ∧ c < pshift sdim b odd + sdim)
      (fun q c r => q = 0 ∧ r < n ∧ pshift sdim b odd ≤ c ∧ c < pshift sdim b odd + sdim)
      (fun sh _ c r => ∑ k ∈ Finset.range sdim,
        sh 0 (pshift sdim b odd + k) r * U c (pshift sdim b odd + k)) := by
  set sh := pshift sdim b odd with hsh
  have hp : spmatprodProg n sdim odd b = .alloc :: progFor 0 n fun i => sprow sdim sh i := rfl
  have hin : ∀ a ∈ spmatprodProg n sdim odd b, a = .alloc ∨ ∃ i < n, ∃ j < sdim, ∃ k < sdim,
      a = .mul i j i (sh + k) (sh + k) (sh + j) ∨ a = .addmul i j i (sh + k) (sh + k) (sh + j) ∨
        a = .store i j 0 i (sh + j) := by
    intro a ha
    rw [hp] at ha
    rcases List.mem_cons.mp ha with rfl | ha
    · exact .inl rfl
    · obtain ⟨i, -, hi, h⟩ := mem_progFor ha
      refine .inr ⟨i, hi, ?_⟩
      unfold sprow at h
      rcases List.mem_append.mp h with h | h
      · obtain ⟨j, -, hj, h⟩ := mem_progFor h
        rcases List.mem_cons.mp h with h | h
        · exact ⟨j, hj, 0, by omega, .inl (by simpa using h)⟩
        · obtain ⟨k, -, hk, h⟩ := mem_progFor h
          exact ⟨j, hj, k, hk, .inr (.inl (by simpa using h))⟩
      · obtain ⟨j, -, hj, h⟩ := mem_progFor h
        exact ⟨j, hj, 0, by omega, .inr (.inr (by simpa using h))⟩
  have hrun : ∀ s q c r,
      (execAll (pact U) ((spmatprodProg n sdim odd b).map fun a => (b, a)) s).sh q c r =
      if q = 0 ∧ r < n ∧ sh ≤ c ∧ c < sh + sdim then
        ∑ k ∈ Finset.range sdim, s.sh 0 (sh + k) r * U c (sh + k)
      else s.sh q c r := by
    intro s
    have e : execAll (pact U) ((spmatprodProg n sdim odd b).map fun a => (b, a)) s =
        tex U b (progFor 0 n fun i => sprow sdim sh i) (pact U (b, .alloc) s) := rfl
    rw [e, tex_progFor]
    refine forRange_ind (fun n (t : PState) => ∀ q c r, t.sh q c r =
      if q = 0 ∧ r < n ∧ sh ≤ c ∧ c < sh + sdim then
        ∑ k ∈ Finset.range sdim, s.sh 0 (sh + k) r * U c (sh + k)
      else s.sh q c r) (Nat.zero_le n) _ _ ?_ ?_
    · intro q c r; rw [if_neg (by omega)]; rfl
    · intro i t _ _ ht q c r
      rw [tex_sprow]
      by_cases h : q = 0 ∧ r = i ∧ sh ≤ c ∧ c < sh + sdim
      · rw [if_pos h, if_pos (by omega), h.2.1]
        refine Finset.sum_congr rfl fun k _ => ?_
        rw [ht, if_neg (by omega)]
      · rw [if_neg h, ht]
        by_cases h2 : q = 0 ∧ r < i ∧ sh ≤ c ∧ c < sh + sdim
        · rw [if_pos h2, if_pos (by omega)]
        · rw [if_neg h2, if_neg (by omega)]
  refine ⟨?_, ?_, ?_, ?_, ?_⟩
  · intro a ha
    rcases hin a ha with rfl | ⟨i, hi, j, hj, k, hk, rfl | rfl | rfl⟩
    · trivial
    · exact ⟨hi, by omega, by omega⟩
    · exact ⟨hi, by omega, by omega⟩
    · trivial
  · intro a ha
    rcases hin a ha with rfl | ⟨i, hi, j, hj, k, hk, rfl | rfl | rfl⟩
    · trivial
    · trivial
    · trivial
    · exact ⟨rfl, hi, by omega, by omega⟩
  · intro s q c r hw
    rw [hrun, if_pos hw]
  · intro s q c r hw
    rw [hrun, if_neg hw]
  · rintro sh1 sh2 hh q c r ⟨rfl, h1, h2, h3⟩
    refine Finset.sum_congr rfl fun k hk => ?_
    have := Finset.mem_range.mp hk
    rw [hh _ _ ⟨h1, by omega, by omega⟩]

/-- Product by the diagonal blocks. -/
theorem spmatprod_apply {σ : Sched} (hσ : σ.Ok) (key : List Nat) (n sdim nb : Nat) (odd : Bool)
    (U B : Mat Int) :
    (∀ b < nb, ∀ c r, r < n → pshift sdim b odd ≤ c → c < pshift sdim b odd + sdim →
      spmatprod σ key n sdim nb odd U B c r =
        ∑ k ∈ Finset.range sdim, B (pshift sdim b odd + k) r * U c (pshift sdim b odd + k)) ∧
    (∀ c r, (∀ b < nb, ¬ (r < n ∧ pshift sdim b odd ≤ c ∧ c < pshift sdim b odd + sdim)) →
      spmatprod σ key n sdim nb odd U B c r = B c r) := by
  have h := tasks_all_schedules U nb (spmatprodProg n sdim odd) _ _ _
    (fun k _ => spmatprodProg_task U n sdim odd k)
    (by
      rintro l hl k hk hlk q c r ⟨rfl, h1, h2, h3⟩
      have key : ¬ (pshift sdim k odd ≤ c ∧ c < pshift sdim k odd + sdim) := by
        rintro ⟨g1, g2⟩
        unfold pshift at *
        generalize (if odd then sdim / 2 else 0) = e at *
        exact block_disj (w := sdim) (a := c - e) hlk (by omega) (by omega) (by omega) (by omega)
      exact ⟨fun g => key ⟨g.2.2.1, g.2.2.2⟩, fun _ g => key ⟨g.2.1, g.2.2⟩⟩)
    _ (hσ.acts (0 :: key) _) ⟨fun _ => B, fun _ _ _ => 0⟩
  refine ⟨fun b hb c r h1 h2 h3 => ?_, fun c r hn => ?_⟩
  · unfold spmatprod
    rw [h.1 b hb 0 c r ⟨rfl, h1, h2, h3⟩]
  · unfold spmatprod
    rw [h.2 0 c r]
    rintro k hk ⟨-, g1, g2, g3⟩
    exact hn k hk ⟨g1, g2, g3⟩

theorem spmatprod_sched {σ : Sched} (hσ : σ.Ok) (key : List Nat) (n sdim nb : Nat) (odd : Bool)
    (U B : Mat Int) : spmatprod σ key n sdim nb odd U B = spmatprod .seq key n sdim nb odd U B := by
  obtain ⟨a1, a2⟩ := spmatprod_apply hσ key n sdim nb odd U B
  obtain ⟨b1, b2⟩ := spmatprod_apply Sched.seq_ok key n sdim nb odd U B
  funext c r
  by_cases h : ∃ b < nb, r < n ∧ pshift sdim b odd ≤ c ∧ c < pshift sdim b odd + sdim
  · obtain ⟨b, hb, g1, g2, g3⟩ := h
    rw [a1 b hb c r g1 g2 g3, b1 b hb c r g1 g2 g3]
  · have h' : ∀ b < nb, ¬ (r < n ∧ pshift sdim b odd ≤ c ∧ c < pshift sdim b odd + sdim) :=
      fun b hb g => h ⟨b, hb, g⟩
    rw [a2 c r h', b2 c r h']

/-! ### pseysen_update_B -/

variable {F : Type} (o : FPOps F)

theorem pssey_comm (fl : Bool) (κ : Nat) (vx : Nat → F) (x : F) (a b : Nat × Nat) (ha : a.1 ≠ κ)
    (hb : b.1 ≠ κ) (hr : a.2 ≠ b.2) (M : Mat Int) :
    psseyAct o fl κ vx x a (psseyAct o fl κ vx x b M) =
      psseyAct o fl κ vx x b (psseyAct o fl κ vx x a M) := by
  funext j
  by_cases hj : j = κ
  · subst hj
    simp only [psseyAct, setEntry, setCol_same, setCol_ne _ _ ha, setCol_ne _ _ hb,
      setAt_ne _ _ hr, setAt_ne _ _ hr.symm]
    funext r
    simp only [setAt]
    by_cases h1 : r = a.2
    · subst h1; simp [hr]
    · by_cases h2 : r = b.2
      · subst h2; simp [hr.symm]
      · simp [h1, h2]
  · simp only [psseyAct, setEntry, setCol_ne _ _ hj]

theorem mem_psseyProg {restdim ibeg nloc m : Nat} {bd : Nat → Bool} {a : Nat × Nat}
    (h : a ∈ psseyProg restdim bd ibeg nloc m) :
    restdim ≤ a.1 ∧ a.1 < restdim + m ∧ ibeg ≤ a.2 ∧ a.2 < ibeg + nloc := by
  induction m with
  | zero => simp [psseyProg] at h
  | succ m ih =>
    simp only [psseyProg, List.mem_append] at h
    rcases h with h | h
    · split at h
      · simp at h
      · obtain ⟨r, hr, rfl⟩ := List.mem_map.mp h
        rw [List.mem_range'_1] at hr
        exact ⟨by simp, by simp, hr.1, hr.2⟩
    · have := ih h; omega

theorem pssey_sched {σ : Sched} (hσ : σ.Ok) (key : List Nat) (fl : Bool) (κ restdim m S nmax : Nat)
    (hm : restdim + m ≤ κ) (vx : Nat → F) (x : F) (bd : Nat → Bool) (M : Mat Int) :
    execAll (psseyAct o fl κ vx x) (σ.rows key (psseyThreads nmax S restdim m bd)) M =
      execAll (psseyAct o fl κ vx x) (psseyThreads nmax S restdim m bd).flatten M := by
  apply (hσ.rows key _).exec_eq
  unfold psseyThreads
  rw [List.pairwise_map]
  refine List.Pairwise.imp ?_ (List.pairwise_lt_range (n := S))
  intro l k hlk a ha b hb s
  obtain ⟨a0, a1, a2, a3⟩ := mem_psseyProg ha
  obtain ⟨b0, b1, b2, b3⟩ := mem_psseyProg hb
  have h1 := sliceBeg_mono nmax S (l := l + 1) (k := k) hlk
  rw [sliceBeg_succ] at h1
  exact pssey_comm o fl κ vx x a b (by omega) (by omega) (by omega) s

end HPLLL
