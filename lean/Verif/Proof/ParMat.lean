import Verif.Model.ParMat
import Verif.Proof.MatH
import Verif.Proof.Par
/-! Interleavings of tasks with disjoint footprints; the parallel products of mat.h. -/

namespace HPLLL

/-- Reads of shared matrix 0 are in `R` (column, row). -/
def PAct.readsIn (R : Nat → Nat → Prop) : PAct → Prop
  | .mul _ _ r k _ _ => R k r
  | .addmul _ _ r k _ _ => R k r
  | .load _ _ r c => R c r
  | _ => True

/-- Writes of shared matrices are in `W` (matrix, column, row). -/
def PAct.writesIn (W : Nat → Nat → Nat → Prop) : PAct → Prop
  | .store _ _ q r c => W q c r
  | _ => True

theorem PState.ext' {s t : PState} (h1 : s.sh = t.sh) (h2 : s.loc = t.loc) : s = t := by
  cases s; cases t; simp_all

theorem setAt_comm' {α : Type} (v : Nat → α) {i j : Nat} (h : i ≠ j) (a b : α) :
    setAt (setAt v i a) j b = setAt (setAt v j b) i a := by
  funext k
  simp only [setAt]
  by_cases h1 : k = i
  · subst h1; simp [h]
  · by_cases h2 : k = j
    · subst h2; simp [h1]
    · simp [h1, h2]

theorem setAt_get {α : Type} (v : Nat → α) {i j : Nat} (h : j ≠ i) (a : α) : setAt v i a j = v j := by
  simp [setAt, h]

theorem pact_comm (U : Mat Int) {l k : Nat} (hlk : l ≠ k) {a b : PAct}
    {R R' : Nat → Nat → Prop} {W W' : Nat → Nat → Nat → Prop}
    (ra : a.readsIn R) (rb : b.readsIn R') (wa : a.writesIn W) (wb : b.writesIn W')
    (h1 : ∀ q c r, W q c r → ¬ W' q c r ∧ (q = 0 → ¬ R' c r))
    (h2 : ∀ q c r, W' q c r → (q = 0 → ¬ R c r)) (s : PState) :
    pact U (l, a) (pact U (k, b) s) = pact U (k, b) (pact U (l, a) s) := by
  have hkl := hlk.symm
  have g1 : ∀ (v : Nat → Mat Int) x, setAt v k x l = v l := fun v x => setAt_get v hlk x
  have g2 : ∀ (v : Nat → Mat Int) x, setAt v l x k = v k := fun v x => setAt_get v hkl x
  have hrd : ∀ (R' : Nat → Nat → Prop) (W : Nat → Nat → Nat → Prop),
      (∀ q c r, W q c r → (q = 0 → ¬ R' c r)) →
      ∀ q r c x r' c', W q c r → R' c' r' →
      setAt s.sh q (setEntry (s.sh q) r c x) 0 c' r' = s.sh 0 c' r' := by
    intro R' W h q r c x r' c' w rd
    unfold setAt
    split
    · rename_i h0
      rw [← h0, setEntry_apply, if_neg]
      rintro ⟨rfl, rfl⟩
      exact h q c' r' w h0.symm rd
    · rfl
  have h1' : ∀ q c r, W q c r → (q = 0 → ¬ R' c r) := fun q c r w => (h1 q c r w).2
  cases a <;> cases b <;> simp only [pact, g1, g2, setAt_comm' s.loc hlk] <;>
    simp only [PAct.readsIn, PAct.writesIn] at ra rb wa wb
  case store.store i j q r c i' j' q' r' c' =>
    refine PState.ext' ?_ rfl
    by_cases hq : q = q'
    · subst hq
      have hne : ¬ (c = c' ∧ r = r') := by
        rintro ⟨rfl, rfl⟩
        exact (h1 q c r wa).1 wb
      funext p
      by_cases hp : p = q
      · subst hp
        simp only [setAt, if_true]
        funext x y
        simp only [setEntry_apply]
        by_cases e1 : x = c ∧ y = r
        · obtain ⟨rfl, rfl⟩ := e1
          simp [hne]
        · simp [e1]
      · simp [setAt, hp]
    · simp only [setAt_get _ hq, setAt_get _ (Ne.symm hq)]
      exact (setAt_comm' _ (Ne.symm hq) _ _)
  case store.mul => rw [hrd R' W h1' _ _ _ _ _ _ wa rb]
  case store.addmul => rw [hrd R' W h1' _ _ _ _ _ _ wa rb]
  case store.load => rw [hrd R' W h1' _ _ _ _ _ _ wa rb]
  case mul.store => rw [hrd R W' h2 _ _ _ _ _ _ wb ra]
  case addmul.store => rw [hrd R W' h2 _ _ _ _ _ _ wb ra]
  case load.store => rw [hrd R W' h2 _ _ _ _ _ _ wb ra]

/-- Effect and footprint of a thread. -/
structure Task (U : Mat Int) (l : Nat) (P : List PAct) (R : Nat → Nat → Prop)
    (W : Nat → Nat → Nat → Prop) (val : (Nat → Mat Int) → Nat → Nat → Nat → Int) : Prop where
  reads : ∀ a ∈ P, a.readsIn R
  writes : ∀ a ∈ P, a.writesIn W
  eff : ∀ s q c r, W q c r →
    (execAll (pact U) (P.map fun a => (l, a)) s).sh q c r = val s.sh q c r
  frame : ∀ s q c r, ¬ W q c r →
    (execAll (pact U) (P.map fun a => (l, a)) s).sh q c r = s.sh q c r
  dep : ∀ sh sh' : Nat → Mat Int, (∀ c r, R c r → sh 0 c r = sh' 0 c r) →
    ∀ q c r, W q c r → val sh q c r = val sh' q c r

theorem tasks_all_schedules (U : Mat Int) (t : Nat) (P : Nat → List PAct)
    (R : Nat → Nat → Nat → Prop) (W : Nat → Nat → Nat → Nat → Prop)
    (val : Nat → (Nat → Mat Int) → Nat → Nat → Nat → Int)
    (ht : ∀ l < t, Task U l (P l) (R l) (W l) (val l))
    (hdis : ∀ l < t, ∀ k < t, l ≠ k → ∀ q c r, W l q c r → ¬ W k q c r ∧ (q = 0 → ¬ R k c r))
    (T : List (Nat × PAct)) (hT : Interleave (threads t P) T) (s : PState) :
    (∀ l < t, ∀ q c r, W l q c r → (execAll (pact U) T s).sh q c r = val l s.sh q c r) ∧
    (∀ q c r, (∀ l < t, ¬ W l q c r) → (execAll (pact U) T s).sh q c r = s.sh q c r) := by
  rw [hT.exec_eq (pact U)]
  · clear hT T
    induction t with
    | zero => exact ⟨fun l h => by omega, fun q c r _ => rfl⟩
    | succ t ih =>
      obtain ⟨i1, i2⟩ := ih (fun l h => ht l (by omega))
        (fun l hl k hk => hdis l (by omega) k (by omega))
      have e : (threads (t + 1) P).flatten = (threads t P).flatten ++ (P t).map fun a => (t, a) := by
        simp [threads, List.range_succ]
      rw [e, execAll_append]
      generalize hs1 : execAll (pact U) (threads t P).flatten s = s1 at i1 i2 ⊢
      have hk := ht t (by omega)
      refine ⟨fun l hl q c r hw => ?_, fun q c r hw => ?_⟩
      · rcases Nat.lt_succ_iff_lt_or_eq.mp hl with h | rfl
        · rw [hk.frame _ _ _ _ (hdis l hl t (by omega) (by omega) q c r hw).1, i1 l h q c r hw]
        · rw [hk.eff _ _ _ _ hw]
          refine hk.dep _ _ (fun c' r' hr => ?_) q c r hw
          exact i2 0 c' r' fun k hkl hwk =>
            (hdis k (by omega) l (by omega) (by omega) 0 c' r' hwk).2 rfl hr
      · rw [hk.frame _ _ _ _ (hw t (by omega)), i2 q c r fun l hl => hw l (by omega)]
  · rw [threads, List.pairwise_map]
    have hp : (List.range t).Pairwise (· ≠ ·) := List.nodup_range
    rw [List.pairwise_iff_forall_sublist] at hp ⊢
    intro l k hlk a ha b hb s
    have hl : l < t := List.mem_range.mp (hlk.subset (by simp))
    have hk : k < t := List.mem_range.mp (hlk.subset (by simp))
    have hne := hp hlk
    obtain ⟨a', ha', rfl⟩ := List.mem_map.mp ha
    obtain ⟨b', hb', rfl⟩ := List.mem_map.mp hb
    exact pact_comm U hne ((ht l hl).reads a' ha') ((ht k hk).reads b' hb')
      ((ht l hl).writes a' ha') ((ht k hk).writes b' hb') (hdis l hl k hk hne)
      (fun q c r w => (hdis k hk l hl hne.symm q c r w).2) s

/-! ### Execution of thread programs -/

/-- Execution of a thread program by thread `l`. -/
def tex (U : Mat Int) (l : Nat) (P : List PAct) (s : PState) : PState :=
  execAll (pact U) (P.map fun a => (l, a)) s

theorem tex_append (U : Mat Int) (l : Nat) (P Q : List PAct) (s : PState) :
    tex U l (P ++ Q) s = tex U l Q (tex U l P s) := by
  simp [tex, execAll, List.foldl_append]

theorem tex_cons (U : Mat Int) (l : Nat) (a : PAct) (Q : List PAct) (s : PState) :
    tex U l (a :: Q) s = tex U l Q (pact U (l, a) s) := rfl

theorem tex_nil (U : Mat Int) (l : Nat) (s : PState) : tex U l [] s = s := rfl

theorem tex_progFor (U : Mat Int) (l a b : Nat) (P : Nat → List PAct) (s : PState) :
    tex U l (progFor a b P) s = forRange a b (fun i s => tex U l (P i) s) s := by
  unfold progFor forRange
  generalize List.range' a (b - a) = L
  induction L generalizing s with
  | nil => rfl
  | cons x L ih => rw [List.flatMap_cons, tex_append, ih]; rfl

theorem mem_progFor {a b : Nat} {P : Nat → List PAct} {x : PAct} (h : x ∈ progFor a b P) :
    ∃ i, a ≤ i ∧ i < b ∧ x ∈ P i := by
  unfold progFor at h
  obtain ⟨i, hi, hx⟩ := List.mem_flatMap.mp h
  rw [List.mem_range'_1] at hi
  exact ⟨i, hi.1, by omega, hx⟩

/-- A nest that stores a rectangle: matrix `q`, entry `(f i j)` of the private matrix. -/
theorem tex_stores (U : Mat Int) (l h w q : Nat) (rc : Nat → Nat → Nat × Nat)
    (s : PState) :
    let s' := tex U l (progFor 0 h fun i => progFor 0 w fun j =>
      [.store i j q (rc i j).1 (rc i j).2]) s
    s'.loc = s.loc ∧
    (∀ p c r, (∀ i < h, ∀ j < w, ¬ (p = q ∧ rc i j = (r, c))) → s'.sh p c r = s.sh p c r) ∧
    (∀ i < h, ∀ j < w, (∀ i' < h, ∀ j' < w, rc i' j' = rc i j → i' = i ∧ j' = j) →
      s'.sh q (rc i j).2 (rc i j).1 = s.loc l j i) := by
  intro s'
  have e : s' = forRange 0 h (fun i s => forRange 0 w (fun j s =>
      pact U (l, .store i j q (rc i j).1 (rc i j).2) s) s) s := by
    show tex U l _ s = _
    rw [tex_progFor]; congr 1; funext i s; rw [tex_progFor]; rfl
  -- one row
  have hrow : ∀ i s w, 
      let s' := forRange 0 w (fun j s => pact U (l, .store i j q (rc i j).1 (rc i j).2) s) s
      s'.loc = s.loc ∧
      (∀ p c r, (∀ j < w, ¬ (p = q ∧ rc i j = (r, c))) → s'.sh p c r = s.sh p c r) ∧
      (∀ j < w, (∀ j' < w, rc i j' = rc i j → j' = j) →
        s'.sh q (rc i j).2 (rc i j).1 = s.loc l j i) := by
    intro i s w
    induction w with
    | zero => exact ⟨by rw [forRange_empty (le_refl _)], fun p c r _ => by
        rw [forRange_empty (le_refl _)], fun j h => by omega⟩
    | succ w ih =>
      rw [forRange_succ (Nat.zero_le _)]
      obtain ⟨a1, a2, a3⟩ := ih
      generalize forRange 0 w _ s = s1 at a1 a2 a3 ⊢
      refine ⟨a1, fun p c r h => ?_, fun j hj hu => ?_⟩
      · simp only [pact, setAt]
        split
        · rename_i hp
          rw [setEntry_apply, if_neg, ← hp]
          · exact a2 p c r fun j hj => h j (by omega)
          · rintro ⟨rfl, rfl⟩; exact h w (by omega) ⟨hp, rfl⟩
        · exact a2 p c r fun j hj => h j (by omega)
      · simp only [pact, setAt, if_true]
        rw [setEntry_apply]
        rcases Nat.lt_succ_iff_lt_or_eq.mp hj with h | rfl
        · rw [if_neg]
          · exact a3 j h fun j' hj' => hu j' (by omega)
          · rintro ⟨e1, e2⟩
            have := hu w (by omega) (Prod.ext e2.symm e1.symm)
            omega
        · rw [if_pos ⟨rfl, rfl⟩, a1]
  rw [e]
  clear e s'
  induction h with
  | zero => exact ⟨by rw [forRange_empty (le_refl _)], fun p c r _ => by
        rw [forRange_empty (le_refl _)], fun j h => by omega⟩
  | succ h ih =>
    rw [forRange_succ (Nat.zero_le _)]
    obtain ⟨a1, a2, a3⟩ := ih
    generalize forRange 0 h _ s = s1 at a1 a2 a3 ⊢
    obtain ⟨b1, b2, b3⟩ := hrow h s1 w
    refine ⟨b1.trans a1, fun p c r hh => ?_, fun i hi j hj hu => ?_⟩
    · rw [b2 p c r fun j hj => hh h (by omega) j hj]
      exact a2 p c r fun i hi => hh i (by omega)
    · rcases Nat.lt_succ_iff_lt_or_eq.mp hi with h' | rfl
      · rw [b2]
        · exact a3 i h' j hj fun i' hi' => hu i' (by omega)
        · rintro j' hj' ⟨-, hc⟩
          have := hu h (by omega) j' hj' hc
          omega
      · rw [b3 j hj fun j' hj' hc => (hu i (by omega) j' hj' hc).2, a1]

/-- Private computations: shared memory unchanged. -/
theorem tex_private (U : Mat Int) (l : Nat) (P : List PAct)
    (hP : ∀ a ∈ P, ∀ i j q r c, a ≠ .store i j q r c) (s : PState) : (tex U l P s).sh = s.sh := by
  induction P generalizing s with
  | nil => rfl
  | cons a P ih =>
    rw [tex_cons, ih (fun b hb => hP b (by simp [hb]))]
    cases a <;> first | rfl | exact absurd rfl (hP _ List.mem_cons_self _ _ _ _ _)

theorem setAt_setAt {α : Type} (v : Nat → α) (i : Nat) (a b : α) :
    setAt (setAt v i a) i b = setAt v i b := by
  funext k; simp only [setAt]; split <;> rfl

/-- The nest that computes a product in the private matrix. -/
theorem tex_prod (U : Mat Int) (l h w n : Nat) (hn : 0 < n) (f : Nat → Nat → Nat → Nat × Nat)
    (g : Nat → Nat → Nat → Nat × Nat) (s : PState) :
    ∀ i < h, ∀ j < w, (tex U l (progFor 0 h fun i => progFor 0 w fun j =>
      .mul i j (f i j 0).1 (f i j 0).2 (g i j 0).1 (g i j 0).2 ::
        progFor 1 n fun k => [.addmul i j (f i j k).1 (f i j k).2 (g i j k).1 (g i j k).2]) s).loc l j i =
      ∑ k ∈ Finset.range n, s.sh 0 (f i j k).2 (f i j k).1 * U (g i j k).2 (g i j k).1 := by
  have hent : ∀ i j (s : PState), 
      let s' := tex U l (.mul i j (f i j 0).1 (f i j 0).2 (g i j 0).1 (g i j 0).2 ::
        progFor 1 n fun k => [.addmul i j (f i j k).1 (f i j k).2 (g i j k).1 (g i j k).2]) s
      s'.sh = s.sh ∧ ∀ j' i', s'.loc l j' i' = if j' = j ∧ i' = i then
        ∑ k ∈ Finset.range n, s.sh 0 (f i j k).2 (f i j k).1 * U (g i j k).2 (g i j k).1
        else s.loc l j' i' := by
    intro i j s
    rw [tex_cons, tex_progFor]
    refine forRange_ind (fun n (t : PState) => t.sh = s.sh ∧ ∀ j' i', t.loc l j' i' =
      if j' = j ∧ i' = i then
        ∑ k ∈ Finset.range n, s.sh 0 (f i j k).2 (f i j k).1 * U (g i j k).2 (g i j k).1
        else s.loc l j' i') hn _ _ ?_ ?_
    · refine ⟨rfl, fun j' i' => ?_⟩
      simp only [pact, setAt, if_true, setEntry_apply, Finset.sum_range_one]
    · rintro k t _ _ ⟨h1, h2⟩
      refine ⟨h1, fun j' i' => ?_⟩
      show setAt t.loc l _ l j' i' = _
      simp only [setAt, if_true, setEntry_apply, Finset.sum_range_succ]
      split
      · rw [h2, if_pos ⟨rfl, rfl⟩, h1]
      · rename_i hne; rw [h2, if_neg hne]
  have hrow : ∀ i (s : PState) w, 
      let s' := forRange 0 w (fun j s => tex U l
        (.mul i j (f i j 0).1 (f i j 0).2 (g i j 0).1 (g i j 0).2 ::
        progFor 1 n fun k => [.addmul i j (f i j k).1 (f i j k).2 (g i j k).1 (g i j k).2]) s) s
      s'.sh = s.sh ∧ ∀ j' i', s'.loc l j' i' = if i' = i ∧ j' < w then
        ∑ k ∈ Finset.range n, s.sh 0 (f i j' k).2 (f i j' k).1 * U (g i j' k).2 (g i j' k).1
        else s.loc l j' i' := by
    intro i s w
    refine forRange_ind (fun w (t : PState) => t.sh = s.sh ∧ ∀ j' i', t.loc l j' i' =
      if i' = i ∧ j' < w then
        ∑ k ∈ Finset.range n, s.sh 0 (f i j' k).2 (f i j' k).1 * U (g i j' k).2 (g i j' k).1
        else s.loc l j' i') (Nat.zero_le w) _ _ ⟨rfl, fun j' i' => by rw [if_neg (by omega)]⟩ ?_
    rintro j t _ _ ⟨h1, h2⟩
    obtain ⟨e1, e2⟩ := hent i j t
    refine ⟨e1.trans h1, fun j' i' => ?_⟩
    rw [e2]
    by_cases hc : j' = j ∧ i' = i
    · rw [if_pos hc, if_pos (by omega), h1, hc.1]
    · rw [if_neg hc, h2]
      by_cases h4 : i' = i ∧ j' < j
      · rw [if_pos h4, if_pos (by omega)]
      · rw [if_neg h4, if_neg (by omega)]
  intro i hi j hj
  rw [tex_progFor]
  have := forRange_ind (fun h (t : PState) => t.sh = s.sh ∧ ∀ i < h, ∀ j < w, t.loc l j i =
      ∑ k ∈ Finset.range n, s.sh 0 (f i j k).2 (f i j k).1 * U (g i j k).2 (g i j k).1)
      (Nat.zero_le h) (fun i s => tex U l (progFor 0 w fun j =>
      .mul i j (f i j 0).1 (f i j 0).2 (g i j 0).1 (g i j 0).2 ::
        progFor 1 n fun k => [.addmul i j (f i j k).1 (f i j k).2 (g i j k).1 (g i j k).2]) s) s
      ⟨rfl, fun i h => by omega⟩ (by
    rintro i t _ _ ⟨h1, h2⟩
    rw [tex_progFor]
    obtain ⟨e1, e2⟩ := hrow i t w
    refine ⟨e1.trans h1, fun i' hi' j' hj' => ?_⟩
    rw [e2]
    rcases Nat.lt_succ_iff_lt_or_eq.mp hi' with h | rfl
    · rw [if_neg (by omega)]; exact h2 i' h j' hj'
    · rw [if_pos ⟨rfl, hj'⟩, h1])
  exact this.2 i hi j hj

/-- The nest that loads a rectangle. -/
theorem tex_loads (U : Mat Int) (l h w r0 c0 : Nat) (s : PState) :
    (tex U l (progFor 0 h fun i => progFor 0 w fun j => [.load i j (r0 + i) (c0 + j)]) s).loc l =
      fun c r => if r < h ∧ c < w then s.sh 0 (c0 + c) (r0 + r) else s.loc l c r := by
  have hrow : ∀ i (s : PState) w, 
      let s' := forRange 0 w (fun j s => pact U (l, .load i j (r0 + i) (c0 + j)) s) s
      s'.sh = s.sh ∧ ∀ c r, s'.loc l c r = if r = i ∧ c < w then s.sh 0 (c0 + c) (r0 + r)
        else s.loc l c r := by
    intro i s w
    refine forRange_ind (fun w (t : PState) => t.sh = s.sh ∧ ∀ c r, t.loc l c r =
      if r = i ∧ c < w then s.sh 0 (c0 + c) (r0 + r) else s.loc l c r) (Nat.zero_le w) _ _
      ⟨rfl, fun c r => by rw [if_neg (by omega)]⟩ ?_
    rintro j t _ _ ⟨h1, h2⟩
    refine ⟨h1, fun c r => ?_⟩
    simp only [pact, setAt, if_true, setEntry_apply]
    by_cases hc : c = j ∧ r = i
    · rw [if_pos hc, if_pos (by omega), h1, hc.1, hc.2]
    · rw [if_neg hc, h2]
      by_cases h4 : r = i ∧ c < j
      · rw [if_pos h4, if_pos (by omega)]
      · rw [if_neg h4, if_neg (by omega)]
  rw [tex_progFor]
  have := forRange_ind (fun h (t : PState) => t.sh = s.sh ∧ ∀ c r, t.loc l c r =
      if r < h ∧ c < w then s.sh 0 (c0 + c) (r0 + r) else s.loc l c r)
      (Nat.zero_le h) (fun i s => tex U l (progFor 0 w fun j => [.load i j (r0 + i) (c0 + j)]) s) s
      ⟨rfl, fun c r => by rw [if_neg (by omega)]⟩ (by
    rintro i t _ _ ⟨h1, h2⟩
    rw [tex_progFor]
    obtain ⟨e1, e2⟩ := hrow i t w
    refine ⟨e1.trans h1, fun c r => ?_⟩
    show PState.loc (forRange 0 w (fun j s => pact U (l, .load i j (r0 + i) (c0 + j)) s) t) l c r = _
    rw [e2, h1, h2]
    by_cases hc : r = i ∧ c < w
    · rw [if_pos hc, if_pos (by omega)]
    · rw [if_neg hc]
      by_cases h4 : r < i ∧ c < w
      · rw [if_pos h4, if_pos (by omega)]
      · rw [if_neg h4, if_neg (by omega)])
  funext c r
  exact this.2 c r

/-- `blockProg` as a task. -/
theorem blockProg_task (U : Mat Int) (l r0 c0 h w : Nat) (g : Mat Int → Mat Int)
    (q r1 c1 h1 w1 : Nat) :
    Task U l (blockProg r0 c0 h w g q r1 c1 h1 w1)
      (fun c r => r0 ≤ r ∧ r < r0 + h ∧ c0 ≤ c ∧ c < c0 + w)
      (fun p c r => p = q ∧ r1 ≤ r ∧ r < r1 + h1 ∧ c1 ≤ c ∧ c < c1 + w1)
      (fun sh _ c r => g (fun c r => if r < h ∧ c < w then sh 0 (c0 + c) (r0 + r) else 0)
        (c - c1) (r - r1)) := by
  have hsplit : ∀ a ∈ blockProg r0 c0 h w g q r1 c1 h1 w1, a = .alloc ∨ a = .comp g ∨
      (∃ i < h, ∃ j < w, a = .load i j (r0 + i) (c0 + j)) ∨
      (∃ i < h1, ∃ j < w1, a = .store i j q (r1 + i) (c1 + j)) := by
    intro a ha
    unfold blockProg at ha
    rw [List.cons_append, List.mem_cons, List.mem_append, List.mem_cons] at ha
    rcases ha with h | h | h | h
    · exact .inl h
    · obtain ⟨i, -, hi, h⟩ := mem_progFor h
      obtain ⟨j, -, hj, h⟩ := mem_progFor h
      exact .inr (.inr (.inl ⟨i, hi, j, hj, by simpa using h⟩))
    · exact .inr (.inl h)
    · obtain ⟨i, -, hi, h⟩ := mem_progFor h
      obtain ⟨j, -, hj, h⟩ := mem_progFor h
      exact .inr (.inr (.inr ⟨i, hi, j, hj, by simpa using h⟩))
  have hrun : ∀ s, ∃ s1 : PState, s1.sh = s.sh ∧
      s1.loc l = g (fun c r => if r < h ∧ c < w then s.sh 0 (c0 + c) (r0 + r) else 0) ∧
      tex U l (blockProg r0 c0 h w g q r1 c1 h1 w1) s =
        tex U l (progFor 0 h1 fun i => progFor 0 w1 fun j => [.store i j q (r1 + i) (c1 + j)]) s1 := by
    intro s
    refine ⟨pact U (l, .comp g) (tex U l (progFor 0 h fun i => progFor 0 w fun j =>
      [.load i j (r0 + i) (c0 + j)]) (pact U (l, .alloc) s)), ?_, ?_, ?_⟩
    · show PState.sh (tex U l _ _) = s.sh
      rw [tex_private]
      · rfl
      · intro a ha i' j' q' r' c' hc
        obtain ⟨i, -, hi, h⟩ := mem_progFor ha
        obtain ⟨j, -, hj, h⟩ := mem_progFor h
        rw [List.mem_singleton] at h
        rw [h] at hc; exact absurd hc (by simp)
    · simp only [pact]
      rw [show ∀ (v : Nat → Mat Int) x, setAt v l x l = x from fun v x => by simp [setAt]]
      have := tex_loads U l h w r0 c0 (pact U (l, .alloc) s)
      simp only [pact] at this
      rw [this]
      congr 1
      funext c r
      simp [setAt]
    · unfold blockProg
      rw [List.cons_append, tex_cons, tex_append, tex_cons]
  refine ⟨?_, ?_, ?_, ?_, ?_⟩
  · intro a ha
    rcases hsplit a ha with rfl | rfl | ⟨i, hi, j, hj, rfl⟩ | ⟨i, hi, j, hj, rfl⟩
    · trivial
    · trivial
    · exact ⟨by omega, by omega, by omega, by omega⟩
    · trivial
  · intro a ha
    rcases hsplit a ha with rfl | rfl | ⟨i, hi, j, hj, rfl⟩ | ⟨i, hi, j, hj, rfl⟩
    · trivial
    · trivial
    · trivial
    · exact ⟨rfl, by omega, by omega, by omega, by omega⟩
  · rintro s p c r ⟨rfl, e1, e2, e3, e4⟩
    obtain ⟨s1, f1, f2, f3⟩ := hrun s
    show (tex U l _ s).sh p c r = _
    rw [f3]
    obtain ⟨-, -, a3⟩ := tex_stores U l h1 w1 p (fun i j => (r1 + i, c1 + j)) s1
    have := a3 (r - r1) (by omega) (c - c1) (by omega) (by
      intro i' _ j' _ hc; simp only [Prod.mk.injEq] at hc; omega)
    simp only [show r1 + (r - r1) = r by omega, show c1 + (c - c1) = c by omega] at this
    rw [this, f2]
  · rintro s p c r hn
    obtain ⟨s1, f1, f2, f3⟩ := hrun s
    show (tex U l _ s).sh p c r = _
    rw [f3]
    obtain ⟨-, a2, -⟩ := tex_stores U l h1 w1 q (fun i j => (r1 + i, c1 + j)) s1
    rw [a2 p c r, f1]
    rintro i hi j hj ⟨rfl, hc⟩
    simp only [Prod.mk.injEq] at hc
    exact hn ⟨rfl, by omega, by omega, by omega, by omega⟩
  · intro sh sh' hh p c r _
    have : (fun c r => if r < h ∧ c < w then sh 0 (c0 + c) (r0 + r) else 0) =
        fun c r => if r < h ∧ c < w then sh' 0 (c0 + c) (r0 + r) else 0 := by
      funext c r
      split
      · exact hh _ _ ⟨by omega, by omega, by omega, by omega⟩
      · rfl
    simp only [this]

/-- A task that computes a product entry by entry and stores it. -/
theorem prodProg_task (U : Mat Int) (l h w n q : Nat) (hn : 0 < n) (f g : Nat → Nat → Nat → Nat × Nat)
    (rc : Nat → Nat → Nat × Nat) (rci : Nat → Nat → Nat × Nat)
    (hrc : ∀ i < h, ∀ j < w, rci (rc i j).1 (rc i j).2 = (i, j))
    (R : Nat → Nat → Prop) (W : Nat → Nat → Nat → Prop)
    (hR : ∀ i < h, ∀ j < w, ∀ k < n, R (f i j k).2 (f i j k).1)
    (hW : ∀ p c r, W p c r ↔ p = q ∧ ∃ i < h, ∃ j < w, rc i j = (r, c)) :
    Task U l (.alloc :: (progFor 0 h fun i => progFor 0 w fun j =>
      .mul i j (f i j 0).1 (f i j 0).2 (g i j 0).1 (g i j 0).2 ::
        progFor 1 n fun k => [.addmul i j (f i j k).1 (f i j k).2 (g i j k).1 (g i j k).2]) ++
      progFor 0 h fun i => progFor 0 w fun j => [.store i j q (rc i j).1 (rc i j).2]) R W
      (fun sh _ c r => ∑ k ∈ Finset.range n,
        sh 0 (f (rci r c).1 (rci r c).2 k).2 (f (rci r c).1 (rci r c).2 k).1 *
          U (g (rci r c).1 (rci r c).2 k).2 (g (rci r c).1 (rci r c).2 k).1) := by
  set P1 := progFor 0 h fun i => progFor 0 w fun j =>
      .mul i j (f i j 0).1 (f i j 0).2 (g i j 0).1 (g i j 0).2 ::
        progFor 1 n fun k => [.addmul i j (f i j k).1 (f i j k).2 (g i j k).1 (g i j k).2] with hP1
  set P2 := progFor 0 h fun i => progFor 0 w fun j =>
    [.store i j q (rc i j).1 (rc i j).2] with hP2
  have hinP1 : ∀ a ∈ P1, ∃ i < h, ∃ j < w, ∃ k < n,
      a = .mul i j (f i j k).1 (f i j k).2 (g i j k).1 (g i j k).2 ∨
      a = .addmul i j (f i j k).1 (f i j k).2 (g i j k).1 (g i j k).2 := by
    intro a ha
    obtain ⟨i, -, hi, h⟩ := mem_progFor ha
    obtain ⟨j, -, hj, h⟩ := mem_progFor h
    rw [List.mem_cons] at h
    rcases h with h | h
    · exact ⟨i, hi, j, hj, 0, hn, .inl h⟩
    · obtain ⟨k, -, hk, h⟩ := mem_progFor h
      exact ⟨i, hi, j, hj, k, hk, .inr (by simpa using h)⟩
  have hinP2 : ∀ a ∈ P2, ∃ i < h, ∃ j < w, a = .store i j q (rc i j).1 (rc i j).2 := by
    intro a ha
    obtain ⟨i, -, hi, h⟩ := mem_progFor ha
    obtain ⟨j, -, hj, h⟩ := mem_progFor h
    exact ⟨i, hi, j, hj, by simpa using h⟩
  have hrun : ∀ s, ∃ s1 : PState, s1.sh = s.sh ∧
      (∀ i < h, ∀ j < w, s1.loc l j i =
        ∑ k ∈ Finset.range n, s.sh 0 (f i j k).2 (f i j k).1 * U (g i j k).2 (g i j k).1) ∧
      tex U l (.alloc :: P1 ++ P2) s = tex U l P2 s1 := by
    intro s
    refine ⟨tex U l P1 (pact U (l, .alloc) s), ?_, ?_, ?_⟩
    · rw [tex_private]
      · rfl
      · intro a ha i' j' q' r' c' hc
        obtain ⟨i, _, j, _, k, _, h | h⟩ := hinP1 a ha <;> rw [h] at hc <;> exact absurd hc (by simp)
    · exact tex_prod U l h w n hn f g _
    · rw [List.cons_append, tex_cons, tex_append]
  refine ⟨?_, ?_, ?_, ?_, ?_⟩
  · intro a ha
    rw [List.cons_append, List.mem_cons, List.mem_append] at ha
    rcases ha with rfl | ha | ha
    · trivial
    · obtain ⟨i, hi, j, hj, k, hk, rfl | rfl⟩ := hinP1 a ha <;> exact hR i hi j hj k hk
    · obtain ⟨i, hi, j, hj, rfl⟩ := hinP2 a ha; trivial
  · intro a ha
    rw [List.cons_append, List.mem_cons, List.mem_append] at ha
    rcases ha with rfl | ha | ha
    · trivial
    · obtain ⟨i, hi, j, hj, k, hk, rfl | rfl⟩ := hinP1 a ha <;> trivial
    · obtain ⟨i, hi, j, hj, rfl⟩ := hinP2 a ha
      exact (hW _ _ _).2 ⟨rfl, i, hi, j, hj, rfl⟩
  · intro s p c r hw
    obtain ⟨rfl, i, hi, j, hj, he⟩ := (hW p c r).1 hw
    obtain ⟨s1, f1, f2, f3⟩ := hrun s
    show (tex U l _ s).sh p c r = _
    rw [f3]
    obtain ⟨-, -, a3⟩ := tex_stores U l h w p rc s1
    have := a3 i hi j hj (by
      intro i' hi' j' hj' hc
      have h1 := hrc i hi j hj
      have h2 := hrc i' hi' j' hj'
      rw [hc, h1] at h2
      simp only [Prod.mk.injEq] at h2
      omega)
    have h1 := hrc i hi j hj
    rw [he] at this h1
    simp only [] at this h1
    rw [this, f2 i hi j hj, h1]
  · intro s p c r hnw
    obtain ⟨s1, f1, f2, f3⟩ := hrun s
    show (tex U l _ s).sh p c r = _
    rw [f3]
    obtain ⟨-, a2, -⟩ := tex_stores U l h w q rc s1
    rw [a2 p c r, f1]
    rintro i hi j hj ⟨rfl, hc⟩
    exact hnw ((hW _ _ _).2 ⟨rfl, i, hi, j, hj, hc⟩)
  · intro sh sh' hh p c r hw
    obtain ⟨rfl, i, hi, j, hj, he⟩ := (hW p c r).1 hw
    have h1 := hrc i hi j hj
    rw [he] at h1
    simp only [] at h1
    refine Finset.sum_congr rfl fun k hk => ?_
    simp only [h1]
    rw [hh _ _ (hR i hi j hj k (Finset.mem_range.mp hk))]

end HPLLL
