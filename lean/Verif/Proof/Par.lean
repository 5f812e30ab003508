import Verif.Model.Par
import Verif.Proof.LInv
/-! Interleavings of commuting threads; the parallel update of the basis. -/

namespace HPLLL
open Spec

/-- Interleavings of threads whose actions commute pairwise all give the same result. -/
theorem Interleave.exec_eq {α σ : Type} (f : α → σ → σ) {Ps : List (List α)} {T : List α}
    (h : Interleave Ps T)
    (hc : Ps.Pairwise fun P Q => ∀ a ∈ P, ∀ b ∈ Q, ∀ s, f a (f b s) = f b (f a s)) (s : σ) :
    execAll f T s = execAll f Ps.flatten s := by
  induction h generalizing s with
  | done Ps hP =>
    have : Ps.flatten = [] := by rw [List.flatten_eq_nil_iff]; exact hP
    rw [this]
  | step L R a P T _ ih =>
    have hc' : (L ++ P :: R).Pairwise
        fun P Q => ∀ a ∈ P, ∀ b ∈ Q, ∀ s, f a (f b s) = f b (f a s) := by
      rw [List.pairwise_append] at hc ⊢
      obtain ⟨h1, h2, h3⟩ := hc
      rw [List.pairwise_cons] at h2
      refine ⟨h1, ?_, ?_⟩
      · rw [List.pairwise_cons]
        exact ⟨fun Q hQ x hx y hy s => h2.1 Q hQ x (by simp [hx]) y hy s, h2.2⟩
      · intro Q hQ Q' hQ' x hx y hy s
        rcases List.mem_cons.mp hQ' with rfl | hQ'
        · exact h3 Q hQ (a :: Q') (by simp) x hx y (by simp [hy]) s
        · exact h3 Q hQ Q' (by simp [hQ']) x hx y hy s
    have hcomm : ∀ (l : List α), (∀ x ∈ l, ∀ s, f x (f a s) = f a (f x s)) → ∀ s,
        execAll f l (f a s) = f a (execAll f l s) := by
      intro l
      induction l with
      | nil => intro _ s; rfl
      | cons x l ihl =>
        intro hx s
        simp only [execAll, List.foldl_cons] at ihl ⊢
        rw [hx x (by simp) s]
        exact ihl (fun y hy => hx y (by simp [hy])) _
    have hL : ∀ x ∈ L.flatten, ∀ s, f x (f a s) = f a (f x s) := by
      intro x hx s
      obtain ⟨Q, hQ, hxQ⟩ := List.mem_flatten.mp hx
      exact (List.pairwise_append.mp hc).2.2 Q hQ (a :: P) (by simp) x hxQ a (by simp) s
    have e1 : execAll f (a :: T) s = execAll f T (f a s) := rfl
    rw [e1, ih hc' (f a s)]
    simp only [execAll, List.flatten_append, List.flatten_cons, List.foldl_append,
      List.foldl_cons] at hcomm ⊢
    rw [hcomm _ hL]

theorem execAll_append {α σ : Type} (f : α → σ → σ) (T T' : List α) (s : σ) :
    execAll f (T ++ T') s = execAll f T' (execAll f T s) := List.foldl_append ..

variable {F : Type} (o : FPOps F)

theorem predZ_entry (fl : Bool) (κ i ibeg nloc : Nat) (xf : F) (M : Mat Int) :
    predZ o fl κ i ibeg nloc xf M = setCol M κ fun r =>
      if ibeg ≤ r ∧ r < nloc + ibeg then predEntry o fl xf (M κ r) (M i r) else M κ r := by
  unfold predZ predEntry
  simp only []
  split
  · funext j; by_cases hj : j = κ
    · subst hj; simp
    · rw [setCol_ne _ _ hj]
  · repeat' split
    all_goals rfl

theorem exec_rows (fl : Bool) (κ i : Nat) (hi : i ≠ κ) (vx : Nat → F) :
    ∀ (nloc ibeg : Nat) (M : Mat Int),
    execAll (psizeAct o fl κ vx) ((List.range' ibeg nloc).map fun r => (i, r)) M =
      predZ o fl κ i ibeg nloc (vx i) M := by
  intro nloc
  induction nloc with
  | zero =>
    intro ibeg M
    rw [predZ_entry]
    funext j; by_cases hj : j = κ
    · subst hj; rw [setCol_same]; funext r; rw [if_neg (by omega)]; rfl
    · rw [setCol_ne _ _ hj]; rfl
  | succ nloc ih =>
    intro ibeg M
    rw [List.range'_succ, List.map_cons]
    show execAll (psizeAct o fl κ vx) _ (psizeAct o fl κ vx (i, ibeg) M) = _
    rw [ih, predZ_entry, predZ_entry]
    funext j
    by_cases hj : j = κ
    · subst hj
      rw [setCol_same, setCol_same]
      funext r
      simp only [psizeAct, setEntry, setCol_same]
      rw [setCol_ne _ _ hi]
      by_cases hr : r = ibeg
      · subst hr; rw [if_neg (by omega), setAt_same, if_pos (by omega)]
      · rw [setAt_ne _ _ hr]
        by_cases h2 : ibeg + 1 ≤ r ∧ r < nloc + (ibeg + 1)
        · rw [if_pos h2, if_pos (by omega)]
        · rw [if_neg h2, if_neg (by omega)]
    · rw [setCol_ne _ _ hj, setCol_ne _ _ hj]
      simp only [psizeAct, setEntry]
      rw [setCol_ne _ _ hj]

theorem exec_prog (fl : Bool) (κ : Nat) (vx : Nat → F) (ibeg nloc m : Nat) (hm : m ≤ κ) :
    ∀ M : Mat Int, execAll (psizeAct o fl κ vx) (psizeProg ibeg nloc m) M =
      psizeThread o fl κ vx ibeg nloc m M := by
  induction m with
  | zero => intro M; rfl
  | succ m ih =>
    intro M
    simp only [psizeProg, psizeThread]
    rw [execAll_append, exec_rows o fl κ m (by omega), ih (by omega)]

theorem exec_threads (fl : Bool) (κ : Nat) (vx : Nat → F) (nmax S m k : Nat) (hm : m ≤ κ)
    (M : Mat Int) :
    execAll (psizeAct o fl κ vx)
      ((List.range k).map fun l => psizeProg (sliceBeg nmax S l) (sliceLen nmax S l) m).flatten M =
    (List.range k).foldl
      (fun M l => psizeThread o fl κ vx (sliceBeg nmax S l) (sliceLen nmax S l) m M) M := by
  induction k with
  | zero => rfl
  | succ k ih =>
    rw [List.range_succ, List.map_append, List.flatten_append, execAll_append, ih, List.foldl_append]
    simp only [List.map_cons, List.map_nil, List.flatten_cons, List.flatten_nil, List.append_nil,
      List.foldl_cons, List.foldl_nil]
    rw [exec_prog o fl κ vx _ _ m hm]

theorem act_comm (fl : Bool) (κ : Nat) (vx : Nat → F) (a b : Nat × Nat) (ha : a.1 ≠ κ)
    (hb : b.1 ≠ κ) (hr : a.2 ≠ b.2) (M : Mat Int) :
    psizeAct o fl κ vx a (psizeAct o fl κ vx b M) = psizeAct o fl κ vx b (psizeAct o fl κ vx a M) := by
  funext j
  by_cases hj : j = κ
  · subst hj
    simp only [psizeAct, setEntry, setCol_same, setCol_ne _ _ ha, setCol_ne _ _ hb,
      setAt_ne _ _ hr, setAt_ne _ _ hr.symm]
    funext r
    simp only [setAt]
    by_cases h1 : r = a.2
    · subst h1; simp [hr]
    · by_cases h2 : r = b.2
      · subst h2; simp [hr.symm]
      · simp [h1, h2]
  · simp only [psizeAct, setEntry, setCol_ne _ _ hj]

theorem mem_psizeProg {ibeg nloc m : Nat} {a : Nat × Nat} (h : a ∈ psizeProg ibeg nloc m) :
    a.1 < m ∧ ibeg ≤ a.2 ∧ a.2 < ibeg + nloc := by
  induction m with
  | zero => simp [psizeProg] at h
  | succ m ih =>
    simp only [psizeProg, List.mem_append, List.mem_map, List.mem_range'_1] at h
    rcases h with ⟨r, hr, rfl⟩ | h
    · exact ⟨by simp, hr.1, hr.2⟩
    · have := ih h; omega

theorem sliceBeg_mono (nmax S : Nat) {l k : Nat} (h : l ≤ k) : sliceBeg nmax S l ≤ sliceBeg nmax S k := by
  induction h with
  | refl => exact le_refl _
  | step _ ih => rw [sliceBeg_succ]; omega

/-- All schedules of the parallel update give `psizeUpdateB`. -/
theorem psize_schedules (fl : Bool) (κ m : Nat) (str : Nat → Int) (vx : Nat → F) (S : Nat)
    (hm : m ≤ κ) (T : List (Nat × Nat)) (hT : Interleave (psizeThreads (psizeNmax str m) S m) T)
    (M : Mat Int) :
    execAll (psizeAct o fl κ vx) T M = psizeUpdateB o fl κ m str vx S M := by
  rw [hT.exec_eq (psizeAct o fl κ vx) _ M]
  · exact exec_threads o fl κ vx _ S m S hm M
  · unfold psizeThreads
    rw [List.pairwise_map]
    refine List.Pairwise.imp ?_ (List.pairwise_lt_range (n := S))
    intro l k hlk a ha b hb s
    obtain ⟨a1, a2, a3⟩ := mem_psizeProg ha
    obtain ⟨b1, b2, b3⟩ := mem_psizeProg hb
    have h1 := sliceBeg_mono (psizeNmax str m) S (l := l + 1) (k := k) hlk
    rw [sliceBeg_succ] at h1
    exact act_comm o fl κ vx a b (by omega) (by omega) (by omega) s

end HPLLL
