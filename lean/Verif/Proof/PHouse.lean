import Verif.Model.PHouse
import Verif.Proof.ParMat
/-! The parallel Householder factorisation computes what the sequential one computes. -/

namespace HPLLL

variable {F : Type} (o : FPOps F)

namespace Ph

/-- Loading a column. -/
def loadC (n : ℕ) (b : ℕ → ℤ) (x : ℕ → F) : ℕ → F := fun i => if i < n then o.ofZ (b i) else x i

/-- A reflection on a column. -/
def reflC (n : ℕ) (V : Mat F) (k : ℕ) (x : ℕ → F) : ℕ → F := fun i =>
  if k ≤ i ∧ i < k + (n - k) then
    o.submul (x (k + (i - k))) (V k (k + (i - k)))
      (scalarprod o (fun r => V k (k + r)) (fun r => x (k + r)) (n - k))
  else x i

theorem load_R (n : ℕ) (B : Mat Int) (κ : ℕ) (s : PhSt F) :
    phLoad o n B κ s = { s with R := setCol s.R κ (loadC o n (B κ) (s.R κ)) } := rfl

theorem apply_R (n κ k : ℕ) (s : PhSt F) :
    phApply o n κ k s = { s with R := setCol s.R κ (reflC o n s.V k (s.R κ)) } := rfl

/-- Reflections in a list of indices. -/
def refls (n : ℕ) (V : Mat F) (ks : List ℕ) (x : ℕ → F) : ℕ → F := ks.foldl (fun x k => reflC o n V k x) x

theorem refls_congr {n : ℕ} {V V' : Mat F} {ks : List ℕ} (h : ∀ k ∈ ks, V k = V' k) (x : ℕ → F) :
    refls o n V ks x = refls o n V' ks x := by
  induction ks generalizing x with
  | nil => rfl
  | cons k ks ih =>
    have hk : reflC o n V k x = reflC o n V' k x := by
      unfold reflC; rw [h k (by simp)]
    show refls o n V ks (reflC o n V k x) = refls o n V' ks (reflC o n V' k x)
    rw [hk]
    exact ih (fun j hj => h j (by simp [hj])) _

theorem refls_append (n : ℕ) (V : Mat F) (k1 k2 : List ℕ) (x : ℕ → F) :
    refls o n V (k1 ++ k2) x = refls o n V k2 (refls o n V k1 x) := List.foldl_append ..

theorem setCol_setCol {α : Type} (M : Mat α) (κ : ℕ) (x y : ℕ → α) :
    setCol (setCol M κ x) κ y = setCol M κ y := by
  funext j; by_cases h : j = κ
  · subst h; rw [setCol_same, setCol_same]
  · rw [setCol_ne _ _ h, setCol_ne _ _ h, setCol_ne _ _ h]

theorem setCol_self {α : Type} (M : Mat α) (κ : ℕ) : setCol M κ (M κ) = M := by
  funext j; by_cases h : j = κ
  · subst h; rw [setCol_same]
  · rw [setCol_ne _ _ h]

theorem apply_fold (n κ : ℕ) (ks : List ℕ) (s : PhSt F) :
    ks.foldl (fun s k => phApply o n κ k s) s =
      { s with R := setCol s.R κ (refls o n s.V ks (s.R κ)) } := by
  induction ks generalizing s with
  | nil => simp only [List.foldl_nil, refls]; rw [setCol_self]
  | cons k ks ih =>
    rw [List.foldl_cons, ih, apply_R]
    simp only [setCol_same, setCol_setCol]
    rfl

/-- Column `κ` of `R` after `phFin`. -/
def finR (n d κ : ℕ) (x : ℕ → F) : ℕ → F := fun i =>
  if κ + 1 ≤ i ∧ i < d then o.zero
  else if i = κ then
    (let nrm := fpNorm o (fun r => x (κ + r)) (n - κ)
     if o.le o.zero (x κ) then o.neg nrm else nrm)
  else x i

/-- Column `κ` of `V` after `phFin`. -/
def finV (n κ : ℕ) (x v : ℕ → F) : ℕ → F :=
  let nrm := fpNorm o (fun r => x (κ + r)) (n - κ)
  let s := if o.le o.zero (x κ) then nrm else o.neg nrm
  let w := o.add (x κ) s
  let s := o.sqrt (o.mul s w)
  if o.lt o.zero s then
    fun i => if i = κ then o.div w s
      else if κ + 1 ≤ i ∧ i < κ + 1 + (n - κ - 1) then o.div (x i) s else v i
  else fun i => if i = κ then o.one else v i

theorem fin_eq (n d κ : ℕ) (s : PhSt F) :
    phFin o n d κ s = { s with R := setCol s.R κ (finR o n d κ (s.R κ)),
                               V := setCol s.V κ (finV o n κ (s.R κ) (s.V κ)) } := by
  simp only [phFin]
  congr 1
  · funext j; by_cases h : j = κ
    · subst h
      rw [setCol_same, setCol_same]
      funext i
      simp only [finR, setEntry, setCol_same, setAt]
      rfl
    · simp only [setCol_ne _ _ h, setEntry]
  · funext j; by_cases h : j = κ
    · subst h
      rw [setCol_same]
      simp only [finV]
      have e : fpNorm o (getcol s.R j j) (n - j) = fpNorm o (fun r => s.R j (j + r)) (n - j) := rfl
      rw [e]
      generalize (if o.le o.zero (s.R j j) = true then fpNorm o (fun r => s.R j (j + r)) (n - j)
        else o.neg (fpNorm o (fun r => s.R j (j + r)) (n - j))) = t1
      generalize (if o.le o.zero (s.R j j) = true then o.neg (fpNorm o (fun r => s.R j (j + r)) (n - j))
        else fpNorm o (fun r => s.R j (j + r)) (n - j)) = t2
      split
      · funext i
        simp only [setEntry, setCol_same, setAt, fdivcol, getcol]
        by_cases hi : i = j
        · simp [hi]
        · simp only [hi, if_false]
          by_cases h2 : j + 1 ≤ i ∧ i < j + 1 + (n - j - 1)
          · rw [if_pos h2, if_pos h2]
            have e1 : j + 1 + (i - (j + 1)) = i := by omega
            rw [e1, if_neg hi]
          · rw [if_neg h2, if_neg h2]
      · funext i
        simp only [setEntry, setCol_same, setAt]
    · rw [setCol_ne _ _ h]
      split_ifs <;> simp only [setEntry, setCol_ne _ _ h, fdivcol]

/-- One column of the sequential algorithm. -/
def seqCol (n d : ℕ) (B : Mat Int) (κ : ℕ) (s : PhSt F) : PhSt F :=
  phFin o n d κ ((List.range κ).foldl (fun s k => phApply o n κ k s) (phLoad o n B κ s))

/-- The first `m` columns, one after the other. -/
def seq (n d : ℕ) (B : Mat Int) (s : PhSt F) (m : ℕ) : PhSt F :=
  (List.range m).foldl (fun s κ => seqCol o n d B κ s) s

theorem seq_succ (n d : ℕ) (B : Mat Int) (s : PhSt F) (m : ℕ) :
    seq o n d B s (m + 1) = seqCol o n d B m (seq o n d B s m) := by
  simp only [seq, List.range_succ, List.foldl_append, List.foldl_cons, List.foldl_nil]

theorem seqCol_eq (n d : ℕ) (B : Mat Int) (κ : ℕ) (s : PhSt F) :
    seqCol o n d B κ s =
      let x := refls o n s.V (List.range κ) (loadC o n (B κ) (s.R κ))
      { s with R := setCol s.R κ (finR o n d κ x), V := setCol s.V κ (finV o n κ x (s.V κ)) } := by
  simp only [seqCol, apply_fold, load_R, fin_eq, setCol_same, setCol_setCol]

/-- Columns not yet reached. -/
theorem seq_later (n d : ℕ) (B : Mat Int) (s : PhSt F) (m c : ℕ) (hc : m ≤ c) :
    (seq o n d B s m).R c = s.R c ∧ (seq o n d B s m).V c = s.V c := by
  induction m with
  | zero => exact ⟨rfl, rfl⟩
  | succ m ih =>
    rw [seq_succ, seqCol_eq]
    simp only []
    rw [setCol_ne _ _ (by omega), setCol_ne _ _ (by omega)]
    exact ih (by omega)

/-- Columns already computed do not change. -/
theorem seq_stable (n d : ℕ) (B : Mat Int) (s : PhSt F) (m j c : ℕ) (hc : c < m) :
    (seq o n d B s (m + j)).R c = (seq o n d B s m).R c ∧
    (seq o n d B s (m + j)).V c = (seq o n d B s m).V c := by
  induction j with
  | zero => exact ⟨rfl, rfl⟩
  | succ j ih =>
    rw [← Nat.add_assoc, seq_succ, seqCol_eq]
    simp only []
    rw [setCol_ne _ _ (by omega), setCol_ne _ _ (by omega)]
    exact ih

/-! ## Threads -/

/-- Columns touched by an action. -/
def col : PhAct → ℕ
  | .load c _ => c
  | .dot0 _ c => c
  | .dot _ c _ => c
  | .sub _ c _ => c

theorem setEntry_comm {α : Type} (M : Mat α) {r r' c c' : ℕ} (h : c ≠ c') (x y : α) :
    setEntry (setEntry M r c x) r' c' y = setEntry (setEntry M r' c' y) r c x := by
  funext j i
  simp only [setEntry_apply]
  by_cases h1 : j = c
  · subst h1; simp [h]
  · simp [h1]

theorem setEntry_col {α : Type} (M : Mat α) {r c c' : ℕ} (h : c' ≠ c) (x : α) (i : ℕ) :
    setEntry M r c x c' i = M c' i := by
  simp only [setEntry_apply]; rw [if_neg]; rintro ⟨e, _⟩; exact h e

theorem act_comm (B : Mat Int) {l l' : ℕ} (hl : l ≠ l') {a b : PhAct} (hc : col a ≠ col b) (s : PhSt F) :
    phAct o B (l, a) (phAct o B (l', b) s) = phAct o B (l', b) (phAct o B (l, a) s) := by
  have hl' := hl.symm
  have g1 : ∀ (v : ℕ → F) x, setAt v l' x l = v l := fun v x => setAt_get v hl x
  have g2 : ∀ (v : ℕ → F) x, setAt v l x l' = v l' := fun v x => setAt_get v hl' x
  cases a <;> cases b <;> simp only [col] at hc <;>
    simp only [phAct, g1, g2, setAt_comm' s.loc hl, setEntry_col _ hc, setEntry_col _ (Ne.symm hc),
      setEntry_comm _ hc]

/-- Execution of the actions of a thread. -/
def run (B : Mat Int) (l : ℕ) (P : List PhAct) (s : PhSt F) : PhSt F :=
  execAll (phAct o B) (P.map fun a => (l, a)) s

theorem run_append (B : Mat Int) (l : ℕ) (P Q : List PhAct) (s : PhSt F) :
    run o B l (P ++ Q) s = run o B l Q (run o B l P s) := by
  simp only [run, List.map_append, execAll_append]

theorem run_loads (B : Mat Int) (l c : ℕ) (n : ℕ) (s : PhSt F) :
    run o B l ((List.range n).map fun r => .load c r) s =
      { s with R := setCol s.R c (loadC o n (B c) (s.R c)) } := by
  induction n with
  | zero =>
    simp only [List.range_zero, List.map_nil]
    have : loadC o 0 (B c) (s.R c) = s.R c := by funext i; simp [loadC]
    rw [this, setCol_self]; rfl
  | succ n ih =>
    rw [List.range_succ, List.map_append, run_append, ih]
    simp only [List.map_cons, List.map_nil, run, execAll, List.foldl_cons, List.foldl_nil, phAct]
    congr 1
    funext j i
    simp only [setEntry_apply]
    by_cases hj : j = c
    · subst hj
      simp only [setCol_same, loadC]
      by_cases hi : i = n
      · subst hi; simp
      · by_cases h2 : i < n
        · have : i < n + 1 := by omega
          simp [hi, h2, this]
        · have : ¬ i < n + 1 := by omega
          simp [hi, h2, this]
    · simp [hj, setCol_ne _ _ hj]

theorem run_dots (B : Mat Int) (l k c m : ℕ) (s : PhSt F) :
    run o B l (.dot0 k c :: (List.range m).map fun i => .dot k c (i + 1)) s =
      { s with loc := setAt s.loc l ((List.range m).foldl
          (fun acc i => o.addmul acc (s.V k (k + (i + 1))) (s.R c (k + (i + 1))))
          (o.mul (s.V k (k + 0)) (s.R c (k + 0)))) } := by
  induction m with
  | zero => rfl
  | succ m ih =>
    rw [List.range_succ, List.map_append, ← List.cons_append, run_append, ih]
    simp only [List.map_cons, List.map_nil, run, execAll, List.foldl_cons, List.foldl_nil, phAct,
      List.foldl_append]
    congr 1
    funext j
    by_cases hj : j = l
    · subst hj; simp [setAt]
    · simp [setAt, hj]

theorem run_subs (B : Mat Int) (l k c m : ℕ) (s : PhSt F) :
    run o B l ((List.range m).map fun i => .sub k c i) s =
      { s with R := setCol s.R c fun i => if k ≤ i ∧ i < k + m then
          o.submul (s.R c (k + (i - k))) (s.V k (k + (i - k))) (s.loc l) else s.R c i } := by
  induction m with
  | zero =>
    simp only [List.range_zero, List.map_nil]
    have : (fun i => if k ≤ i ∧ i < k + 0 then
          o.submul (s.R c (k + (i - k))) (s.V k (k + (i - k))) (s.loc l) else s.R c i) = s.R c := by
      funext i; rw [if_neg (by omega)]
    rw [this, setCol_self]; rfl
  | succ m ih =>
    rw [List.range_succ, List.map_append, run_append, ih]
    simp only [List.map_cons, List.map_nil, run, execAll, List.foldl_cons, List.foldl_nil, phAct]
    congr 1
    funext j i
    simp only [setEntry_apply]
    by_cases hj : j = c
    · subst hj
      simp only [setCol_same, true_and]
      by_cases hi : i = k + m
      · subst hi
        rw [if_pos rfl, if_neg (by omega), if_pos (by omega), Nat.add_sub_cancel_left]
      · rw [if_neg hi]
        by_cases h2 : k ≤ i ∧ i < k + m
        · rw [if_pos h2, if_pos (by omega)]
        · rw [if_neg h2, if_neg (by omega)]
    · simp [hj, setCol_ne _ _ hj]

/-- A reflection, as the thread does it: `R` and `V` afterwards. -/
theorem run_refl (B : Mat Int) (l n k c : ℕ) (s : PhSt F) :
    (run o B l (phReflProg n k c) s).R = setCol s.R c (reflC o n s.V k (s.R c)) ∧
    (run o B l (phReflProg n k c) s).V = s.V := by
  unfold phReflProg
  rw [run_append, run_dots, run_subs]
  refine ⟨?_, rfl⟩
  simp only [setAt_same]
  rfl

theorem run_refls (B : Mat Int) (l n c : ℕ) (ks : List ℕ) (s : PhSt F) :
    (run o B l (ks.flatMap fun k => phReflProg n k c) s).R = setCol s.R c (refls o n s.V ks (s.R c)) ∧
    (run o B l (ks.flatMap fun k => phReflProg n k c) s).V = s.V := by
  induction ks generalizing s with
  | nil =>
    simp only [List.flatMap_nil, refls, List.foldl_nil]
    rw [setCol_self]; exact ⟨rfl, rfl⟩
  | cons k ks ih =>
    rw [List.flatMap_cons, run_append]
    obtain ⟨a, b⟩ := ih (run o B l (phReflProg n k c) s)
    obtain ⟨a', b'⟩ := run_refl o B l n k c s
    rw [a, b, a', b']
    simp only [setCol_same, setCol_setCol]
    exact ⟨rfl, trivial⟩

/-- Column `c` at step `l`. -/
def stepC (n Sdim l : ℕ) (B : Mat Int) (V : Mat F) (c : ℕ) (x : ℕ → F) : ℕ → F :=
  refls o n V (List.range' (l * Sdim) Sdim) (if l = 0 then loadC o n (B c) x else x)

theorem run_col (B : Mat Int) (t n Sdim l c : ℕ) (s : PhSt F) :
    (run o B t (phColProg n Sdim l c) s).R = setCol s.R c (stepC o n Sdim l B s.V c (s.R c)) ∧
    (run o B t (phColProg n Sdim l c) s).V = s.V := by
  unfold phColProg stepC
  rw [run_append]
  obtain ⟨a, b⟩ := run_refls o B t n c (List.range' (l * Sdim) Sdim)
    (run o B t (if l = 0 then (List.range n).map fun r => .load c r else []) s)
  rw [a, b]
  split
  · rw [run_loads]
    simp only [setCol_same, setCol_setCol]
    exact ⟨trivial, trivial⟩
  · exact ⟨rfl, rfl⟩

theorem run_cols (B : Mat Int) (t n Sdim l : ℕ) (cs : List ℕ) (hn : cs.Nodup) (s : PhSt F) :
    (run o B t (cs.flatMap fun c => phColProg n Sdim l c) s).V = s.V ∧
    (∀ c, (run o B t (cs.flatMap fun c => phColProg n Sdim l c) s).R c =
      if c ∈ cs then stepC o n Sdim l B s.V c (s.R c) else s.R c) := by
  induction cs generalizing s with
  | nil => exact ⟨rfl, fun c => rfl⟩
  | cons k cs ih =>
    rw [List.nodup_cons] at hn
    rw [List.flatMap_cons, run_append]
    obtain ⟨a, b⟩ := ih hn.2 (run o B t (phColProg n Sdim l k) s)
    obtain ⟨a', b'⟩ := run_col o B t n Sdim l k s
    refine ⟨by rw [a, b'], fun c => ?_⟩
    rw [b, a', b']
    by_cases hc : c = k
    · subst hc
      rw [if_neg hn.1, if_pos (by simp), setCol_same]
    · simp only [setCol_ne _ _ hc, List.mem_cons, hc, false_or]

/-- The threads in any order of their actions. -/
theorem exec_threads (B : Mat Int) (n Sdim S l : ℕ) (T : List (ℕ × PhAct))
    (hT : Interleave (phThreads n Sdim S l) T) (s : PhSt F) :
    (execAll (phAct o B) T s).V = s.V ∧
    (∀ c, (execAll (phAct o B) T s).R c =
      if (l + 1) * Sdim ≤ c ∧ c < S * Sdim then stepC o n Sdim l B s.V c (s.R c) else s.R c) := by
  have hcols : ∀ lb, ∀ a ∈ phProg n Sdim l lb, a.1 = lb ∧ lb * Sdim ≤ col a.2 ∧ col a.2 < (lb + 1) * Sdim := by
    intro lb a ha
    simp only [phProg, List.mem_map, List.mem_flatMap, List.mem_range'_1] at ha
    obtain ⟨x, ⟨c, hc, hx⟩, rfl⟩ := ha
    have : col x = c := by
      simp only [phColProg, List.mem_append, List.mem_flatMap] at hx
      rcases hx with hx | ⟨k, -, hx⟩
      · split at hx
        · simp only [List.mem_map] at hx
          obtain ⟨r, -, rfl⟩ := hx; rfl
        · simp at hx
      · simp only [phReflProg, List.cons_append, List.mem_cons, List.mem_append, List.mem_map] at hx
        rcases hx with rfl | ⟨i, -, rfl⟩ | ⟨i, -, rfl⟩ <;> rfl
    refine ⟨rfl, by simp only; omega, ?_⟩
    have e : (lb + 1) * Sdim = lb * Sdim + Sdim := by ring
    simp only
    omega
  rw [hT.exec_eq (phAct o B) ?_ s]
  · -- sequential execution of the threads
    unfold phThreads
    have key : ∀ (q : ℕ) (s : PhSt F),
        (execAll (phAct o B) ((List.range' (l + 1) q).map fun lb => phProg n Sdim l lb).flatten s).V = s.V ∧
        ∀ c, (execAll (phAct o B) ((List.range' (l + 1) q).map fun lb => phProg n Sdim l lb).flatten s).R c =
          if (l + 1) * Sdim ≤ c ∧ c < (l + 1 + q) * Sdim then stepC o n Sdim l B s.V c (s.R c) else s.R c := by
      intro q
      induction q with
      | zero =>
        intro s
        refine ⟨rfl, fun c => ?_⟩
        rw [if_neg (by simp)]; rfl
      | succ q ih =>
        intro s
        rw [List.range'_concat, List.map_append, List.flatten_append, execAll_append]
        obtain ⟨a, b⟩ := ih s
        simp only [List.map_cons, List.map_nil, List.flatten_cons, List.flatten_nil, List.append_nil, Nat.one_mul]
        obtain ⟨a', b'⟩ := run_cols o B (l + 1 + q) n Sdim l (List.range' ((l + 1 + q) * Sdim) Sdim)
          (List.nodup_range') (execAll (phAct o B)
            ((List.range' (l + 1) q).map fun lb => phProg n Sdim l lb).flatten s)
        refine ⟨a'.trans a, fun c => (b' c).trans ?_⟩
        rw [a, b]
        have e : (l + 1 + (q + 1)) * Sdim = (l + 1 + q) * Sdim + Sdim := by ring
        have e2 : (l + 1 + q) * Sdim = (l + 1) * Sdim + q * Sdim := by ring
        simp only [List.mem_range'_1]
        by_cases h1 : (l + 1 + q) * Sdim ≤ c ∧ c < (l + 1 + q) * Sdim + Sdim
        · rw [if_pos h1, if_neg (by omega), if_pos (by omega)]
        · rw [if_neg h1]
          by_cases h2 : (l + 1) * Sdim ≤ c ∧ c < (l + 1 + q) * Sdim
          · rw [if_pos h2, if_pos (by omega)]
          · rw [if_neg h2, if_neg (by omega)]
    obtain ⟨a, b⟩ := key (S - (l + 1)) s
    refine ⟨a, fun c => (b c).trans ?_⟩
    rcases Nat.lt_or_ge S (l + 1) with h | h
    · have e1 : l + 1 + (S - (l + 1)) = l + 1 := by omega
      have e2 : S * Sdim ≤ (l + 1) * Sdim := Nat.mul_le_mul_right _ h.le
      rw [e1, if_neg (by omega), if_neg (by omega)]
    · have e1 : l + 1 + (S - (l + 1)) = S := by omega
      rw [e1]
  · unfold phThreads
    rw [List.pairwise_map]
    refine List.Pairwise.imp ?_ (List.pairwise_lt_range' (s := l + 1) (n := S - (l + 1)))
    intro p q hpq a ha b hb s
    obtain ⟨a1, a2, a3⟩ := hcols p a ha
    obtain ⟨b1, b2, b3⟩ := hcols q b hb
    have : (p + 1) * Sdim ≤ q * Sdim := Nat.mul_le_mul_right _ hpq
    obtain ⟨ta, xa⟩ := a
    obtain ⟨tb, xb⟩ := b
    simp only at a1 b1 a2 a3 b2 b3
    subst a1; subst b1
    exact act_comm o B (by omega) (by omega) s

/-! ## Steps -/

/-- State before step `l`. -/
structure Inv (n d : ℕ) (B : Mat Int) (Sdim S : ℕ) (s0 : PhSt F) (l : ℕ) (s : PhSt F) : Prop where
  V : s.V = (seq o n d B s0 (l * Sdim)).V
  done : ∀ c, c < l * Sdim → s.R c = (seq o n d B s0 (l * Sdim)).R c
  next : ∀ c, l * Sdim ≤ c → c < S * Sdim →
    (if l = 0 then loadC o n (B c) (s.R c) else s.R c) =
      refls o n s.V (List.range (l * Sdim)) (loadC o n (B c) (s0.R c))
  rest : ∀ c, S * Sdim ≤ c → s.R c = s0.R c

theorem range_split (a b : ℕ) : List.range (a + b) = List.range a ++ List.range' a b := by
  rw [List.range_eq_range', List.range_eq_range', ← List.range'_append]
  simp

theorem step_inv {n d : ℕ} {B : Mat Int} {Sdim S : ℕ} {s0 : PhSt F} {l : ℕ} {s : PhSt F} (hl : l < S)
    (h : Inv o n d B Sdim S s0 l s) (T : ℕ → List (ℕ × PhAct))
    (hT : Interleave (phThreads n Sdim S l) (T l)) :
    Inv o n d B Sdim S s0 (l + 1) (phStep o n d B Sdim T l s) := by
  have hlS : (l + 1) * Sdim ≤ S * Sdim := Nat.mul_le_mul_right _ hl
  have hl1 : (l + 1) * Sdim = l * Sdim + Sdim := by ring
  obtain ⟨m, hm⟩ : ∃ m, m = l * Sdim := ⟨_, rfl⟩
  -- diagonal block
  have diag : ∀ j, j ≤ Sdim →
      let q := (List.range' (l * Sdim) j).foldl (fun s κ => phDiagCol o n d B Sdim l κ s) s
      q.V = (seq o n d B s0 (m + j)).V ∧ (∀ c, c < m + j → q.R c = (seq o n d B s0 (m + j)).R c) ∧
      (∀ c, m + j ≤ c → q.R c = s.R c) := by
    intro j
    induction j with
    | zero =>
      intro _
      simp only [List.range'_zero, List.foldl_nil, Nat.add_zero]
      subst hm
      exact ⟨h.V, h.done, fun _ _ => trivial⟩
    | succ j ih =>
      intro hj
      obtain ⟨i1, i2, i3⟩ := ih (by omega)
      simp only [List.range'_concat, List.foldl_append, List.foldl_cons, List.foldl_nil, Nat.one_mul]
      obtain ⟨q, hq⟩ : ∃ q, q = (List.range' (l * Sdim) j).foldl
        (fun s κ => phDiagCol o n d B Sdim l κ s) s := ⟨_, rfl⟩
      rw [← hq] at i1 i2 i3 ⊢
      rw [← hm]
      -- the column before the reflections of the block
      have hx : refls o n q.V (List.range' m j) (if l = 0 then loadC o n (B (m + j)) (q.R (m + j)) else q.R (m + j)) =
          refls o n (seq o n d B s0 (m + j)).V (List.range (m + j)) (loadC o n (B (m + j)) (s0.R (m + j))) := by
        rw [i3 (m + j) (le_refl _), h.next (m + j) (by omega) (by omega), range_split, refls_append, i1, ← hm]
        congr 1
        refine refls_congr o (fun k hk => ?_) _
        have hk' := List.mem_range.1 hk
        rw [h.V, ← hm]
        exact ((seq_stable o n d B s0 m j k hk').2).symm
      have hcol : phDiagCol o n d B Sdim l (m + j) q =
          let x := refls o n (seq o n d B s0 (m + j)).V (List.range (m + j)) (loadC o n (B (m + j)) (s0.R (m + j)))
          { q with R := setCol q.R (m + j) (finR o n d (m + j) x),
                   V := setCol q.V (m + j) (finV o n (m + j) x (q.V (m + j))) } := by
        unfold phDiagCol
        simp only []
        rw [← hm, show m + j - m = j by omega, ← hx]
        split
        · rename_i h0
          rw [apply_fold, fin_eq, load_R]
          simp only [setCol_same, setCol_setCol]
        · rename_i h0
          rw [apply_fold, fin_eq]
          simp only [setCol_same, setCol_setCol]
      have hseq : seq o n d B s0 (m + (j + 1)) =
          let x := refls o n (seq o n d B s0 (m + j)).V (List.range (m + j)) (loadC o n (B (m + j)) (s0.R (m + j)))
          { seq o n d B s0 (m + j) with
              R := setCol (seq o n d B s0 (m + j)).R (m + j) (finR o n d (m + j) x),
              V := setCol (seq o n d B s0 (m + j)).V (m + j)
                (finV o n (m + j) x ((seq o n d B s0 (m + j)).V (m + j))) } := by
        rw [← Nat.add_assoc, seq_succ, seqCol_eq, (seq_later o n d B s0 (m + j) (m + j) (le_refl _)).1]
      rw [hcol, hseq]
      simp only []
      refine ⟨by rw [i1], fun c hc => ?_, fun c hc => ?_⟩
      · by_cases e : c = m + j
        · subst e; rw [setCol_same, setCol_same]
        · rw [setCol_ne _ _ e, setCol_ne _ _ e]; exact i2 c (by omega)
      · rw [setCol_ne _ _ (by omega)]; exact i3 c (by omega)
  obtain ⟨d1, d2, d3⟩ := diag Sdim (le_refl _)
  unfold phStep
  obtain ⟨q, hq⟩ : ∃ q, q = (List.range' (l * Sdim) Sdim).foldl
    (fun s κ => phDiagCol o n d B Sdim l κ s) s := ⟨_, rfl⟩
  rw [← hq] at d1 d2 d3 ⊢
  obtain ⟨e1, e2⟩ := exec_threads o B n Sdim S l (T l) hT q
  have hms : m + Sdim = (l + 1) * Sdim := by rw [hl1, hm]
  rw [hms] at d1 d2 d3
  refine ⟨by rw [e1, d1], fun c hc => ?_, fun c h1 h2 => ?_, fun c hc => ?_⟩
  · rw [e2, if_neg (by omega)]; exact d2 c hc
  · rw [if_neg (by omega), e2, if_pos ⟨h1, h2⟩, e1, d3 c h1]
    unfold stepC
    rw [h.next c (by omega) h2, hl1, range_split, refls_append]
    congr 1
    refine refls_congr o (fun k hk => ?_) _
    have hk' := List.mem_range.1 hk
    rw [h.V, d1, ← hms, ← hm]
    exact ((seq_stable o n d B s0 m Sdim k (by omega)).2).symm
  · rw [e2, if_neg (by omega), d3 c (by omega), h.rest c hc]

/-- For every schedule, `phouseholder` computes the first `S * (d / S)` columns one after the other. -/
theorem ph_seq {n d : ℕ} {B : Mat Int} {S : ℕ} (hS : 0 < S) (T : ℕ → List (ℕ × PhAct))
    (hT : ∀ l < S, Interleave (phThreads n (d / S) S l) (T l)) (s : PhSt F) :
    ∃ s', phouseholder o n d B S T s = some s' ∧
      s'.R = (seq o n d B s (S * (d / S))).R ∧ s'.V = (seq o n d B s (S * (d / S))).V := by
  refine ⟨_, by unfold phouseholder; rw [if_neg (by omega)], ?_⟩
  have key : ∀ l, l ≤ S → Inv o n d B (d / S) S s l
      ((List.range l).foldl (fun s l => phStep o n d B (d / S) T l s) s) := by
    intro l
    induction l with
    | zero =>
      intro _
      refine ⟨by simp [seq], fun c hc => by simp at hc, fun c _ _ => by simp [refls], fun c _ => rfl⟩
    | succ l ih =>
      intro hl
      rw [List.range_succ, List.foldl_append]
      simp only [List.foldl_cons, List.foldl_nil]
      exact step_inv o (by omega) (ih (by omega)) T (hT l (by omega))
  have h := key S (le_refl _)
  refine ⟨?_, h.V⟩
  funext c
  rcases Nat.lt_or_ge c (S * (d / S)) with hc | hc
  · exact h.done c hc
  · rw [h.rest c hc, (seq_later o n d B s _ c hc).1]

end Ph
end HPLLL
