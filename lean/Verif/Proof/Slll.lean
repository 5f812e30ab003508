import Verif.Proof.SlllPar
import Verif.Proof.HlllExit
import Mathlib.LinearAlgebra.Matrix.Block
/-! Segment LLL: schedule independence and lattice preservation. -/

namespace HPLLL
open Spec Matrix

/-! ### products by diagonal blocks -/

/-- Identity except for one diagonal block of `U`. -/
def embed (d sh w : Nat) (U : Mat Int) : Matrix (Fin d) (Fin d) ℤ := Matrix.of fun i j =>
  if sh ≤ (j : Nat) ∧ (j : Nat) < sh + w then
    if sh ≤ (i : Nat) ∧ (i : Nat) < sh + w then U j i else 0
  else if i = j then 1 else 0

theorem det_embed (d sh w : Nat) (h : sh + w ≤ d) (U : Mat Int) :
    (embed d sh w U).det = (toMatrix w w fun j i => U (sh + j) (sh + i)).det := by
  rw [twoBlockTriangular_det (embed d sh w U) (fun i => sh ≤ (i : Nat) ∧ (i : Nat) < sh + w)]
  · have h1 : (toSquareBlockProp (embed d sh w U)
        fun i => ¬ (sh ≤ (i : Nat) ∧ (i : Nat) < sh + w)) = 1 := by
      ext i j
      rw [toSquareBlockProp_def]
      simp only [of_apply, embed]
      rw [if_neg j.2, Matrix.one_apply]
      simp only [Subtype.ext_iff]
    rw [h1, det_one, mul_one]
    let e : Fin w ≃ {i : Fin d // sh ≤ (i : Nat) ∧ (i : Nat) < sh + w} :=
      { toFun := fun k => ⟨⟨sh + k, by omega⟩, by simp⟩
        invFun := fun i => ⟨i.1 - sh, by have := i.2; omega⟩
        left_inv := fun k => by ext; simp
        right_inv := fun i => by
          apply Subtype.ext; apply Fin.ext
          have := i.2; simp only []; omega }
    rw [← det_submatrix_equiv_self e]
    congr 1
    ext i j
    rw [submatrix_apply, toSquareBlockProp_def]
    simp only [of_apply, embed]
    rw [if_pos (e j).2, if_pos (e i).2]
    rfl
  · intro i hi j hj
    simp only [embed, of_apply]
    rw [if_pos hj, if_neg hi]

theorem mul_embed (n d sh w : Nat) (h : sh + w ≤ d) (U B B' : Mat Int)
    (h1 : ∀ c r, r < n → sh ≤ c → c < sh + w →
      B' c r = ∑ k ∈ Finset.range w, B (sh + k) r * U c (sh + k))
    (h2 : ∀ c r, c < d → r < n → ¬ (sh ≤ c ∧ c < sh + w) → B' c r = B c r) :
    toMatrix n d B' = toMatrix n d B * embed d sh w U := by
  ext r c
  rw [Matrix.mul_apply]
  simp only [toMatrix, of_apply, embed]
  by_cases hc : sh ≤ (c : Nat) ∧ (c : Nat) < sh + w
  · simp only [hc, and_self, if_true]
    rw [h1 c r r.2 hc.1 hc.2]
    rw [Finset.sum_range]
    let e : Fin w ↪ Fin d := ⟨fun k => ⟨sh + k, by omega⟩, fun a b hab => by
      have := Fin.mk.inj_iff.mp hab; exact Fin.ext (by omega)⟩
    rw [← Finset.sum_subset (Finset.subset_univ (Finset.univ.map e))]
    · rw [Finset.sum_map]
      refine Finset.sum_congr rfl fun k _ => ?_
      show _ = B (sh + k) r * (if sh ≤ sh + (k : Nat) ∧ sh + (k : Nat) < sh + w then U c (sh + k) else 0)
      rw [if_pos (by omega)]
    · intro x _ hx
      rw [if_neg, mul_zero]
      rintro ⟨g1, g2⟩
      apply hx
      rw [Finset.mem_map]
      refine ⟨⟨x - sh, by omega⟩, by simp, ?_⟩
      apply Fin.ext
      show sh + (x - sh) = (x : Nat)
      omega
  · simp only [hc, if_false]
    rw [h2 c r c.2 r.2 hc]
    simp [Finset.sum_ite_eq']

/-- A list of disjoint diagonal blocks. -/
theorem mul_blocks (n d w nb : Nat) (off : Nat) (h : off + nb * w ≤ d) (U B B' : Mat Int)
    (hu : ∀ b < nb, IsUnit (toMatrix w w fun j i => U (b * w + off + j) (b * w + off + i)).det)
    (h1 : ∀ b < nb, ∀ c r, r < n → b * w + off ≤ c → c < b * w + off + w →
      B' c r = ∑ k ∈ Finset.range w, B (b * w + off + k) r * U c (b * w + off + k))
    (h2 : ∀ c r, (∀ b < nb, ¬ (r < n ∧ b * w + off ≤ c ∧ c < b * w + off + w)) → B' c r = B c r) :
    ∃ W : Matrix (Fin d) (Fin d) ℤ, IsUnit W.det ∧ toMatrix n d B' = toMatrix n d B * W := by
  induction nb generalizing B' with
  | zero =>
    refine ⟨1, by simp, ?_⟩
    rw [Matrix.mul_one]
    ext r c
    exact h2 c r (fun b hb => by omega)
  | succ nb ih =>
    rw [Nat.succ_mul] at h
    let B1 : Mat Int := fun c r => if nb * w + off ≤ c ∧ c < nb * w + off + w then B c r else B' c r
    obtain ⟨W, hW, e⟩ := ih (by omega) B1 (fun b hb => hu b (by omega))
      (by
        intro b hb c r hr g1 g2
        have : ¬ (nb * w + off ≤ c ∧ c < nb * w + off + w) := by
          rintro ⟨g3, g4⟩
          exact block_disj (w := w) (a := c - off) (l := b) (k := nb) (by omega) (by omega) (by omega)
            (by omega) (by omega)
        simp only [B1]
        rw [if_neg this]
        exact h1 b (by omega) c r hr g1 g2)
      (by
        intro c r hn
        simp only [B1]
        split
        · rfl
        · rename_i hc
          apply h2
          intro b hb
          rcases Nat.lt_succ_iff_lt_or_eq.mp hb with hb | rfl
          · exact hn b hb
          · exact fun g => hc g.2)
    refine ⟨W * embed d (nb * w + off) w U, ?_, ?_⟩
    · rw [det_mul, det_embed _ _ _ (by omega)]
      exact hW.mul (hu nb (by omega))
    · rw [← Matrix.mul_assoc, ← e]
      refine mul_embed n d (nb * w + off) w (by omega) U B1 B' ?_ ?_
      · intro c r hr g1 g2
        rw [h1 nb (by omega) c r hr g1 g2]
        refine Finset.sum_congr rfl fun k hk => ?_
        have := Finset.mem_range.mp hk
        simp only [B1]
        rw [if_pos (by omega)]
      · intro c r hc hr hn
        simp only [B1]
        rw [if_neg hn]

variable {F : Type} (o : FPOps F) (c : SCst F)

/-! ### one block -/

theorem getblockSq_apply (A : ZMat) (ii jj nbb dec c r : Nat) :
    (getblockSq A ii jj nbb dec).M c r =
      if c < A.rows / nbb ∧ r < A.rows / nbb then
        A.M (jj * (A.rows / nbb) + c + dec) (ii * (A.rows / nbb) + r + dec) else 0 := by
  unfold getblockSq
  simp only []
  have := forRange_fillCol (fun i j => A.M (jj * (A.rows / nbb) + j + dec) (ii * (A.rows / nbb) + i + dec))
    0 0 (A.rows / nbb) (A.rows / nbb) (fun _ _ => 0) c r
  simp only [Nat.zero_add] at this
  rw [this]
  by_cases h : c < A.rows / nbb ∧ r < A.rows / nbb
  · rw [if_pos h, if_pos (by omega)]; congr 1
  · rw [if_neg h, if_neg (by omega)]

theorem fullRank_triangular {w : Nat} (M : Mat Int) (h0 : ∀ j i, j < i → i < w → M j i = 0)
    (h1 : ∀ j < w, M j j ≠ 0) : FullColumnRank (toMatrix w w M) := by
  apply Matrix.linearIndependent_cols_of_det_ne_zero (A := toMatrix w w M)
  rw [det_of_upperTriangular]
  · rw [Finset.prod_ne_zero_iff]
    intro i _
    exact h1 i i.2
  · intro i j hij
    exact h0 j i hij i.2

theorem allBlocks_some {f : Nat → Option (Lat F)} {nb : Nat} {l : List (Lat F)}
    (h : allBlocks f nb = some l) : l.length = nb ∧ ∀ k < nb, l[k]? = f k := by
  induction nb generalizing l with
  | zero => simp [allBlocks] at h; subst h; simp
  | succ nb ih =>
    simp only [allBlocks] at h
    split at h
    · rename_i l' b e1 e2
      injection h with h
      subst h
      obtain ⟨a1, a2⟩ := ih e1
      refine ⟨by simp [a1], fun k hk => ?_⟩
      rcases Nat.lt_succ_iff_lt_or_eq.mp hk with hk | rfl
      · rw [List.getElem?_append_left (by omega)]; exact a2 k hk
      · rw [List.getElem?_append_right (by omega), a1, e2]; simp
    · simp at h

/-- The transformation of a block is unimodular. -/
theorem blockReduce_unit (junk : F) (fuel : Nat) (δ : F) (d S dec lovmax : Nat) (sey vd : Int)
    (R : Mat F) (k : Nat) (hk : (k + 1) * (d / S) + dec ≤ d) (L : Lat F)
    (h : blockReduce o junk fuel δ d S dec lovmax sey vd (blockRZ c d R) k = some L) :
    IsUnit (toMatrix (d / S) (d / S) L.getU.M).det := by
  unfold blockReduce at h
  simp only [Option.map_eq_some_iff] at h
  obtain ⟨⟨st, L'⟩, h, rfl⟩ := h
  set w := d / S with hw
  have hrows : (getblockSq ⟨d, d, blockRZ c d R⟩ k k S dec).rows = w := rfl
  set M := (getblockSq ⟨d, d, blockRZ c d R⟩ k k S dec).M with hM
  rw [hrows] at h
  rw [Nat.succ_mul] at hk
  have hent : ∀ c' r, c' < w → r < w → M c' r = blockRZ c d R (k * w + c' + dec) (k * w + r + dec) := by
    intro c' r h1 h2
    rw [hM, getblockSq_apply, if_pos ⟨h1, h2⟩]
  have hfull : FullColumnRank (toMatrix w w M) := by
    apply fullRank_triangular
    · intro j i hji hi
      rw [hent j i (by omega) hi]
      unfold blockRZ
      rw [if_pos (by omega), if_pos (by omega)]
    · intro j hj
      rw [hent j j hj hj]
      unfold blockRZ
      rw [if_pos (by omega), if_neg (by omega)]
      split
      · simp
      · rename_i hne; intro h0; exact hne ⟨rfl, h0⟩
  have hI : LInv w w M True ((newLattice o junk w w M true sey true vd).setNblovMax lovmax) :=
    LInv.of_basis M True _ rfl rfl rfl rfl
      fun _ => ⟨rfl, rfl, hfull, Or.inl rfl⟩
  have hE := hlll_exit o fuel δ false _ L' st hI (le_refl _) h
  obtain ⟨W, hW, -, hU⟩ := hE.inv.uni
  have ht := hE.inv.tr trivial
  have : L'.getU.M = L'.U := by unfold Lat.getU; rw [ht]; rfl
  show IsUnit (toMatrix w w L'.getU.M).det
  rw [this, hU trivial]
  exact hW

/-! ### invariant of the object -/

/-- Lattice invariant of `SLattice`: the padded basis is `A` times a unimodular matrix; all entries of
`structure` are equal. -/
structure SI (n d : Nat) (A : Mat Int) (s0 s : Lat F) : Prop where
  inv : LInv n d A False s
  str : s.str = s0.str
  cfg : SameCfg s0 s

theorem SI.zsteps {n d : Nat} {A : Mat Int} {κ : Nat} {s0 s s' : Lat F} (h : SI n d A s0 s) (hκ : κ < d)
    (hz : ZSteps κ s s') : SI n d A s0 s' :=
  ⟨h.inv.zsteps hκ hz, hz.frame.str.trans h.str, h.cfg.trans' hz.frame.cfg⟩

theorem SI.axpyB {n d : Nat} {A : Mat Int} {κ i : Nat} {s0 s : Lat F} (h : SI n d A s0 s) (hκ : κ < d)
    (hi : i < κ) (e : Int) (l : Nat) (hl : nmaxOf s.str i ≤ l) :
    SI n d A s0 { s with B := axpy s.B κ i e l } := by
  refine ⟨?_, h.str, ⟨h.cfg.n, h.cfg.d, h.cfg.transf, h.cfg.kappaMax, h.cfg.nblovMax, h.cfg.numS,
    h.cfg.parThr, h.cfg.seysenFlag, h.cfg.fastLong, h.cfg.verboseDepth⟩⟩
  have h1 : LInv n d A False { s with numS := 2, parThr := -1 } := by
    obtain ⟨hn, hd, hlt, hmono, hsupp, hseq, husupp, htr, hW⟩ := h.inv
    exact ⟨hn, hd, hlt, hmono, hsupp, False.elim, husupp, htr, hW⟩
  have h2 := h1.zstep hκ (ZStep.pcol { s with numS := 2, parThr := -1 } i e l hi hl (by
    rintro (h | h)
    · exact absurd h (by simp)
    · have : (κ : Int) - 1 < -1 := h
      omega))
  obtain ⟨hn, hd, hlt, hmono, hsupp, hseq, husupp, htr, hW⟩ := h2
  exact ⟨hn, hd, hlt, hmono, hsupp, False.elim, False.elim, False.elim, hW⟩

/-! ### pseysen_update_B -/

/-- Multiplier applied by `pseysen_update_B`. -/
theorem psseyEntry_eq (fl : Bool) (xf x : F) (a b : Int) :
    psseyEntry o fl xf x a b = a + multOf o fl xf x * b := by
  unfold psseyEntry multOf
  simp only []
  repeat' split
  all_goals ring

/-- Contribution of a list of actions to row `r`. -/
def rowSum (coef : Nat → Int) (M : Mat Int) (r : Nat) (L : List (Nat × Nat)) : Int :=
  (L.map fun a => if a.2 = r then coef a.1 * M a.1 r else 0).sum

theorem exec_pssey (fl : Bool) (κ : Nat) (vx : Nat → F) (x : F) (L : List (Nat × Nat))
    (hL : ∀ a ∈ L, a.1 ≠ κ) (M : Mat Int) :
    execAll (psseyAct o fl κ vx x) L M = setCol M κ fun r =>
      M κ r + rowSum (fun i => multOf o fl (vx i) x) M r L := by
  induction L generalizing M with
  | nil =>
    funext j; by_cases hj : j = κ
    · subst hj; rw [setCol_same]; funext r; simp [execAll, rowSum]
    · rw [setCol_ne _ _ hj]; rfl
  | cons a L ih =>
    show execAll (psseyAct o fl κ vx x) L (psseyAct o fl κ vx x a M) = _
    rw [ih (fun b hb => hL b (by simp [hb]))]
    have ha := hL a (by simp)
    funext j; by_cases hj : j = κ
    · subst hj
      rw [setCol_same, setCol_same]
      funext r
      have e : rowSum (fun i => multOf o fl (vx i) x) (psseyAct o fl j vx x a M) r L =
          rowSum (fun i => multOf o fl (vx i) x) M r L := by
        unfold rowSum
        congr 1
        refine List.map_congr_left fun b hb => ?_
        simp only [psseyAct, setEntry]
        rw [setCol_ne _ _ (hL b (by simp [hb]))]
      rw [e]
      simp only [psseyAct, setEntry, setCol_same, psseyEntry_eq, rowSum, List.map_cons, List.sum_cons,
        setAt]
      by_cases hr : r = a.2
      · subst hr; simp; ring
      · simp [hr, Ne.symm hr]
    · rw [setCol_ne _ _ hj, setCol_ne _ _ hj]
      simp only [psseyAct, setEntry]
      rw [setCol_ne _ _ hj]

/-- Sum over the multipliers of a block. -/
def blockSum (coef : Nat → Int) (bd : Nat → Bool) (M : Mat Int) (restdim r : Nat) : Nat → Int
  | 0 => 0
  | m + 1 => (if bd (restdim + m) then 0 else coef (restdim + m) * M (restdim + m) r) +
      blockSum coef bd M restdim r m

/-- Column `κ` plus the sum, on rows `< l`. -/
def addBlk (coef : Nat → Int) (bd : Nat → Bool) (M : Mat Int) (κ restdim l m : Nat) : Mat Int :=
  setCol M κ fun r => if r < l then M κ r + blockSum coef bd M restdim r m else M κ r

theorem rowSum_append (coef : Nat → Int) (M : Mat Int) (r : Nat) (L L' : List (Nat × Nat)) :
    rowSum coef M r (L ++ L') = rowSum coef M r L + rowSum coef M r L' := by
  simp [rowSum]

theorem rowSum_rows (coef : Nat → Int) (M : Mat Int) (r i ibeg nloc : Nat) :
    rowSum coef M r ((List.range' ibeg nloc).map fun r => (i, r)) =
      if ibeg ≤ r ∧ r < ibeg + nloc then coef i * M i r else 0 := by
  induction nloc generalizing ibeg with
  | zero => rw [if_neg (by omega)]; rfl
  | succ nloc ih =>
    rw [List.range'_succ, List.map_cons]
    have : rowSum coef M r ((i, ibeg) :: (List.range' (ibeg + 1) nloc).map fun r => (i, r)) =
      (if ibeg = r then coef i * M i r else 0) +
        rowSum coef M r ((List.range' (ibeg + 1) nloc).map fun r => (i, r)) := by simp [rowSum]
    rw [this, ih]
    by_cases h : ibeg = r
    · subst h; rw [if_pos rfl, if_neg (by omega), if_pos (by omega), add_zero]
    · rw [if_neg h, zero_add]
      by_cases h2 : ibeg + 1 ≤ r ∧ r < ibeg + 1 + nloc
      · rw [if_pos h2, if_pos (by omega)]
      · rw [if_neg h2, if_neg (by omega)]

theorem rowSum_prog (coef : Nat → Int) (bd : Nat → Bool) (M : Mat Int) (r restdim ibeg nloc m : Nat) :
    rowSum coef M r (psseyProg restdim bd ibeg nloc m) =
      if ibeg ≤ r ∧ r < ibeg + nloc then blockSum coef bd M restdim r m else 0 := by
  induction m with
  | zero => simp [psseyProg, rowSum, blockSum]
  | succ m ih =>
    simp only [psseyProg, blockSum]
    rw [rowSum_append, ih]
    split
    · by_cases h : ibeg ≤ r ∧ r < ibeg + nloc
      · rw [if_pos h, if_pos h]; simp [rowSum]
      · rw [if_neg h, if_neg h]; simp [rowSum]
    · rw [rowSum_rows]
      by_cases h : ibeg ≤ r ∧ r < ibeg + nloc
      · simp only [h, and_self, if_true]
      · simp only [h, if_false]; rfl

theorem rowSum_threads (coef : Nat → Int) (bd : Nat → Bool) (M : Mat Int) (r restdim nmax S m k : Nat) :
    rowSum coef M r ((List.range k).map fun l =>
        psseyProg restdim bd (sliceBeg nmax S l) (sliceLen nmax S l) m).flatten =
      if r < sliceBeg nmax S k then blockSum coef bd M restdim r m else 0 := by
  induction k with
  | zero => rw [sliceBeg_zero, if_neg (by omega)]; rfl
  | succ k ih =>
    rw [List.range_succ, List.map_append, List.flatten_append, rowSum_append, ih]
    simp only [List.map_cons, List.map_nil, List.flatten_cons, List.flatten_nil, List.append_nil]
    rw [rowSum_prog, sliceBeg_succ]
    by_cases h1 : r < sliceBeg nmax S k
    · rw [if_pos h1, if_neg (by omega), if_pos (by omega), add_zero]
    · rw [if_neg h1, zero_add]
      by_cases h2 : sliceBeg nmax S k ≤ r ∧ r < sliceBeg nmax S k + sliceLen nmax S k
      · rw [if_pos h2, if_pos (by omega)]
      · rw [if_neg h2, if_neg (by omega)]

/-- `B` after `pseysen_update_B`, for every schedule. -/
theorem pssey_eff {σ : Sched} (hσ : σ.Ok) (key : List Nat) (fl : Bool) (κ restdim m S nmax : Nat)
    (hS : 0 < S) (hm : restdim + m ≤ κ) (vx : Nat → F) (x : F) (bd : Nat → Bool) (M : Mat Int) :
    execAll (psseyAct o fl κ vx x) (σ.rows key (psseyThreads nmax S restdim m bd)) M =
      addBlk (fun i => multOf o fl (vx i) x) bd M κ restdim nmax m := by
  rw [pssey_sched o hσ key fl κ restdim m S nmax hm, exec_pssey]
  · unfold addBlk
    congr 1
    funext r
    unfold psseyThreads
    rw [rowSum_threads, sliceBeg_S _ _ hS]
    split
    · rfl
    · rw [add_zero]
  · intro a ha
    obtain ⟨P, hP, ha⟩ := List.mem_flatten.mp ha
    obtain ⟨l, -, rfl⟩ := List.mem_map.mp hP
    have := mem_psseyProg ha
    omega

theorem SI.addBlock {n d : Nat} {A : Mat Int} {κ : Nat} {s0 : Lat F} (hκ : κ < d) (coef : Nat → Int)
    (bd : Nat → Bool) (restdim l m : Nat) (hm : restdim + m ≤ κ) (s : Lat F)
    (h : SI n d A s0 s) (hl : ∀ i < restdim + m, nmaxOf s.str i ≤ l) :
    SI n d A s0 { s with B := addBlk coef bd s.B κ restdim l m } := by
  induction m generalizing s with
  | zero =>
    have : addBlk coef bd s.B κ restdim l 0 = s.B := by
      unfold addBlk
      funext j; by_cases hj : j = κ
      · subst hj; rw [setCol_same]; funext r; simp [HPLLL.blockSum]
      · rw [setCol_ne _ _ hj]
    rw [this]; exact h
  | succ m ih =>
    by_cases hb : bd (restdim + m) = true
    · simp only [addBlk, HPLLL.blockSum, hb, if_true, zero_add]
      exact ih (by omega) s h (fun i hi => hl i (by omega))
    · have h1 := h.axpyB hκ (i := restdim + m) (by omega) (coef (restdim + m)) l (hl _ (by omega))
      have h2 := ih (by omega) _ h1 (fun i hi => hl i (by omega))
      refine cast ?_ h2
      congr 2
      unfold addBlk
      simp only [HPLLL.blockSum]
      have hbs : ∀ r m', m' ≤ m → HPLLL.blockSum coef bd (axpy s.B κ (restdim + m) (coef (restdim + m)) l)
          restdim r m' = HPLLL.blockSum coef bd s.B restdim r m' := by
        intro r m' hm'
        induction m' with
        | zero => rfl
        | succ m' ih' =>
          simp only [HPLLL.blockSum]
          rw [ih' (by omega), axpy, setCol_ne _ _ (by omega)]
      funext j; by_cases hj : j = κ
      · subst hj
        simp only [setCol_same]
        funext r
        rw [hbs r m (le_refl _)]
        simp only [hb, axpy, setCol_same]
        split
        · simp; ring
        · rfl
      · rw [setCol_ne _ _ hj, setCol_ne _ _ hj, axpy, setCol_ne _ _ hj]

theorem nmaxOf_le_psseyNmax (str : Nat → Int) (restdim m i : Nat) (h0 : restdim ≤ i)
    (h : i ≤ restdim + m) : nmaxOf str i ≤ psseyNmax str restdim m := by
  unfold nmaxOf psseyNmax
  have := (foldl_max_le str (List.range' restdim (m + 1)) (str (restdim + m - 1))).2 i
    (by rw [List.mem_range'_1]; omega)
  omega

/-! ### Seysen reduction -/

theorem sseyUpdate_zs {κ restdim : Nat} (vx : Nat → F) (bd : Nat → Bool) (m : Nat) (h : restdim + m ≤ κ)
    (s : Lat F) : ZSteps κ s (sseyUpdate o κ restdim vx bd m s) := by
  induction m generalizing s with
  | zero => exact .refl
  | succ m ih =>
    refine Relation.ReflTransGen.trans ?_ (ih (by omega) _)
    unfold sseyUpdateStep
    split
    · exact .refl
    · apply ZStep.single
      simp only [redZ_eq]
      exact ZStep.col s _ _ _ _ (by omega)

theorem sseyUpdateR_fp {κ restdim : Nat} (vx : Nat → F) (bd : Nat → Bool) (m : Nat) (s : Lat F) :
    ∃ p b, sseyUpdateR o κ restdim vx bd m s = { s with fp := p, ub := b } := by
  induction m generalizing s with
  | zero => exact ⟨_, _, rfl⟩
  | succ m ih =>
    simp only [sseyUpdateR]
    split
    · exact ih s
    · obtain ⟨p, b, h⟩ := ih { s with
          fp := { s.fp with R := redR o κ (restdim + m) restdim (vx (restdim + m)) s.fp.R }
          ub := s.ub || !(decide (κ < s.d ∧ restdim + m < s.d ∧ restdim ≤ s.n)) }
      exact ⟨p, b, h⟩

theorem sseySolve_s (R : Mat F) (restdim m : Nat) (q : SSey F) : (sseySolve o c R restdim m q).s = q.s := by
  induction m generalizing q with
  | zero => rfl
  | succ m ih => simp only [sseySolve]; rw [ih]

theorem SI.psseyUpdateB {n d : Nat} {A : Mat Int} {κ : Nat} {s0 s : Lat F} {σ : Sched} (hσ : σ.Ok)
    (hκ : κ < d) (h : SI n d A s0 s) (key : List Nat) (restdim m : Nat) (hm : restdim + m ≤ κ)
    (vx : Nat → F) (bd : Nat → Bool) (hstr : ∀ i j, s0.str i = s0.str j) :
    SI n d A s0 (psseyUpdateB o σ key κ restdim m 2 vx bd s) := by
  unfold HPLLL.psseyUpdateB
  simp only []
  rw [pssey_eff o hσ key s.fastLong κ restdim m 2 _ (by omega) hm]
  have h1 := SI.addBlock hκ (fun i => multOf o s.fastLong (vx i) s.fp.x) bd restdim
    (psseyNmax s.str restdim m) m hm s h (fun i hi => by
      rcases Nat.lt_or_ge i restdim with hir | hir
      · have := nmaxOf_le_psseyNmax s.str restdim m restdim (le_refl _) (by omega)
        have e : nmaxOf s.str i = nmaxOf s.str restdim := by
          unfold nmaxOf; rw [h.str, hstr i restdim]
        omega
      · exact nmaxOf_le_psseyNmax _ _ _ _ hir (by omega))
  exact ⟨h1.inv.congr rfl rfl rfl rfl rfl rfl rfl rfl, h1.str,
    ⟨h1.cfg.n, h1.cfg.d, h1.cfg.transf, h1.cfg.kappaMax, h1.cfg.nblovMax, h1.cfg.numS, h1.cfg.parThr,
      h1.cfg.seysenFlag, h1.cfg.fastLong, h1.cfg.verboseDepth⟩⟩

theorem SI.fp {n d : Nat} {A : Mat Int} {s0 s : Lat F} (h : SI n d A s0 s) (p : FPart F) (b : Bool) :
    SI n d A s0 { s with fp := p, ub := b } :=
  ⟨h.inv.congr rfl rfl rfl rfl rfl rfl rfl rfl, h.str,
    ⟨h.cfg.n, h.cfg.d, h.cfg.transf, h.cfg.kappaMax, h.cfg.nblovMax, h.cfg.numS, h.cfg.parThr,
      h.cfg.seysenFlag, h.cfg.fastLong, h.cfg.verboseDepth⟩⟩

section reduce
variable {n d : Nat} {A : Mat Int} {s0 : Lat F} {σ : Sched} (hσ : σ.Ok)
  (hstr : ∀ i j, s0.str i = s0.str j)
include hσ hstr

theorem SI.sseyBlock {κ : Nat} (hκ : κ < d) (key : List Nat) (ld ind : Nat) (q : SSey F)
    (h : SI n d A s0 q.s) : SI n d A s0 (sseyBlock o c σ key κ ld ind q).s := by
  unfold HPLLL.sseyBlock
  simp only []
  generalize (if κ / ld % 2 = 0 then 0 else ld) = bdim
  split
  · simp only [sseySolve_s]
    exact h.zsteps hκ (sseyUpdate_zs o _ _ _ (by omega) _)
  · simp only [sseySolve_s]
    refine SI.psseyUpdateB o hσ hκ ?_ _ _ _ (by omega) _ _ hstr
    generalize hvx : (fun i => if κ - ind - bdim ≤ i ∧ i < κ - ind then o.rnd (_) else _) = vx
    obtain ⟨p, b, e⟩ := sseyUpdateR_fp o (κ := κ) (restdim := κ - ind - bdim) vx
      (sseySolve o c q.s.fp.R (κ - ind - bdim) (κ - ind - (κ - ind - bdim)) { q with tmpcol := _ }).bounded
      (κ - ind - (κ - ind - bdim)) q.s
    rw [e]
    exact h.fp p b

theorem SI.sseyBlocks {κ : Nat} (hκ : κ < d) (key : List Nat) (fuel ld ind : Nat) (q : SSey F)
    (h : SI n d A s0 q.s) : SI n d A s0 (sseyBlocks o c σ key κ fuel ld ind q).s := by
  induction fuel generalizing ld ind q with
  | zero => exact h
  | succ fuel ih =>
    simp only [HPLLL.sseyBlocks]
    split
    · exact ih _ _ _ (SI.sseyBlock o c hσ hstr hκ key ld ind q h)
    · exact h

theorem SI.sseyLoop {κ : Nat} (hκ : κ < d) (key : List Nat) (fuel : Nat) (q : SSey F)
    (h : SI n d A s0 q.s) (s' : Lat F) (hr : sseyLoop o c σ key κ fuel q = some s') :
    SI n d A s0 s' := by
  induction fuel generalizing q with
  | zero => simp [HPLLL.sseyLoop] at hr
  | succ fuel ih =>
    simp only [HPLLL.sseyLoop] at hr
    have h1 := SI.sseyBlocks o c hσ hstr hκ (fuel :: key) (κ + 1) 1 0 { q with somedone := false } h
    split at hr
    · refine ih _ ?_ hr
      exact (h1.fp _ _).fp _ _
    · injection hr with hr; rw [← hr]; exact h1

theorem SI.sreduceCol {i : Nat} (hi : i < d) (hi0 : 0 < i) (key : List Nat) (fuel : Nat) (s : Lat F)
    (h : SI n d A s0 s) (s' : Lat F) (hr : sreduceCol o c σ key fuel i s = some s') :
    SI n d A s0 s' := by
  unfold HPLLL.sreduceCol at hr
  split at hr
  · simp only [Option.map_eq_some_iff] at hr
    obtain ⟨⟨st, s1⟩, hr, rfl⟩ := hr
    exact h.zsteps hi (hsizereduce_zs _ hi0 fuel 0 s st s1 hr)
  · exact SI.sseyLoop o c hσ hstr hi _ _ _ (h.fp _ _) _ hr

theorem SI.gapLoop (key : List Nat) (fuel dorigin : Nat) (k : Nat) : ∀ (i : Nat) (s : Lat F),
    0 < i → i + k ≤ d → i + k ≤ max dorigin 1 → SI n d A s0 s → ∀ g s',
    gapLoop o c σ key fuel dorigin k i s = some (g, s') →
    SI n d A s0 s' ∧ (g = 0 ∨ 3 ≤ g ∧ g < dorigin) := by
  induction k with
  | zero =>
    intro i s _ _ _ h g s' hr
    simp only [HPLLL.gapLoop, Option.some.injEq, Prod.mk.injEq] at hr
    obtain ⟨rfl, rfl⟩ := hr
    exact ⟨h, Or.inl rfl⟩
  | succ k ih =>
    intro i s hi hd hdo h g s' hr
    simp only [HPLLL.gapLoop] at hr
    split at hr
    · simp at hr
    · rename_i s1 hs1
      have h1 := SI.sreduceCol o c hσ hstr (by omega) hi key fuel s h s1 hs1
      have h2 : SI n d A s0 (s1.hhV o i) := h1.fp _ _
      split at hr
      · rename_i hg
        simp only [Option.some.injEq, Prod.mk.injEq] at hr
        obtain ⟨rfl, rfl⟩ := hr
        exact ⟨h2, Or.inr ⟨by omega, by omega⟩⟩
      · exact ih (i + 1) _ (by omega) (by omega) (by omega) h2 g s' hr

end reduce

/-! ### a phase -/

/-- Invariant of an `SLattice` object with respect to the object `L0`. -/
structure SObj (n d : Nat) (A : Mat Int) (L0 L : SLat F) : Prop where
  si : SI n d A L0.lat L.lat
  norigin : L.norigin = L0.norigin
  dorigin : L.dorigin = L0.dorigin
  amax : L.amax = L0.amax

theorem SI.lattice {n d : Nat} {A : Mat Int} {s0 s : Lat F} (h : SI n d A s0 s)
    (hstr : ∀ i j, s0.str i = s0.str j) (B' U' : Mat Int) (k1 k2 : Nat) (ub : Bool)
    (W : Matrix (Fin d) (Fin d) ℤ) (hW : IsUnit W.det)
    (e : toMatrix n d B' = toMatrix n d s.B * W) :
    SI n d A s0 { s with B := B', U := U', nbswaps := k1, nblov := k2, ub := ub } := by
  obtain ⟨hn, hd, hlt, hmono, hsupp, hseq, husupp, htr, W0, hW0, hB, hU⟩ := h.inv
  refine ⟨⟨hn, hd, hlt, hmono, ?_, False.elim, False.elim, False.elim, W0 * W, ?_, ?_, False.elim⟩,
    h.str, ⟨h.cfg.n, h.cfg.d, h.cfg.transf, h.cfg.kappaMax, h.cfg.nblovMax, h.cfg.numS, h.cfg.parThr,
      h.cfg.seysenFlag, h.cfg.fastLong, h.cfg.verboseDepth⟩⟩
  · intro j hj r hr hs
    have := congrFun (congrFun e ⟨r, hr⟩) ⟨j, hj⟩
    rw [Matrix.mul_apply] at this
    simp only [toMatrix, of_apply] at this
    show B' j r = 0
    rw [this]
    refine Finset.sum_eq_zero fun k _ => ?_
    rw [hsupp k k.2 r hr, zero_mul]
    have : s.str j < r := hs
    rw [h.str] at this ⊢
    rw [hstr k j]; exact this
  · rw [det_mul]; exact hW0.mul hW
  · rw [e, hB, Matrix.mul_assoc]

theorem SObj.sphase {n d : Nat} {A : Mat Int} {L0 L : SLat F} {σ : Sched} (hσ : σ.Ok)
    (hstr : ∀ i j, L0.lat.str i = L0.lat.str j) (hdo : L0.dorigin ≤ d) (hd0 : 0 < d)
    (h : SObj n d A L0 L) (junk : F) (key : List Nat) (fuel : Nat) (δ : F) (S lovmax : Nat) (hS : 0 < S)
    (odd : Bool) (st : Bool) (g : Nat) (L' : SLat F)
    (hr : sphase o c σ junk key fuel δ S lovmax odd L = some (st, g, L')) :
    SObj n d A L0 L' ∧ (g = 0 ∨ 3 ≤ g ∧ g < L0.dorigin) := by
  have hLn : L.lat.n = n := h.si.inv.hn
  have hLd : L.lat.d = d := h.si.inv.hd
  subst hLn hLd
  unfold HPLLL.sphase at hr
  simp only [] at hr
  set d := L.lat.d with hddef
  set n := L.lat.n with hndef
  split at hr
  · simp at hr
  rename_i BRs hBR
  set w := d / S with hw
  set dec := (if odd then d / (2 * S) else 0) with hdec
  set nb := (if odd then S - 1 else S) with hnb
  set Us : Nat → Mat Int := blockUs BRs with hUs
  set U := sput σ key d S dec nb Us (fun _ _ => 0) with hU
  have hdw : d / (2 * S) = w / 2 := by rw [hw, Nat.mul_comm 2 S, Nat.div_div_eq_div_mul]
  have hSw : S * w ≤ d := Nat.mul_div_le d S
  have hfit : dec + nb * w ≤ d := by
    simp only [hdec, hnb]
    cases odd
    · simp only [Bool.false_eq_true, if_false]; omega
    · simp only [if_true]
      clear_value w
      have : S * w = (S - 1) * w + w := by
        conv_lhs => rw [show S = (S - 1) + 1 by omega]
        rw [Nat.succ_mul]
      omega
  obtain ⟨hlen, hall⟩ := allBlocks_some hBR
  have hps : ∀ b, pshift w b odd = b * w + dec := by
    intro b; unfold pshift; rw [hdec, hdw]
  obtain ⟨p1, -⟩ := sput_apply hσ key d S dec nb Us (fun _ _ => 0)
  obtain ⟨m1, m2⟩ := spmatprod_apply hσ key n w nb odd U L.lat.B
  obtain ⟨W, hW, e⟩ := mul_blocks n d w nb dec hfit U L.lat.B (spmatprod σ key n w nb odd U L.lat.B)
    (by
      intro b hb
      have : (toMatrix w w fun j i => U (b * w + dec + j) (b * w + dec + i)) = toMatrix w w (Us b) := by
        ext i j
        exact p1 b hb j j.2 i i.2
      rw [this]
      have hb' := hall b hb
      have hlt : b < BRs.length := by omega
      rw [List.getElem?_eq_getElem hlt] at hb'
      have hUb : Us b = BRs[b].getU.M := by
        simp only [hUs, blockUs, List.getElem?_eq_getElem hlt]
      rw [hUb]
      refine blockReduce_unit o c junk fuel δ d S dec lovmax _ _ _ b ?_ _ hb'.symm
      have : (b + 1) * w ≤ nb * w := Nat.mul_le_mul_right _ hb
      show (b + 1) * w + dec ≤ d
      omega)
    (by
      intro b hb c' r hr g1 g2
      have := m1 b hb c' r hr (by rw [hps]; exact g1) (by rw [hps]; exact g2)
      rw [hps] at this
      exact this)
    (by
      intro c' r hn
      refine m2 c' r fun b hb => ?_
      rw [hps]; exact hn b hb)
  split at hr
  · simp at hr
  rename_i g' L1 hg
  simp only [Option.some.injEq, Prod.mk.injEq] at hr
  obtain ⟨-, rfl, rfl⟩ := hr
  have hs1 := h.si.lattice hstr (spmatprod σ key n w nb odd U L.lat.B) U
    (σ.race key L.lat.nbswaps (BRs.map (·.nbswaps))) (L.lat.nblov + (BRs.map (·.nblov)).sum)
    (L.lat.ub || BRs.any (·.ub) || !sphaseIdx n d S nb dec L.swapLen odd) W hW e
  unfold reduceAndGap at hg
  simp only [Option.map_eq_some_iff] at hg
  obtain ⟨⟨g2, s2⟩, hg, hh⟩ := hg
  simp only [Prod.mk.injEq] at hh
  obtain ⟨rfl, rfl⟩ := hh
  have h3 := SI.gapLoop o c hσ hstr key fuel L.dorigin (L.dorigin - 1) 1 _ (by omega)
    (by rw [h.dorigin]; omega) (by omega) (((hs1.fp _ _).fp _ _).fp _ _) g2 s2 hg
  rw [h.dorigin] at h3
  refine ⟨?_, h3.2⟩
  split
  · exact ⟨h3.1, h.norigin, h.dorigin, h.amax⟩
  · exact ⟨h3.1.fp _ _, h.norigin, h.dorigin, h.amax⟩

theorem SObj.sphases {n d : Nat} {A : Mat Int} {L0 : SLat F} {σ : Sched} (hσ : σ.Ok)
    (hstr : ∀ i j, L0.lat.str i = L0.lat.str j) (hdo : L0.dorigin ≤ d) (hd0 : 0 < d)
    (junk δ : F) (S lovmax : Nat) (hS : 0 < S) (fuel : Nat) (L : SLat F) (h : SObj n d A L0 L)
    (g : Nat) (L' : SLat F) (hr : sphases o c σ junk δ S lovmax fuel L = some (g, L')) :
    SObj n d A L0 L' ∧ (g = 0 ∨ 3 ≤ g ∧ g < L0.dorigin) := by
  induction fuel generalizing L with
  | zero => simp [HPLLL.sphases] at hr
  | succ fuel ih =>
    simp only [HPLLL.sphases] at hr
    split at hr
    · simp at hr
    rename_i st0 g0 L1 h0
    obtain ⟨a1, a2⟩ := h.sphase o c hσ hstr hdo hd0 _ _ _ _ _ _ hS _ _ _ _ h0
    split at hr
    · simp only [Option.some.injEq, Prod.mk.injEq] at hr
      obtain ⟨rfl, rfl⟩ := hr
      exact ⟨a1, a2⟩
    split at hr
    · simp at hr
    rename_i st1 g1 L2 h1
    obtain ⟨b1, b2⟩ := a1.sphase o c hσ hstr hdo hd0 _ _ _ _ _ _ hS _ _ _ _ h1
    split at hr
    · simp only [Option.some.injEq, Prod.mk.injEq] at hr
      obtain ⟨rfl, rfl⟩ := hr
      exact ⟨b1, b2⟩
    split at hr
    · simp only [Option.some.injEq, Prod.mk.injEq] at hr
      obtain ⟨rfl, rfl⟩ := hr
      exact ⟨b1, Or.inl rfl⟩
    · exact ih L2 b1 hr

/-- `hlll` of a freshly built `SLattice`. -/
theorem slll_exit {σ : Sched} (hσ : σ.Ok) (n d : Nat) (hd : 0 < d) (A : Mat Int) (S0 : Nat)
    (forU : Bool) (method : Int) (lf : Bool) (vd : Int) (junk : F) (fuel : Nat) (δ : F)
    (S lovmax : Nat) (hS : 0 < S) (g : Nat) (L' : SLat F)
    (hr : (newSLattice o junk n d A S0 forU method lf vd).hlll o c σ junk fuel δ S lovmax = some (g, L')) :
    (∃ W : Matrix (Fin (d + padLen d S0)) (Fin (d + padLen d S0)) ℤ, IsUnit W.det ∧
      toMatrix (n + padLen d S0) (d + padLen d S0) L'.lat.B =
        toMatrix (n + padLen d S0) (d + padLen d S0) (padBasis n d S0 A) * W) ∧
    (g = 0 ∨ 3 ≤ g ∧ g < d) ∧ L'.norigin = n ∧ L'.dorigin = d ∧ L'.lat.verboseDepth = vd ∧
      L'.lat.transf = forU ∧ L'.lat.n = n + padLen d S0 ∧ L'.lat.d = d + padLen d S0 := by
  unfold SLat.hlll at hr
  simp only [] at hr
  split at hr
  · simp at hr
  rename_i g1 L1 h1
  simp only [Option.some.injEq, Prod.mk.injEq] at hr
  obtain ⟨rfl, rfl⟩ := hr
  set L0 := newSLattice o junk n d A S0 forU method lf vd with hL0
  set LV : SLat F := { L0 with lat := { L0.lat with verboseDepth := L0.lat.verboseDepth - 1 } } with hLV
  set N := n + padLen d S0 with hN
  set D := d + padLen d S0 with hD
  set B := padBasis n d S0 A with hB
  have hLI : LInv N D B False L0.lat := by
    refine ⟨rfl, rfl, ?_, fun _ _ _ _ => le_refl _, ?_, False.elim, False.elim, False.elim, 1, by simp,
      (Matrix.mul_one _).symm, False.elim⟩
    · intro j _; exact matrixStructure_lt N B (D - 1)
    · intro j hj r hr hs
      have h1 : matrixStructure N B (D - 1) < r := hs
      have h2 := matrixStructure_mono N B (i := j) (j := D - 1) (by omega)
      exact matrixStructure_supp N B j r hr (by omega)
  have hO : SObj N D B LV ((LV.householder o).padR o) := by
    refine ⟨?_, rfl, rfl, rfl⟩
    exact ⟨hLI.congr rfl rfl rfl rfl rfl rfl rfl rfl, rfl, by constructor <;> rfl⟩
  obtain ⟨a, b⟩ := SObj.sphases o c hσ (fun i j => rfl) (by show d ≤ D; omega) (by omega) junk δ S lovmax hS
    fuel _ hO g1 L1 h1
  obtain ⟨W, hW, e, -⟩ := a.si.inv.uni
  refine ⟨⟨W, hW, e⟩, b, a.norigin, a.dorigin, ?_, a.si.cfg.transf, a.si.cfg.n, a.si.cfg.d⟩
  show L1.lat.verboseDepth + 1 = vd
  rw [a.si.cfg.verboseDepth]
  show vd - 1 + 1 = vd
  omega

end HPLLL
