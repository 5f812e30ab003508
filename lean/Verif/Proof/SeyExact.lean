import Verif.Proof.ExactMain
import Verif.Proof.Safe
import Verif.Model.Hlllp
/-! Seysen reduction of a column in exact arithmetic: what the blocks achieve. -/

namespace HPLLL
open Spec Finset

variable {o : FPOps ℝ}

/-- First row of block `t` (for bit `t` of `κ`). -/
def seyLo (κ t : ℕ) : ℕ := κ - κ % 2 ^ (t + 1)
/-- End of block `t`. -/
def seyHi (κ t : ℕ) : ℕ := κ - κ % 2 ^ t

theorem seyLo_eq (κ t : ℕ) : seyLo κ t = seyHi κ (t + 1) := rfl

theorem seyLo_le (κ t : ℕ) : seyLo κ t ≤ seyHi κ t := by
  have := (seysen_offset κ t).1
  unfold seyLo seyHi; omega

theorem seyHi_anti (κ : ℕ) {t u : ℕ} (h : t ≤ u) : seyHi κ u ≤ seyHi κ t := by
  induction u, h using Nat.le_induction with
  | base => exact le_refl _
  | succ u _ ih => exact (seyLo_le κ u).trans ih

theorem seyHi_le (κ t : ℕ) : seyHi κ t ≤ κ := Nat.sub_le _ _

/-- The column `T` on rows `[lo,hi)` is `R_block x` with `|x| ≤ c`. -/
def BlkOK (c : ℝ) (R : Mat ℝ) (T : ℕ → ℝ) (lo hi : ℕ) : Prop :=
  ∃ x : ℕ → ℝ, (∀ j, lo ≤ j → j < hi → |x j| ≤ c) ∧
    ∀ r, lo ≤ r → r < hi → T r = ∑ j ∈ Ico r hi, R j r * x j

theorem BlkOK.congr {c : ℝ} {R R' : Mat ℝ} {T T' : ℕ → ℝ} {lo hi : ℕ} (h : BlkOK c R T lo hi)
    (hR : ∀ j, lo ≤ j → j < hi → R' j = R j) (hT : ∀ r, lo ≤ r → r < hi → T' r = T r) :
    BlkOK c R' T' lo hi := by
  obtain ⟨x, h1, h2⟩ := h
  refine ⟨x, h1, fun r a b => ?_⟩
  rw [hT r a b, h2 r a b]
  refine sum_congr rfl fun j hj => ?_
  have := mem_Ico.mp hj
  rw [hR j (by omega) (by omega)]

theorem BlkOK.mono {c c' : ℝ} {R : Mat ℝ} {T : ℕ → ℝ} {lo hi : ℕ} (h : BlkOK c R T lo hi)
    (hc : c ≤ c') : BlkOK c' R T lo hi := by
  obtain ⟨x, h1, h2⟩ := h
  exact ⟨x, fun j a b => (h1 j a b).trans hc, h2⟩

/-- Column `κ` is Seysen-reduced with constant `c`. -/
def SeyRed (c : ℝ) (κ : ℕ) (R : Mat ℝ) : Prop :=
  ∀ t, BlkOK c R (R κ) (seyLo κ t) (seyHi κ t)

theorem SeyRed.mono {c c' : ℝ} {κ : ℕ} {R : Mat ℝ} (h : SeyRed c κ R) (hc : c ≤ c') :
    SeyRed c' κ R := fun t => (h t).mono hc

/-! ### The triangular solve -/

/-- `vectx` solves the triangular system of the block. -/
theorem seysenSolve_spec (ho : Exact o) (R : Mat ℝ) (lo m : ℕ)
    (hd : ∀ j, lo ≤ j → j < lo + m → R j j ≠ 0) :
    ∀ q : (ℕ → ℝ) × (ℕ → ℝ),
      (∀ j, lo + m ≤ j → (seysenSolve o R lo m q).2 j = q.2 j) ∧
      (∀ r, lo ≤ r → r < lo + m →
        q.1 r = ∑ j ∈ Ico r (lo + m), R j r * (seysenSolve o R lo m q).2 j) := by
  induction m with
  | zero => intro q; exact ⟨fun _ _ => rfl, fun r h1 h2 => by omega⟩
  | succ m ih =>
    intro q
    simp only [seysenSolve]
    obtain ⟨a, b⟩ := ih (fun j h1 h2 => hd j h1 (by omega))
      (fun k => if lo ≤ k ∧ k < lo + m then
        o.submul (q.1 k) (R (lo + m) k) (o.div (q.1 (lo + m)) (R (lo + m) (lo + m))) else q.1 k,
       setAt q.2 (lo + m) (o.div (q.1 (lo + m)) (R (lo + m) (lo + m))))
    set y := (seysenSolve o R lo m _).2 with hy
    have ytop : y (lo + m) = q.1 (lo + m) / R (lo + m) (lo + m) := by
      rw [a _ (le_refl _)]; simp only []; rw [setAt_same, ho.div]
    refine ⟨fun j hj => ?_, fun r h1 h2 => ?_⟩
    · rw [a j (by omega)]; simp only []; rw [setAt_ne _ _ (by omega)]
    · rw [show lo + (m + 1) = lo + m + 1 by omega, sum_Ico_succ_top (by omega)]
      by_cases hr : r = lo + m
      · subst hr
        rw [Ico_self, sum_empty, ytop, zero_add]
        have := hd (lo + m) (by omega) (by omega)
        field_simp
      · have := b r h1 (by omega)
        simp only [] at this
        rw [if_pos ⟨h1, by omega⟩, ho.submul, ho.div, ← ytop] at this
        linarith

/-- Uniqueness: on a column already of the form `R x`, the solve returns `x`. -/
theorem seysenSolve_unique (ho : Exact o) (R : Mat ℝ) (lo m : ℕ) (x : ℕ → ℝ)
    (hd : ∀ j, lo ≤ j → j < lo + m → R j j ≠ 0) :
    ∀ q : (ℕ → ℝ) × (ℕ → ℝ),
      (∀ r, lo ≤ r → r < lo + m → q.1 r = ∑ j ∈ Ico r (lo + m), R j r * x j) →
      ∀ j, lo ≤ j → j < lo + m → (seysenSolve o R lo m q).2 j = x j := by
  intro q hq
  obtain ⟨_, b⟩ := seysenSolve_spec ho R lo m hd q
  -- downward induction
  have key : ∀ k j, lo ≤ j → j < lo + m → lo + m - j ≤ k → (seysenSolve o R lo m q).2 j = x j := by
    intro k
    induction k with
    | zero => intro j h1 h2 h3; omega
    | succ k ih =>
      intro j h1 h2 h3
      have e1 := b j h1 h2
      rw [hq j h1 h2, sum_eq_sum_Ico_succ_bot h2, sum_eq_sum_Ico_succ_bot h2] at e1
      have e2 : ∑ i ∈ Ico (j + 1) (lo + m), R i j * (seysenSolve o R lo m q).2 i =
          ∑ i ∈ Ico (j + 1) (lo + m), R i j * x i := by
        refine sum_congr rfl fun i hi => ?_
        have := mem_Ico.mp hi
        rw [ih i (by omega) (by omega) (by omega)]
      rw [e2] at e1
      have := hd j h1 h2
      exact (mul_left_cancel₀ this (by linarith)).symm
  intro j h1 h2
  exact key _ j h1 h2 (le_refl _)

/-! ### The update of a block -/

/-- State while the columns `≥ lo+m` of the block `[lo,hi)` have been applied. `T0` is the exact
column at the beginning of the block, `y` the solution of the system. -/
structure UpdSt (c : ℝ) (n κ lo hi m : ℕ) (V : Mat ℝ) (B0 : Mat Int) (R0 : Mat ℝ) (T0 y : ℕ → ℝ)
    (B : Mat Int) (R : Mat ℝ) : Prop where
  Bc : ∀ c, c ≠ κ → B c = B0 c
  Rc : ∀ c, c ≠ κ → R c = R0 c
  tr : ∀ r < lo, R κ r = Ex.app n V κ (bv n B κ) r
  blk : ∃ z : ℕ → ℝ, (∀ j, lo ≤ j → j < lo + m → z j = y j) ∧
    (∀ j, lo + m ≤ j → j < hi → |z j| ≤ c) ∧
    ∀ r, lo ≤ r → r < hi → Ex.app n V κ (bv n B κ) r = ∑ j ∈ Ico r hi, R0 j r * z j
  up : ∀ r, hi ≤ r → Ex.app n V κ (bv n B κ) r = T0 r

theorem UpdSt.skip {c : ℝ} {n κ lo hi m : ℕ} {V : Mat ℝ} {B0 B : Mat Int} {R0 R : Mat ℝ}
    {T0 y : ℕ → ℝ} (h : UpdSt c n κ lo hi (m + 1) V B0 R0 T0 y B R) (hy : |y (lo + m)| ≤ c) :
    UpdSt c n κ lo hi m V B0 R0 T0 y B R := by
  obtain ⟨z, z1, z2, z3⟩ := h.blk
  refine ⟨h.Bc, h.Rc, h.tr, ⟨z, fun j a b => z1 j a (by omega), fun j a b => ?_, z3⟩, h.up⟩
  by_cases hj : j = lo + m
  · subst hj; rw [z1 _ (by omega) (by omega)]; exact hy
  · exact z2 j (by omega) b

theorem UpdSt.step {c : ℝ} {n κ lo hi m l : ℕ} {str : ℕ → ℤ} {V : Mat ℝ} {B0 B : Mat Int}
    {R0 R : Mat ℝ} {T0 y : ℕ → ℝ} (hq : QRv n str B0 V R0 κ) (hm : lo + m < hi) (hhi : hi ≤ κ)
    (h : UpdSt c n κ lo hi (m + 1) V B0 R0 T0 y B R)
    (hl : ∀ r, l ≤ r → r < n → B0 (lo + m) r = 0) (k : ℤ) (hk : |y (lo + m) - k| ≤ c) :
    UpdSt c n κ lo hi m V B0 R0 T0 y (axpy B κ (lo + m) (-k) l)
      (setCol R κ fun r => if r < lo then R κ r - k * R (lo + m) r else R κ r) := by
  have hRm : R (lo + m) = R0 (lo + m) := h.Rc _ (by omega)
  have hBm : B (lo + m) = B0 (lo + m) := h.Bc _ (by omega)
  have happ : ∀ r, Ex.app n V κ (bv n (axpy B κ (lo + m) (-k) l) κ) r =
      Ex.app n V κ (bv n B κ) r - k * (if r ≤ lo + m then R0 (lo + m) r else 0) := by
    intro r
    rw [bv_axpy B k (by rw [hBm]; exact hl), Ex.app_add, Ex.app_smul]
    have hb : bv n B (lo + m) = bv n B0 (lo + m) := by unfold bv; rw [hBm]
    simp only []
    rw [hb, hq.app_eq (lo + m) (by omega)]
    ring
  constructor
  · intro c hc; unfold axpy; rw [setCol_ne _ _ hc]; exact h.Bc c hc
  · intro c hc; rw [setCol_ne _ _ hc]; exact h.Rc c hc
  · intro r hr
    rw [setCol_same, if_pos hr, happ, if_pos (by omega), h.tr r hr, hRm]
  · obtain ⟨z, z1, z2, z3⟩ := h.blk
    refine ⟨setAt z (lo + m) (z (lo + m) - k), fun j a b => ?_, fun j a b => ?_, fun r a b => ?_⟩
    · rw [setAt_ne _ _ (by omega)]; exact z1 j a (by omega)
    · by_cases hj : j = lo + m
      · subst hj; rw [setAt_same, z1 _ (by omega) (by omega)]; exact hk
      · rw [setAt_ne _ _ hj]; exact z2 j (by omega) b
    · rw [happ, z3 r a b]
      by_cases hr : r ≤ lo + m
      · rw [if_pos hr]
        have hmem : lo + m ∈ Ico r hi := mem_Ico.mpr ⟨hr, hm⟩
        rw [← add_sum_erase _ _ hmem, ← add_sum_erase _ (fun j => R0 j r * setAt z _ _ j) hmem,
          setAt_same]
        have : ∑ j ∈ (Ico r hi).erase (lo + m), R0 j r * setAt z (lo + m) (z (lo + m) - k) j =
            ∑ j ∈ (Ico r hi).erase (lo + m), R0 j r * z j :=
          sum_congr rfl fun j hj => by rw [setAt_ne _ _ (ne_of_mem_erase hj)]
        rw [this]; ring
      · rw [if_neg hr, mul_zero, sub_zero]
        refine sum_congr rfl fun j hj => ?_
        have := mem_Ico.mp hj
        rw [setAt_ne _ _ (by omega)]
  · intro r hr
    rw [happ, if_neg (by omega), mul_zero, sub_zero]; exact h.up r hr

theorem multOf_fast (ho : Exact o) (k : ℤ) (x : ℝ) : multOf o true (k : ℝ) x = -k := by
  have := multOf_exact ho true k
  unfold multOf at *
  simpa using this

/-- `seysen_update` on a block. -/
theorem seysenUpdateLoop_spec (ho : Exact o) {n κ lo hi : ℕ} {str : ℕ → ℤ} {V : Mat ℝ}
    {B0 : Mat Int} {R0 : Mat ℝ} {T0 y : ℕ → ℝ} (hq : QRv n str B0 V R0 κ)
    (hl : ∀ i < κ, ∀ r, nmaxOf str i ≤ r → r < n → B0 i r = 0) (hhi : hi ≤ κ) (m : ℕ)
    (hm : lo + m ≤ hi) :
    ∀ (s : Lat ℝ) (vx : ℕ → ℝ) (b : Bool), s.str = str → s.fastLong = true →
    (∀ j, lo ≤ j → j < lo + m → vx j = y j) →
    UpdSt (1 / 2) n κ lo hi m V B0 R0 T0 y s.B s.fp.R →
    let q := seysenUpdateLoop o κ lo m (s, vx, b)
    UpdSt (1 / 2) n κ lo hi 0 V B0 R0 T0 y q.1.B q.1.fp.R ∧
    (ExactTies o → (∀ j, lo ≤ j → j < lo + m → |y j| ≤ 1 / 2) → q.2.2 = b) := by
  induction m with
  | zero => intro s vx b _ _ _ h; exact ⟨h, fun _ _ => rfl⟩
  | succ m ih =>
    intro s vx b hs hf hv h
    simp only [seysenUpdateLoop]
    unfold seysenUpdateStep
    simp only []
    rw [hv (lo + m) (by omega) (by omega)]
    obtain ⟨k, hk1, hk2⟩ := ho.rnd (y (lo + m))
    rw [hk1]
    have hv' : ∀ j, lo ≤ j → j < lo + m → setAt vx (lo + m) (k : ℝ) j = y j := by
      intro j a b'; rw [setAt_ne _ _ (by omega)]; exact hv j a (by omega)
    by_cases hz : o.isZero (k : ℝ) = true
    · rw [if_pos hz]
      have hk0 : (k : ℝ) = 0 := (ho.isZero _).mp hz
      obtain ⟨a1, a2⟩ := ih (by omega) s (setAt vx (lo + m) (k : ℝ)) b hs hf hv'
        (h.skip (by rw [hk0, sub_zero] at hk2; exact hk2))
      exact ⟨a1, fun ht hr => a2 ht fun j p q => hr j p (by omega)⟩
    · rw [if_neg hz, redR_exact ho, redZ_eq, hf, multOf_fast ho]
      obtain ⟨a1, a2⟩ := ih (by omega)
        { s with
          fp := { s.fp with
            R := setCol s.fp.R κ fun r => if r < lo then s.fp.R κ r - k * s.fp.R (lo + m) r
              else s.fp.R κ r }
          B := axpy s.B κ (lo + m) (-k) (nmaxOf s.str (lo + m))
          U := if s.transf then redZ o true κ (lo + m) (min s.d (nmaxOf s.str (lo + m))) k s.fp.x s.U
            else s.U
          ub := s.ub || !(decide (κ < s.d ∧ lo + m < s.d ∧ lo ≤ s.n ∧ nmaxOf s.str (lo + m) ≤ s.n)) }
        (setAt vx (lo + m) (k : ℝ)) true hs hf hv'
        (h.step hq (by omega) hhi (by rw [hs]; exact hl _ (by omega)) k hk2)
      rw [hf] at *
      refine ⟨a1, fun ht hr => ?_⟩
      exfalso
      apply hz
      rw [ho.isZero, ← hk1]
      exact ht.tie _ (hr _ (by omega) (by omega))

/-! ### newseysenreduce: update of a block -/

/-- The `R` part of the update. -/
def nsR (o : FPOps ℝ) (κ lo : ℕ) (bd : ℕ → Bool) (vx : ℕ → ℝ) : ℕ → Mat ℝ → Mat ℝ
  | 0, R => R
  | m + 1, R => nsR o κ lo bd vx m
      (if bd (lo + m) then R else redR o κ (lo + m) lo (o.rnd (vx (lo + m))) R)

/-- The `B` part of the update. -/
def nsB (o : FPOps ℝ) (fl : Bool) (str : ℕ → ℤ) (κ lo : ℕ) (bd : ℕ → Bool) (vx : ℕ → ℝ) :
    ℕ → Mat Int → Mat Int
  | 0, B => B
  | m + 1, B => nsB o fl str κ lo bd vx m
      (if bd (lo + m) then B
       else redZ o fl κ (lo + m) (nmaxOf str (lo + m)) (o.rnd (vx (lo + m))) (o.rnd (vx (lo + m))) B)

theorem nsUpdateR_eq (κ lo : ℕ) (bd : ℕ → Bool) (vx : ℕ → ℝ) (m : ℕ) :
    ∀ s : Lat ℝ, ∃ u, nsUpdateR o κ lo bd vx m s =
      { s with fp := { s.fp with R := nsR o κ lo bd vx m s.fp.R }, ub := u } := by
  induction m with
  | zero => intro s; exact ⟨s.ub, rfl⟩
  | succ m ih =>
    intro s
    simp only [nsUpdateR, nsR]
    split
    · exact ih s
    · obtain ⟨u, e⟩ := ih _
      exact ⟨u, e⟩

theorem nsUpdateB_eq (κ lo : ℕ) (bd : ℕ → Bool) (vx : ℕ → ℝ) (m : ℕ) :
    ∀ s : Lat ℝ, ∃ U u, nsUpdateB o κ lo bd vx m s =
      { s with B := nsB o s.fastLong s.str κ lo bd vx m s.B, U := U, ub := u } := by
  induction m with
  | zero => intro s; exact ⟨s.U, s.ub, rfl⟩
  | succ m ih =>
    intro s
    simp only [nsUpdateB, nsB]
    split
    · exact ih s
    · obtain ⟨U, u, e⟩ := ih _
      exact ⟨U, u, e⟩

theorem nsR_ne (κ lo : ℕ) (bd : ℕ → Bool) (vx : ℕ → ℝ) (m c : ℕ) (hc : c ≠ κ) :
    ∀ R, nsR o κ lo bd vx m R c = R c := by
  induction m with
  | zero => intro R; rfl
  | succ m ih =>
    intro R
    simp only [nsR]
    rw [ih]
    split
    · rfl
    · unfold redR
      simp only [faddcol, fsubcol, fsubmulcol]
      split
      · split
        · rw [setCol_ne _ _ hc]
        · split <;> rw [setCol_ne _ _ hc]
      · rw [setCol_ne _ _ hc]

theorem nsUpdate_none (κ lo : ℕ) (bd : ℕ → Bool) (vx : ℕ → ℝ) (m : ℕ)
    (hb : ∀ j < m, bd (lo + j) = true) (s : Lat ℝ) :
    nsUpdateR o κ lo bd vx m s = s ∧ nsUpdateB o κ lo bd vx m s = s := by
  induction m with
  | zero => exact ⟨rfl, rfl⟩
  | succ m ih =>
    simp only [nsUpdateR, nsUpdateB, hb m (by omega), if_true]
    exact ih (fun j hj => hb j (by omega))

theorem ns_spec (ho : Exact o) {c : ℝ} (hc : 1 / 2 ≤ c) {n κ lo hi : ℕ} {str : ℕ → ℤ} {V : Mat ℝ}
    {B0 : Mat Int} {R0 : Mat ℝ} {T0 y : ℕ → ℝ} (fl : Bool) (bd : ℕ → Bool)
    (hq : QRv n str B0 V R0 κ)
    (hl : ∀ i < κ, ∀ r, nmaxOf str i ≤ r → r < n → B0 i r = 0) (hhi : hi ≤ κ)
    (hbd : ∀ j, bd j = true → |y j| ≤ c) (m : ℕ) (hm : lo + m ≤ hi) :
    ∀ (B : Mat Int) (R : Mat ℝ), UpdSt c n κ lo hi m V B0 R0 T0 y B R →
    UpdSt c n κ lo hi 0 V B0 R0 T0 y (nsB o fl str κ lo bd y m B) (nsR o κ lo bd y m R) := by
  induction m with
  | zero => intro B R h; exact h
  | succ m ih =>
    intro B R h
    simp only [nsB, nsR]
    refine ih (by omega) _ _ ?_
    cases hb : bd (lo + m)
    · simp only [Bool.false_eq_true, if_false]
      obtain ⟨k, hk1, hk2⟩ := ho.rnd (y (lo + m))
      rw [hk1, redR_exact ho, redZ_eq, multOf_exact ho]
      exact h.step hq (by omega) hhi (hl _ (by omega)) k (hk2.trans hc)
    · simp only [if_true]
      exact h.skip (hbd _ hb)

/-! ### All the blocks -/

/-- Blocks `0..t-1` are done. -/
structure BlksSt (c : ℝ) (n κ t : ℕ) (V : Mat ℝ) (B0 : Mat Int) (R0 : Mat ℝ) (B : Mat Int)
    (R : Mat ℝ) : Prop where
  Bc : ∀ c, c ≠ κ → B c = B0 c
  Rc : ∀ c, c ≠ κ → R c = R0 c
  tr : ∀ r < seyHi κ t, R κ r = Ex.app n V κ (bv n B κ) r
  done : ∀ u < t, BlkOK c R0 (Ex.app n V κ (bv n B κ)) (seyLo κ u) (seyHi κ u)

/-- From the update of block `t` to the next block. -/
theorem BlksSt.next {c : ℝ} {n κ t : ℕ} {V : Mat ℝ} {B0 B B' : Mat Int} {R0 R R' : Mat ℝ}
    {y : ℕ → ℝ} (h : BlksSt c n κ t V B0 R0 B R)
    (hu : UpdSt c n κ (seyLo κ t) (seyHi κ t) 0 V B0 R0 (Ex.app n V κ (bv n B κ)) y B' R') :
    BlksSt c n κ (t + 1) V B0 R0 B' R' := by
  refine ⟨hu.Bc, hu.Rc, hu.tr, fun u hut => ?_⟩
  by_cases hu' : u = t
  · subst hu'
    obtain ⟨z, _, z2, z3⟩ := hu.blk
    exact ⟨z, fun j a b => z2 j (by omega) b, z3⟩
  · refine (h.done u (by omega)).congr (fun _ _ _ => rfl) fun r a _ => hu.up r ?_
    have : seyHi κ t ≤ seyLo κ u := by rw [seyLo_eq]; exact seyHi_anti κ (by omega)
    omega

/-- Beginning of the update of block `t`. -/
theorem BlksSt.begin {c : ℝ} {n κ t : ℕ} {str : ℕ → ℤ} {V : Mat ℝ} {B0 B : Mat Int} {R0 R : Mat ℝ}
    (ho : Exact o) (hq : QRv n str B0 V R0 κ)
    (h : BlksSt c n κ t V B0 R0 B R) (tmp vx : ℕ → ℝ) :
    UpdSt c n κ (seyLo κ t) (seyHi κ t) (seyHi κ t - seyLo κ t) V B0 R0 (Ex.app n V κ (bv n B κ))
      (seysenSolve o R (seyLo κ t) (seyHi κ t - seyLo κ t)
        (fun i => if seyLo κ t ≤ i ∧ i < seyHi κ t then R κ i else tmp i, vx)).2 B R := by
  have hlh := seyLo_le κ t
  have hk := seyHi_le κ t
  obtain ⟨_, b⟩ := seysenSolve_spec ho R (seyLo κ t) (seyHi κ t - seyLo κ t)
    (fun j h1 h2 => by rw [h.Rc j (by omega)]; exact hq.rdiag j (by omega))
    (fun i => if seyLo κ t ≤ i ∧ i < seyHi κ t then R κ i else tmp i, vx)
  rw [show seyLo κ t + (seyHi κ t - seyLo κ t) = seyHi κ t by omega] at b
  refine ⟨h.Bc, h.Rc, fun r hr => h.tr r (by omega), ⟨_, fun _ _ _ => rfl, fun j a b => by omega, ?_⟩,
    fun _ _ => rfl⟩
  intro r h1 h2
  have := b r h1 h2
  simp only [] at this
  rw [if_pos ⟨h1, h2⟩, h.tr r h2] at this
  rw [this]
  refine sum_congr rfl fun j hj => ?_
  have := mem_Ico.mp hj
  rw [h.Rc j (by omega)]

/-- Arithmetic of the block boundaries. -/
theorem seyBlk_bounds (κ t : ℕ) :
    κ - κ % 2 ^ t - (if κ / 2 ^ t % 2 = 0 then 0 else 2 ^ t) = seyLo κ t ∧
    κ - κ % 2 ^ t = seyHi κ t ∧
    (if κ / 2 ^ t % 2 = 0 then 0 else 2 ^ t) ≤ κ := by
  obtain ⟨a, b⟩ := seysen_offset κ t
  unfold seyLo seyHi
  refine ⟨by rw [← a]; omega, rfl, by omega⟩

/-- The setting in which `seysenreduce` treats every block sequentially and through the long flag. -/
def SeqSey (s : Lat ℝ) : Prop := s.fastLong = true ∧ (s.numS = 1 ∨ (s.d : ℤ) ≤ s.parThr)

/-- `seysenBlock` in terms of the boundaries. -/
theorem seysenBlock_eq (κ t : ℕ) (q : SeyState ℝ) (hs : SeqSey q.s) (hκ : κ < q.s.d) :
    ∃ tmp vx, seysenBlock o κ (2 ^ t) (κ % 2 ^ t) q =
      (let y := (seysenSolve o q.s.fp.R (seyLo κ t) (seyHi κ t - seyLo κ t)
          (fun i => if seyLo κ t ≤ i ∧ i < seyHi κ t then q.s.fp.R κ i else q.tmpcol i,
            q.vectx)).2
       let u := seysenUpdateLoop o κ (seyLo κ t) (seyHi κ t - seyLo κ t) (q.s, y, false)
       { s := u.1, tmpcol := tmp, vectx := vx, somedone := q.somedone || u.2.2 }) := by
  obtain ⟨a, b, c⟩ := seyBlk_bounds κ t
  unfold seysenBlock
  simp only []
  rw [a, b, if_pos]
  · exact ⟨_, _, rfl⟩
  · rcases hs.2 with h | h
    · left; exact h
    · right
      have : (((if κ / 2 ^ t % 2 = 0 then 0 else 2 ^ t : ℕ)) : ℤ) ≤ κ := by exact_mod_cast c
      omega

theorem nsBlock_eq (thr : ℝ) (κ t : ℕ) (q : SeyState ℝ) :
    ∃ tmp vx, nsBlock o thr κ (2 ^ t) (κ % 2 ^ t) q =
      (let y := (seysenSolve o q.s.fp.R (seyLo κ t) (seyHi κ t - seyLo κ t)
          (fun i => if seyLo κ t ≤ i ∧ i < seyHi κ t then q.s.fp.R κ i else q.tmpcol i,
            q.vectx)).2
       let bd := fun i => !(o.lt thr (o.abs (y i)))
       let m := seyHi κ t - seyLo κ t
       { s := nsUpdateB o κ (seyLo κ t) bd y m (nsUpdateR o κ (seyLo κ t) bd y m q.s)
         tmpcol := tmp, vectx := vx,
         somedone := q.somedone || (List.range m).any fun j => !(bd (seyLo κ t + j)) }) := by
  obtain ⟨a, b, c⟩ := seyBlk_bounds κ t
  unfold nsBlock
  simp only []
  rw [a, b]
  exact ⟨_, _, rfl⟩

end HPLLL
