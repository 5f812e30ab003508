import Verif.Proof.Swell
import Verif.Proof.MachOK
/-! In exact arithmetic, a bound on the integers met inside a column reduction, hence on the size of the integer type
which is enough. -/

namespace HPLLL
open Spec Finset

variable {o : FPOps ℝ} {c : EntF ℝ}

/-- The update is exact as long as the multiplier is at most `K` and everything else at most `N` in absolute value. -/
def EntBnd (c : EntF ℝ) (K N : ℝ) : Prop :=
  ∀ (fl : Bool) (k a b : ℤ), k ≠ 0 → |(k:ℝ)| ≤ K → |((k * b : ℤ) : ℝ)| ≤ N → |(a:ℝ)| ≤ N →
    |((a - k * b : ℤ) : ℝ)| ≤ N → c fl (k:ℝ) (k:ℝ) a b = (a - k * b, true)

/-- Entries of a matrix before and during the reduction of column `κ`: `g` is a bound on the entries of the other
columns, `a` on those of column `κ`, for the rows before `l`. -/
def ColB (κ l : ℕ) (M : Mat Int) (g a : ℝ) : Prop :=
  ∀ r < l, (∀ j < κ, |(M j r : ℝ)| ≤ g) ∧ |(M κ r : ℝ)| ≤ a

theorem mred_small (ho : Exact o) {K0 N : ℝ} (hc : EntBnd c K0 N) (fl : Bool) {κ i l l0 : ℕ} (hl : l ≤ l0) (hi : i < κ)
    {k : ℤ} (hk0 : k ≠ 0) {M : Mat Int} {g a K : ℝ} (hg : 0 ≤ g) (hM : ColB κ l0 M g a) (hk : |(k:ℝ)| ≤ K)
    (hN1 : K ≤ K0) (hN2 : a + K * g ≤ N) (ha : 0 ≤ a) :
    mred c fl κ i 0 l (k:ℝ) (k:ℝ) M = (redZ o fl κ i l (k:ℝ) (k:ℝ) M, true) ∧
      ColB κ l0 (redZ o fl κ i l (k:ℝ) (k:ℝ) M) g (a + K * g) := by
  have hKg : 0 ≤ K * g := mul_nonneg ((abs_nonneg _).trans hk) hg
  have hb : ∀ r < l0, |((k * M i r : ℤ) : ℝ)| ≤ K * g := by
    intro r hr
    push_cast
    rw [abs_mul]
    exact mul_le_mul hk ((hM r hr).1 i hi) (abs_nonneg _) ((abs_nonneg _).trans hk)
  have hab : ∀ r < l0, |((M κ r - k * M i r : ℤ) : ℝ)| ≤ a + K * g := by
    intro r hr
    have h1 := hb r hr
    push_cast at h1 ⊢
    exact (abs_sub _ _).trans (add_le_add (hM r hr).2 h1)
  have hE : ∀ r < l, c fl (k:ℝ) (k:ℝ) (M κ r) (M i r) = (M κ r - k * M i r, true) := by
    intro r hr
    exact hc fl k _ _ hk0 (hk.trans hN1) ((hb r (by omega)).trans (by linarith))
      ((hM r (by omega)).2.trans (by linarith)) ((hab r (by omega)).trans hN2)
  have hz : redZ o fl κ i l (k:ℝ) (k:ℝ) M = setCol M κ fun r => if r < l then M κ r - k * M i r else M κ r := by
    rw [redZ_eq, multOf_exact ho]
    unfold axpy
    congr 1
    funext r
    split
    · ring
    · rfl
  constructor
  · rw [hz]
    unfold mred
    refine Prod.ext ?_ ?_
    · simp only
      congr 1
      funext r
      by_cases h : r < l
      · rw [if_pos ⟨Nat.zero_le _, by omega⟩, if_pos h, hE r h]
      · rw [if_neg (fun h' => h (by omega)), if_neg h]
    · simp only [List.all_eq_true, List.mem_range'_1]
      intro r hr
      rw [hE r (by omega)]
  · rw [hz]
    intro r hr
    refine ⟨fun j hj => ?_, ?_⟩
    · rw [setCol_ne _ _ (by omega)]; exact (hM r hr).1 j hj
    · rw [setCol_same]
      by_cases h : r < l
      · simp only [if_pos h]; exact hab r hr
      · simp only [if_neg h]; exact (hM r hr).2.trans (by linarith)

/-- The state before step `m - 1` of a pass, after `t` steps. -/
structure PassB (n d κ m : ℕ) (P a au g gu : ℝ) (s : Lat ℝ) : Prop where
  rd : ∀ r < κ, s.fp.R r r ≠ 0
  sr : ∀ j < κ, SizeRed j s.fp.R
  rho : ∀ r < m, |s.fp.R κ r| ≤ P * |s.fp.R r r|
  b : ColB κ n s.B g a
  u : s.transf = true → ColB κ d s.U gu au
  hd : s.d = d
  le : ∀ j < κ, nmaxOf s.str j ≤ n

theorem PassB.step (ho : Exact o) {K0 N : ℝ} (hc : EntBnd c K0 N) {n d κ i : ℕ} (hi : i < κ) {P a au g gu K : ℝ} {s : Lat ℝ}
    (h : PassB n d κ (i + 1) P a au g gu s) (hg : 0 ≤ g) (ha : 0 ≤ a) (hgu : 0 ≤ gu) (hau : 0 ≤ au) (hP : 0 ≤ P)
    (hK : P + 1 / 2 ≤ K) (hN1 : K ≤ K0)
    (hN2 : a + K * g ≤ N) (hN3 : s.transf = true → au + K * gu ≤ N) (b : Bool) :
    mSizeUpdateStep o c κ i (s, b) = sizeUpdateStep o κ i (s, b) ∧
    PassB n d κ i (3 / 2 * P + 1 / 4) (a + K * g) (au + K * gu) g gu (sizeUpdateStep o κ i (s, b)).1 ∧
    (sizeUpdateStep o κ i (s, b)).1.transf = s.transf := by
  have hKp : 0 ≤ K := by linarith
  obtain ⟨k, hk, hkx⟩ := ho.rnd (o.div (s.fp.R κ i) (s.fp.R i i))
  rw [ho.div] at hkx
  have hii := h.rd i hi
  have hkK' : |(k:ℝ)| ≤ P + 1 / 2 := by
    have h1 : |s.fp.R κ i / s.fp.R i i| ≤ P := by
      rw [abs_div, div_le_iff₀ (abs_pos.mpr hii)]
      exact h.rho i (by omega)
    have h2 : |(k:ℝ)| ≤ |s.fp.R κ i / s.fp.R i i| + |s.fp.R κ i / s.fp.R i i - k| := by
      have := abs_sub (s.fp.R κ i / s.fp.R i i) (s.fp.R κ i / s.fp.R i i - k)
      rwa [sub_sub_cancel] at this
    linarith
  have hkK : |(k:ℝ)| ≤ K := hkK'.trans hK
  unfold mSizeUpdateStep sizeUpdateStep
  simp only []
  rw [hk]
  by_cases hz : o.isZero (k:ℝ) = true
  · rw [if_pos hz, if_pos hz]
    refine ⟨rfl, ⟨h.rd, h.sr, fun r hr => (h.rho r (by omega)).trans ?_, fun r hr => ⟨(h.b r hr).1, ?_⟩, fun ht r hr =>
      ⟨(h.u ht r hr).1, ?_⟩, h.hd, h.le⟩, rfl⟩
    · exact mul_le_mul_of_nonneg_right (by linarith) (abs_nonneg _)
    · exact (h.b r hr).2.trans (by nlinarith [mul_nonneg hKp hg])
    · exact (h.u ht r hr).2.trans (by nlinarith [mul_nonneg hKp hgu])
  · have hk0 : k ≠ 0 := by
      intro e
      apply hz
      rw [ho.isZero, e, Int.cast_zero]
    rw [if_neg hz, if_neg hz]
    obtain ⟨b1, b2⟩ := mred_small ho hc s.fastLong (h.le i hi) hi hk0 hg h.b hkK hN1 hN2 ha
    simp only
    rw [b1]
    have hu : (if s.transf = true then mred c s.fastLong κ i 0 (min s.d (nmaxOf s.str i)) (k:ℝ) (k:ℝ) s.U else (s.U, true)) =
        (if s.transf = true then redZ o s.fastLong κ i (min s.d (nmaxOf s.str i)) (k:ℝ) (k:ℝ) s.U else s.U, true) ∧
        (s.transf = true → ColB κ d (if s.transf = true then
          redZ o s.fastLong κ i (min s.d (nmaxOf s.str i)) (k:ℝ) (k:ℝ) s.U else s.U) gu (au + K * gu)) := by
      by_cases ht : s.transf = true
      · rw [if_pos ht, if_pos ht]
        obtain ⟨c1, c2⟩ := mred_small ho hc s.fastLong (l := min s.d (nmaxOf s.str i)) (by rw [h.hd]; omega) hi hk0 hgu
          (h.u ht) hkK hN1 (hN3 ht) hau
        exact ⟨c1, fun _ => c2⟩
      · rw [if_neg ht, if_neg ht]
        exact ⟨rfl, fun h => absurd h ht⟩
    rw [hu.1]
    refine ⟨by simp, ⟨?_, ?_, ?_, b2, hu.2, h.hd, h.le⟩, trivial⟩
    · intro r hr
      simp only [redR_exact ho]
      rw [setCol_ne _ _ (by omega)]
      exact h.rd r hr
    · intro j hj r hr
      simp only [redR_exact ho]
      rw [setCol_ne _ _ (by omega), setCol_ne _ _ (by omega)]
      exact h.sr j hj r hr
    · intro r hr
      simp only [redR_exact ho]
      rw [setCol_same, if_pos (by omega), setCol_ne _ _ (by omega)]
      have h1 := h.rho r (by omega)
      have h2 := h.sr i hi r hr
      have h3 : |(k:ℝ) * s.fp.R i r| ≤ (P + 1 / 2) * (|s.fp.R r r| / 2) := by
        rw [abs_mul]
        exact mul_le_mul hkK' h2 (abs_nonneg _) (by linarith)
      have h4 := abs_sub (s.fp.R κ r) (k * s.fp.R i r)
      nlinarith [abs_nonneg (s.fp.R r r)]

/-- Growth of the quotients in a pass. -/
noncomputable def growth (P : ℝ) (t : ℕ) : ℝ := (3 / 2) ^ t * (P + 1 / 2) - 1 / 2

theorem mSizeUpdateLoop_small (ho : Exact o) {K0 N : ℝ} (hc : EntBnd c K0 N) {n d κ : ℕ} {P g gu K : ℝ} (hg : 0 ≤ g)
    (hgu : 0 ≤ gu) (hP : 0 ≤ P) (hK : (3 / 2) ^ κ * (P + 1 / 2) ≤ K) (hN1 : K ≤ K0) (hN2 : g + κ * (K * g) ≤ N) :
    ∀ (m : ℕ) (s : Lat ℝ) (b : Bool), m ≤ κ → (s.transf = true → gu + κ * (K * gu) ≤ N) →
      PassB n d κ m (growth P (κ - m)) (g + (κ - m : ℕ) * (K * g)) (gu + (κ - m : ℕ) * (K * gu)) g gu s →
      mSizeUpdateLoop o c κ m (s, b) = sizeUpdateLoop o κ m (s, b) := by
  have hKp : 0 ≤ K := le_trans (by positivity) hK
  intro m
  induction m with
  | zero => intro s b _ _ _; rfl
  | succ m ih =>
    intro s b hm hN3 h
    obtain ⟨t, ht⟩ : ∃ t, t = κ - (m + 1) := ⟨_, rfl⟩
    rw [← ht] at h
    have htκ : t + 1 ≤ κ := by omega
    have hpow : (1:ℝ) ≤ (3 / 2) ^ t := one_le_pow₀ (by norm_num)
    have htκ' : (t:ℝ) + 1 ≤ κ := by exact_mod_cast htκ
    have hKg := mul_nonneg hKp hg
    have hKgu := mul_nonneg hKp hgu
    have hgr : growth P t + 1 / 2 ≤ K := by
      unfold growth
      refine le_trans ?_ hK
      rw [sub_add_cancel]
      exact mul_le_mul_of_nonneg_right (pow_le_pow_right₀ (by norm_num) (by omega)) (by linarith)
    have hgr0 : 0 ≤ growth P t := by
      unfold growth; nlinarith
    obtain ⟨e1, e2, e3⟩ := PassB.step ho hc (by omega : m < κ) h hg (by positivity) hgu (by positivity) hgr0 hgr hN1
      (by nlinarith) (fun h => by have := hN3 h; nlinarith) b
    simp only [mSizeUpdateLoop, sizeUpdateLoop]
    rw [e1]
    have := ih (sizeUpdateStep o κ m (s, b)).1 (sizeUpdateStep o κ m (s, b)).2 (by omega) (by rw [e3]; exact hN3)
      (by
        rw [show κ - m = t + 1 by omega]
        convert e2 using 1
        · unfold growth; rw [pow_succ]; ring
        · push_cast; ring
        · push_cast; ring)
    exact this

theorem abs_le_of_dot {n : ℕ} {x : ℕ → ℝ} {g : ℝ} (hg : 0 ≤ g) (h : Ex.dot n x x ≤ g * g) {r : ℕ} (hr : r < n) :
    |x r| ≤ g := by
  have h1 : x r * x r ≤ Ex.dot n x x := by
    unfold Ex.dot
    exact single_le_sum (f := fun r => x r * x r) (fun i _ => mul_self_nonneg _) (mem_range.mpr hr)
  exact abs_le_of_sq_le_sq (by nlinarith) hg |> fun h => h

theorem NInv.entry {n d : ℕ} {β g : ℝ} {B : Mat Int} (hN : NInv n d β B) (hg : 0 ≤ g) (hgg : (d + 3) / 4 * β ≤ g * g)
    {j : ℕ} (hj : j < d) {r : ℕ} (hr : r < n) : |(B j r : ℝ)| ≤ g := by
  have := abs_le_of_dot hg ((hN.c j hj).trans hgg) hr
  unfold bv at this
  rwa [if_pos hr] at this

/-- The columns of `R` before `κ` are not changed by a pass. -/
theorem pass_R (ho : Exact o) {n d κ : ℕ} {A : Mat Int} {track : Prop} {s : Lat ℝ}
    (hκ : 0 < κ) (hκd : κ < d) (hA : FullColumnRank (toMatrix n d A)) (hS : 0 < s.numS)
    (hI : LInv n d A track s) (h : Post n d κ s) (c : ℕ) (hc : c < κ) :
    let q := hsizePass o κ κ s
    ((({ q.1 with fp := { q.1.fp with colKept := setAt q.1.fp.colKept κ false } } : Lat ℝ).hhR o κ)).fp.R c = s.fp.R c := by
  intro q
  have hg := hI.geo hA
  obtain ⟨-, ⟨m1, m2, -, -⟩, -⟩ := pass_spec ho hκ hκd hA hS hI h
  obtain ⟨h1, h2⟩ := h
  have hnm := hg.diag κ hκd
  obtain ⟨a1, ⟨R, x, a2⟩, -, -⟩ := hsizePass_spec ho s hS h1.qr
    (fun i hi => hg.supp i (by omega)) (fun r hr => h2.r r (by omega))
  have a1R : SizeSt n κ 0 s.fp.V s.B s.fp.R q.1.B R := by
    have := a1; rw [a2] at this; exact this
  obtain ⟨t, ht⟩ : ∃ t : Lat ℝ, t = { q.1 with fp := { q.1.fp with colKept := setAt q.1.fp.colKept κ false } } := ⟨_, rfl⟩
  have m1' : Mid n d κ t := by rw [ht]; exact m1
  have m2' : LInv n d A track t := by rw [ht]; exact m2
  have := householderR_spec ho t.str t.B t.fp hκ ((m2'.geo hA).diag κ hκd)
          ((m2'.geo hA).le κ hκd)
          (fun k hk r hr hrn => m1'.1.qr.vsupp k hk r
            (le_trans ((m2'.geo hA).mono k κ (by omega) hκd) hr) hrn)
          (m1'.1.bz κ hκd) ((m2'.geo hA).supp κ hκd) m1'.2
  rw [← ht]
  show (householderR o t.str t.B κ t.fp).R c = _
  rw [this.2.R c (by omega), ht]
  show (hsizePass o κ κ s).1.fp.R c = _
  rw [a2]
  exact a1R.Rc c (by omega)

/-- Sizes used in the theorems: `g` bounds the entries of `B` between two column reductions, `gu` those of `U`, `1/Q`
is less than the diagonal of `R`. -/
structure Sizes (d : ℕ) (g gu Q K N : ℝ) (tr : Prop) : Prop where
  g0 : 0 ≤ g
  gu0 : 0 ≤ gu
  Q0 : 0 ≤ Q
  k : (3 / 2) ^ d * (g * Q + 1 / 2) ≤ K
  b : g + d * ((3 / 2) ^ d * (g * Q + 1 / 2) * g) ≤ N
  u : tr → gu + d * ((3 / 2) ^ d * (g * Q + 1 / 2) * gu) ≤ N

theorem mHsizePass_small (ho : Exact o) {K0 N : ℝ} (hc : EntBnd c K0 N) {n d κ : ℕ} {A : Mat Int} {track : Prop} {β g gu Q : ℝ}
    {s : Lat ℝ} (hκd : κ < d) (hA : FullColumnRank (toMatrix n d A))
    (hI : LInv n d A track s) (hP : Post n d κ s) (hN : NInv n d β s.B) (hgg : (d + 3) / 4 * β ≤ g * g)
    (hs : Sizes d g gu Q K0 N (s.transf = true)) (hseq : s.numS = 1 ∨ (κ : Int) - 1 < s.parThr)
    (hU : s.transf = true → ∀ j < d, ∀ r < d, |(s.U j r : ℝ)| ≤ gu)
    (hsr : ∀ j < κ, SizeRed j s.fp.R) (hlow : ∀ r < κ, 1 ≤ Q * |s.fp.R r r|) :
    mHsizePass o c κ κ s = hsizePass o κ κ s := by
  have hg := hI.geo hA
  have hnm := hg.diag κ hκd
  have hle := hg.le κ hκd
  unfold mHsizePass hsizePass
  rw [if_pos hseq, if_pos hseq]
  obtain ⟨K, hK⟩ : ∃ K, K = (3 / 2 : ℝ) ^ d * (g * Q + 1 / 2) := ⟨_, rfl⟩
  have hgQ : 0 ≤ g * Q := mul_nonneg hs.g0 hs.Q0
  have hK0 : 0 ≤ K := by rw [hK]; positivity
  have hk := hs.k
  have hb := hs.b
  have hu := hs.u
  rw [← hK] at hk hb hu
  have hdκ : (κ : ℝ) ≤ d := by exact_mod_cast hκd.le
  have m1 := mul_nonneg hK0 hs.g0
  have m2 := mul_nonneg hK0 hs.gu0
  refine mSizeUpdateLoop_small ho hc (n := n) (d := d) (P := g * Q) (g := g) (gu := gu) (K := K) hs.g0 hs.gu0 hgQ ?_ hk ?_ κ s false
    (le_refl _) ?_ ?_
  · rw [hK]
    exact mul_le_mul_of_nonneg_right (pow_le_pow_right₀ (by norm_num) hκd.le) (by linarith)
  · have := mul_le_mul_of_nonneg_right hdκ m1; linarith
  · intro ht
    have := hu ht
    have := mul_le_mul_of_nonneg_right hdκ m2; linarith
  · rw [Nat.sub_self]
    refine ⟨hP.1.qr.rdiag, hsr, ?_, ?_, ?_, hI.hd, fun j hj => hg.le j (by omega)⟩
    · intro r hr
      have h1 : |s.fp.R κ r| ≤ g := by
        rw [hP.2.r r (by omega)]
        refine abs_le_of_dot hs.g0 ?_ (n := n) (x := Ex.app n s.fp.V κ (bv n s.B κ)) (by omega)
        rw [Ex.app_dot n s.fp.V κ hP.1.qr.vnorm]
        exact (hN.c κ hκd).trans hgg
      have h2 := hlow r hr
      have h3 := mul_le_mul_of_nonneg_left h2 hs.g0
      unfold growth
      rw [pow_zero, one_mul, add_sub_cancel_right]
      nlinarith
    · intro r hr
      rw [Nat.cast_zero, zero_mul, add_zero]
      exact ⟨fun j hj => hN.entry hs.g0 hgg (by omega) hr, hN.entry hs.g0 hgg hκd hr⟩
    · intro ht r hr
      rw [Nat.cast_zero, zero_mul, add_zero]
      exact ⟨fun j hj => hU ht j (by omega) r hr, hU ht κ hκd r hr⟩

theorem mHsizeLoop_small (ho : Exact o) {K0 N : ℝ} (hc : EntBnd c K0 N) {n d κ : ℕ} {A : Mat Int} {track : Prop} {β g gu Q : ℝ}
    (hκ : 0 < κ) (hκd : κ < d) (hA : FullColumnRank (toMatrix n d A)) (hgg : (d + 3) / 4 * β ≤ g * g) (tr : Bool)
    (hs : Sizes d g gu Q K0 N (tr = true))
    (hU : ∀ t : Lat ℝ, LInv n d A track t → NInv n d β t.B → t.transf = tr → t.transf = true → ∀ j < d, ∀ r < d, |(t.U j r : ℝ)| ≤ gu)
    (fuel : ℕ) :
    ∀ (b : Bool) (s : Lat ℝ), 0 < s.numS → LInv n d A track s → Post n d κ s →
    NInv n d β s.B → s.transf = tr → (s.numS = 1 ∨ (κ : Int) - 1 < s.parThr) →
    (∀ j < κ, SizeRed j s.fp.R) → (∀ r < κ, 1 ≤ Q * |s.fp.R r r|) →
    mHsizeLoop o c κ κ fuel b s = hsizeLoop o κ κ fuel b s := by
  induction fuel with
  | zero => intro b s _ _ _ _ _ _ _ _; rfl
  | succ fuel ih =>
    intro b s hS hI hP hN htr hseq hsr hlow
    obtain ⟨-, ⟨-, c3, c4, c5⟩, -⟩ := pass_spec ho hκ hκd hA hS hI hP
    have hR := pass_R ho hκ hκd hA hS hI hP
    have hzs := hsizePass_zs o (κ := κ) (le_refl κ) s
    simp only [mHsizeLoop, hsizeLoop]
    rw [mHsizePass_small ho hc hκd hA hI hP hN hgg (by rw [htr]; exact hs) hseq (hU s hI hN htr) hsr hlow]
    obtain ⟨t, ht⟩ : ∃ t : Lat ℝ, t = { (hsizePass o κ κ s).1 with fp := { (hsizePass o κ κ s).1.fp with
      colKept := setAt (hsizePass o κ κ s).1.fp.colKept κ false } } := ⟨_, rfl⟩
    dsimp only at c3 c4 c5 hR
    rw [← ht] at c3 c4 c5 ⊢
    have hR' : ∀ c < κ, (t.hhR o κ).fp.R c = s.fp.R c := fun c hc => by rw [ht]; exact hR c hc
    have hBt : (t.hhR o κ).B = t.B := rfl
    have hzt : ZSteps κ s t := by rw [ht]; exact hzs.trans (zs_fp _ _ _ _)
    have hsh : Ex.dot n (bv n t.B κ) (bv n t.B κ) ≤ (d + 3) / 4 * β := by
      refine Post.short (s := t.hhR o κ) hκd (c3.geo hA) c4 c5 ?_
      intro j hj
      rw [hBt, ZSteps.gd hκd hI hzt, ZSteps.gd hκd hI hzt]
      exact hN.g j hj
    have hNt : NInv n d β t.B := hN.zsteps hκd hI hzt hsh
    have hS' : 0 < (t.hhR o κ).numS := by
      have := hzt.frame.numS
      show 0 < t.numS
      rw [this]; exact hS
    have hih := fun b => ih b (t.hhR o κ) hS' (c3.congr rfl rfl rfl rfl rfl rfl rfl rfl) c4 hNt
      (by show t.transf = tr; rw [hzt.frame.transf]; exact htr)
      (by show t.numS = 1 ∨ _ < t.parThr; rw [hzt.frame.numS, hzt.frame.parThr]; exact hseq)
      (fun j hj i hi => by rw [hR' j hj, hR' i (by omega)]; exact hsr j hj i hi)
      (fun r hr => by rw [hR' r hr]; exact hlow r hr)
    rw [hih]

/-- The diagonal of a reduced prefix. -/
theorem diag_low {n d κ : ℕ} {str : ℕ → ℤ} {B : Mat Int} {V R : Mat ℝ} (hκ : κ ≤ n) (hκd : κ ≤ d) (hq : QRv n str B V R κ)
    (hg : Geo n d str B) {δ q : ℝ} (hq1 : 1 ≤ q) (hqδ : 1 ≤ q * q * (δ - 1 / 4)) (hr : κ ≠ 1 → RedUpTo δ True κ R) :
    ∀ r < κ, 1 ≤ q ^ r * |R r r| := by
  intro r
  induction r with
  | zero =>
    intro h0
    have e := hq.gd_diag hκ h0
    have h1 : (1:ℝ) ≤ gd n B (0 + 1) := by
      have := hg.rank (0 + 1) (by omega)
      exact_mod_cast this
    have gd0 : gd n B 0 = 1 := by unfold gd; exact Matrix.det_isEmpty
    rw [gd0] at e
    rw [pow_zero, one_mul]
    have h2 : (1:ℝ) ≤ R 0 0 * R 0 0 := by
      rw [e] at h1; push_cast at h1; linarith
    rw [← abs_mul_abs_self] at h2
    nlinarith [abs_nonneg (R 0 0)]
  | succ r ih =>
    intro h0
    have h1 := ih (by omega)
    obtain ⟨h2, h3⟩ := hr (by omega) (r + 1) (by omega) h0
    have h4 := h2 trivial r (by omega)
    rw [show r + 1 - 1 = r by omega] at h3
    have h5 : |R (r + 1) r| * |R (r + 1) r| ≤ |R r r| / 2 * (|R r r| / 2) := mul_self_le_mul_self (abs_nonneg _) h4
    rw [← abs_mul_abs_self (R r r), ← abs_mul_abs_self (R (r + 1) r), ← abs_mul_abs_self (R (r + 1) (r + 1))] at h3
    have h6 : (δ - 1 / 4) * (|R r r| * |R r r|) ≤ |R (r + 1) (r + 1)| * |R (r + 1) (r + 1)| := by nlinarith
    have hq0 : 0 ≤ q ^ r := by positivity
    have h7 : 1 ≤ (q ^ r * |R r r|) * (q ^ r * |R r r|) := by nlinarith
    have h8 : (1:ℝ) ≤ (q ^ (r + 1) * |R (r + 1) (r + 1)|) * (q ^ (r + 1) * |R (r + 1) (r + 1)|) := by
      have e : (q ^ (r + 1) * |R (r + 1) (r + 1)|) * (q ^ (r + 1) * |R (r + 1) (r + 1)|) =
        q ^ r * q ^ r * (q * q) * (|R (r + 1) (r + 1)| * |R (r + 1) (r + 1)|) := by rw [pow_succ]; ring
      rw [e]
      have h9 : q ^ r * q ^ r * (q * q) * ((δ - 1 / 4) * (|R r r| * |R r r|)) ≤
          q ^ r * q ^ r * (q * q) * (|R (r + 1) (r + 1)| * |R (r + 1) (r + 1)|) :=
        mul_le_mul_of_nonneg_left h6 (by positivity)
      refine le_trans ?_ h9
      have e2 : q ^ r * q ^ r * (q * q) * ((δ - 1 / 4) * (|R r r| * |R r r|)) =
        (q * q * (δ - 1 / 4)) * ((q ^ r * |R r r|) * (q ^ r * |R r r|)) := by ring
      rw [e2]
      nlinarith
    by_contra hlt
    rw [not_le] at hlt
    have : 0 ≤ q ^ (r + 1) * |R (r + 1) (r + 1)| := by positivity
    nlinarith

theorem mHlllReduce_small (ho : Exact o) {K0 N : ℝ} (hc : EntBnd c K0 N) {n d κ : ℕ} {A : Mat Int} {track : Prop} {β g gu Q : ℝ}
    (hκ : 0 < κ) (hκd : κ < d) (hA : FullColumnRank (toMatrix n d A)) (hgg : (d + 3) / 4 * β ≤ g * g) (tr : Bool)
    (hU : ∀ t : Lat ℝ, LInv n d A track t → NInv n d β t.B → t.transf = tr → t.transf = true → ∀ j < d, ∀ r < d, |(t.U j r : ℝ)| ≤ gu)
    (fuel : ℕ) (s : Lat ℝ) (hS : 0 < s.numS) (hm : s.seysenFlag < 1) (hI : LInv n d A track s) (hM : Mid n d κ s)
    (hN : NInv n d β s.B) (htr : s.transf = tr) (hs : Sizes d g gu Q K0 N (tr = true))
    (hseq : s.numS = 1 ∨ (d : ℤ) ≤ s.parThr + 1)
    (hsr : ∀ j < κ, SizeRed j s.fp.R) (hlow : ∀ r < κ, 1 ≤ Q * |s.fp.R r r|) :
    mHlllReduce o c fuel κ s = hlllReduce o fuel κ s := by
  unfold mHlllReduce hlllReduce
  rw [if_pos hm, if_pos hm]
  unfold mHsizereduce hsizereduce
  simp only [Nat.lt_irrefl, if_false]
  rw [show κ - 1 + 1 = κ by omega]
  have hg := hI.geo hA
  have hR : ∀ c < κ, (s.hhR o κ).fp.R c = s.fp.R c := by
    have := householderR_spec ho s.str s.B s.fp hκ (hg.diag κ hκd) (hg.le κ hκd)
      (fun k hk r hr hrn => hM.1.qr.vsupp k hk r (le_trans (hg.mono k κ (by omega) hκd) hr) hrn)
      (hM.1.bz κ hκd) (hg.supp κ hκd) hM.2
    intro c hc
    exact this.2.R c (by omega)
  refine mHsizeLoop_small ho hc hκ hκd hA hgg tr hs hU fuel _ (s.hhR o κ) hS
    (hI.congr rfl rfl rfl rfl rfl rfl rfl rfl) (hM.hhR ho hκ hκd hg) hN htr ?_ ?_ ?_
  · rcases hseq with h | h
    · exact Or.inl h
    · right; show (κ : ℤ) - 1 < s.parThr; omega
  · intro j hj i hi; rw [hR j hj, hR i (by omega)]; exact hsr j hj i hi
  · intro r hr; rw [hR r hr]; exact hlow r hr

theorem mHlllStep_small (ho : Exact o) {K0 N : ℝ} (hc : EntBnd c K0 N) {n d : ℕ} {A : Mat Int} {track : Prop} {β g gu q δ : ℝ}
    {h : HState ℝ} (hA : FullColumnRank (toMatrix n d A)) (hE : ExInv n d A track δ h)
    (hm : h.s.seysenFlag < 1) (hκd : h.kappa < d) (hgg : (d + 3) / 4 * β ≤ g * g) (tr : Bool)
    (hU : ∀ t : Lat ℝ, LInv n d A track t → NInv n d β t.B → t.transf = tr → t.transf = true → ∀ j < d, ∀ r < d, |(t.U j r : ℝ)| ≤ gu)
    (fuel : ℕ) (hN : NInv n d β h.s.B) (htr : h.s.transf = tr) (hs : Sizes d g gu (q ^ d) K0 N (tr = true))
    (hseq : h.s.numS = 1 ∨ (d : ℤ) ≤ h.s.parThr + 1) (hq1 : 1 ≤ q) (hqδ : 1 ≤ q * q * (δ - 1 / 4)) :
    mHlllStep o c fuel δ h = hlllStep o fuel δ h := by
  obtain ⟨hM, hI1⟩ := hE.mid ho hA hκd
  have hpf := (hlllPrep_zs o h.kappa h.s).frame
  have hB : (hlllPrep o h.kappa h.s).B = h.s.B := by
    unfold hlllPrep; split <;> rfl
  have hg := hI1.geo hA
  have hle := hg.le h.kappa hκd
  have hdg := hg.diag h.kappa hκd
  have hrd : h.kappa ≠ 1 → RedUpTo δ True h.kappa (hlllPrep o h.kappa h.s).fp.R := by
    intro h1 k hk1 hk2
    have := hE.red h1 k hk1 hk2
    have e : (hlllPrep o h.kappa h.s).fp.R = h.s.fp.R := funext fun c => prep_R h1 c
    rw [e]
    exact ⟨fun _ => this.1 hm, this.2⟩
  have hlow := diag_low (by omega) hκd.le hM.1.qr hg hq1 hqδ hrd
  unfold mHlllStep hlllStep
  simp only []
  rw [mHlllReduce_small ho hc hE.pos hκd hA hgg tr hU fuel _ (by rw [hpf.numS]; exact hE.numS)
    (by rw [hpf.seysenFlag]; exact hm) hI1 hM (by rw [hB]; exact hN) (by rw [hpf.transf]; exact htr) hs
    (by rw [hpf.numS, hpf.parThr]; exact hseq) ?_ ?_]
  · cases hlllReduce o fuel h.kappa (hlllPrep o h.kappa h.s) <;> rfl
  · intro j hj i hi
    exact (hrd (by omega) j (by omega) hj).1 trivial i hi
  · intro r hr
    refine (hlow r hr).trans ?_
    exact mul_le_mul_of_nonneg_right (pow_le_pow_right₀ hq1 (by omega)) (abs_nonneg _)

/-- The run on the type `c` is the run on unbounded integers. -/
theorem mHlllLoop_small (ho : Exact o) {K0 N : ℝ} (hc : EntBnd c K0 N) {n d : ℕ} {A : Mat Int} {track : Prop} {β g gu q δ : ℝ}
    (hδ : δ ≤ 1) (hA : FullColumnRank (toMatrix n d A)) (hgg : (d + 3) / 4 * β ≤ g * g) (tr : Bool)
    (hU : ∀ t : Lat ℝ, LInv n d A track t → NInv n d β t.B → t.transf = tr → t.transf = true → ∀ j < d, ∀ r < d, |(t.U j r : ℝ)| ≤ gu)
    (hq1 : 1 ≤ q) (hqδ : 1 ≤ q * q * (δ - 1 / 4))
    (hs : Sizes d g gu (q ^ d) K0 N (tr = true)) (fuel : ℕ) :
    ∀ (h : HState ℝ), ExInv n d A track δ h → h.s.seysenFlag < 1 → h.s.kappaMax = d → NInv n d β h.s.B →
      h.s.transf = tr → (h.s.numS = 1 ∨ (d : ℤ) ≤ h.s.parThr + 1) →
      mHlllLoop o c δ fuel h = hlllLoop o δ fuel h := by
  induction fuel with
  | zero => intro h _ _ _ _ _ _; rfl
  | succ fuel ih =>
    intro h hE hm hk hN htr hseq
    simp only [mHlllLoop, hlllLoop]
    by_cases hcnd : h.kappa < h.s.kappaMax ∧ h.s.nblov < h.s.nblovMax
    · simp only [if_pos hcnd]
      have hκd : h.kappa < d := by omega
      have hok := hE.step ho hA hκd (fuel + 1)
      rw [mHlllStep_small ho hc hA hE hm hκd hgg tr hU (fuel + 1) hN htr hs hseq hq1 hqδ]
      cases e : hlllStep o (fuel + 1) δ h with
      | diverge => rfl
      | fail s => rfl
      | next h1 =>
        rw [e] at hok
        obtain ⟨e1, -, -, e4⟩ := hok
        exact ih h1 e1 (by rw [e4.seysenFlag]; exact hm) (by rw [e4.kappaMax]; exact hk)
          (hN.step ho hδ hA hE hm hκd (fuel + 1) e) (by rw [e4.transf]; exact htr)
          (by rw [e4.numS, e4.parThr]; exact hseq)
    · simp only [if_neg hcnd]

end HPLLL
