import Verif.Proof.SlllTerm
/-! Segment LLL on a basis with non decreasing Gram–Schmidt norms. -/

namespace HPLLL
open Spec Finset InnerProductSpace

variable {o : FPOps ℝ}

/-- Non decreasing Gram–Schmidt norms. -/
def GsMono (n d : ℕ) (B : Mat Int) : Prop :=
  ∀ i, i + 1 < d → ‖gramSchmidt ℝ (HPLLL.colN n B) i‖ ≤ ‖gramSchmidt ℝ (HPLLL.colN n B) (i + 1)‖

theorem GsMono.unitri {n d : ℕ} {A B : Mat Int} (h : GsMono n d A) (hu : UniTri n d A B) : GsMono n d B := by
  intro i hi
  rw [hu.gs (by omega), hu.gs hi]
  exact h i hi

theorem GsMono.zero_le {n d : ℕ} {B : Mat Int} (h : GsMono n d B) : ∀ i < d,
    ‖HPLLL.colN n B 0‖ ≤ ‖gramSchmidt ℝ (HPLLL.colN n B) i‖ := by
  intro i
  induction i with
  | zero => intro _; rw [gsN_zero]
  | succ i ih => intro hi; exact (ih (by omega)).trans (h i hi)

theorem gapLoop_nogap (ho : Exact o) (c : SCst ℝ) (heps : c.eps9 ≤ 1) (σ : Sched) {n d : ℕ} {A : Mat Int}
    {track : Prop} (hA : FullColumnRank (toMatrix n d A)) (hdn : d ≤ n) (key : List ℕ) (fuel : ℕ) (B0 : Mat Int)
    (hG : GsMono n d B0) :
    ∀ (k i : ℕ) (s s' : Lat ℝ) (g : ℕ), 0 < i → i + k = d → LInv n d A track s → 0 < s.numS → s.seysenFlag < 1 →
    (i < d → Mid n d i s) → UniTri n d B0 s.B → gapLoop o c σ key fuel d k i s = some (g, s') → g = 0 := by
  intro k
  induction k with
  | zero =>
    intro i s s' g hi hik hI hS hf hM hu h
    simp only [gapLoop, Option.some.injEq, Prod.mk.injEq] at h
    exact h.1.symm
  | succ k ih =>
    intro i s s' g hi hik hI hS hf hM hu h
    have hid : i < d := by omega
    simp only [gapLoop] at h
    cases hr : sreduceCol o c σ key fuel i s with
    | none => rw [hr] at h; simp at h
    | some s1 =>
      rw [hr] at h
      simp only [] at h
      unfold sreduceCol at hr
      rw [if_pos hf, Option.map_eq_some_iff] at hr
      obtain ⟨⟨st, s2⟩, hr, rfl⟩ := hr
      simp only [] at h
      have hr' : hlllReduce { o with tenth := c.thousandth } fuel i s = some (st, s2) := by
        unfold hlllReduce; rw [if_pos hf]; exact hr
      have ho' := exact_withTenth ho c.thousandth
      obtain ⟨-, hP, hsr⟩ := hlllReduce_spec ho' hi hid hA fuel _ _ _ hS hI (hM hid) hr'
      have hzs := hlllReduce_zs _ hi fuel _ _ _ hr'
      have hI2 : LInv n d A track s2 := hI.zsteps hid hzs
      have hfr := hzs.frame
      obtain ⟨n1, n2, n3⟩ := Post.next ho hi hid hI2.hn (hI2.geo hA) hP
      have hu2 : UniTri n d B0 s2.B := hu.zsteps hid hI hzs
      have hR : ∀ j < i + 1, |(s2.hhV o i).fp.R j j| = ‖gramSchmidt ℝ (HPLLL.colN n B0) j‖ := by
        intro j hj
        have := n1.qr.norm_gs (by omega) ⟨j, hj⟩
        rw [gs_nat] at this
        rw [← Real.sqrt_mul_self_eq_abs, ← this, Real.sqrt_sq (norm_nonneg _)]
        exact congrArg norm (hu2.gs (by omega))
      rw [if_neg] at h
      · exact ih (i + 1) (s2.hhV o i) s' g (by omega) (by omega)
          (hI2.congr rfl rfl rfl rfl rfl rfl rfl rfl) (by show 0 < s2.numS; rw [hfr.numS]; exact hS)
          (by show s2.seysenFlag < 1; rw [hfr.seysenFlag]; exact hf) n2 hu2 h
      · rintro ⟨h2, h3, h4⟩
        rw [ho.lt, ho.abs, ho.div, abs_div, hR i (by omega), hR (i - 1) (by omega)] at h4
        have hm := hG (i - 1) (by omega)
        rw [show i - 1 + 1 = i by omega] at hm
        have h0 : (s2.hhV o i).fp.R (i - 1) (i - 1) ≠ 0 := n1.qr.rdiag (i - 1) (by omega)
        have hp : 0 < ‖gramSchmidt ℝ (HPLLL.colN n B0) (i - 1)‖ := by
          rw [← hR (i - 1) (by omega)]; exact abs_pos.mpr h0
        have : 1 ≤ ‖gramSchmidt ℝ (HPLLL.colN n B0) i‖ / ‖gramSchmidt ℝ (HPLLL.colN n B0) (i - 1)‖ := by
          rw [le_div_iff₀ hp]; linarith
        linarith

theorem reduceAndGap_nogap (ho : Exact o) (c : SCst ℝ) (heps : c.eps9 ≤ 1) (σ : Sched) {n d : ℕ} {A : Mat Int}
    (hd : 0 < d) (hA : FullColumnRank (toMatrix n d A)) (key : List ℕ) (fuel : ℕ) {L L' : SLat ℝ} {g : ℕ}
    (hdo : L.dorigin = d)
    (hI : LInv n d A False L.lat) (hS : 0 < L.lat.numS) (hf : L.lat.seysenFlag < 1)
    (bz : ∀ c < d, ∀ r, nmaxOf L.lat.str c ≤ r → r < n → L.lat.fp.Bfp c r = 0) (hG : GsMono n d L.lat.B)
    (h : reduceAndGap o c σ key fuel L = some (g, L')) : g = 0 := by
  have hdn := fcr_le hd hA hI
  unfold reduceAndGap at h
  simp only [Option.map_eq_some_iff] at h
  obtain ⟨⟨g, s'⟩, h, e⟩ := h
  simp only [Prod.mk.injEq] at e
  obtain ⟨rfl, rfl⟩ := e
  rw [hdo] at h
  set t : Lat ℝ := { L.lat with fp := { L.lat.fp with
    colKept := fun i => if i < d then false else L.lat.fp.colKept i
    descendu := fun i => if i < d then 0 else L.lat.fp.descendu i } } with ht
  have hIt : LInv n d A False t := hI.congr rfl rfl rfl rfl rfl rfl rfl rfl
  obtain ⟨g1, g2, g3⟩ := gap_start ho hd hA hIt bz (fun c hc => if_pos hc) (fun c hc => if_pos hc)
  exact gapLoop_nogap ho c heps σ hA hdn key fuel L.lat.B hG (d - 1) 1 ((t.hhR o 0).hhV o 0) s' g (by omega)
    (by omega) (hIt.congr rfl rfl rfl rfl rfl rfl rfl rfl) hS hf g2 (UniTri.refl _ _ _) h

/-- Conversion of the diagonal. -/
theorem conv_abs {c : SCst ℝ} {n d : ℕ} {A : Mat Int} {K : ℝ} (hc : ConvScale d K c.setF) {s : Lat ℝ}
    (h : PhI n d A s) : ∃ t : ℝ, 0 < t ∧ K ≤ t * (√2 * ‖HPLLL.colN n s.B 0‖) ∧
      ∀ j < d, |(|(blockRZ c d s.fp.R j j : ℝ)| - t * ‖gramSchmidt ℝ (HPLLL.colN n s.B) j‖)| ≤ 1 := by
  obtain ⟨t, ht, hKt, hconv⟩ := hc.scale s.fp.R h.rdiag
  have hR : ∀ j < d, |s.fp.R j j| = ‖gramSchmidt ℝ (HPLLL.colN n s.B) j‖ := by
    intro j hj
    rw [← Real.sqrt_mul_self_eq_abs, h.diag j hj, Real.sqrt_sq (norm_nonneg _)]
  refine ⟨t, ht, ?_, ?_⟩
  · refine hKt.trans (mul_le_mul_of_nonneg_left ?_ ht.le)
    calc _ ≤ √(2 * ‖HPLLL.colN n s.B 0‖ ^ 2) := Real.sqrt_le_sqrt h.col0
      _ = _ := by rw [Real.sqrt_mul (by norm_num), Real.sqrt_sq (norm_nonneg _)]
  · intro j hj
    rw [← hR j hj]
    have h1 := hconv j hj
    have h2 : |(|(c.setF s.fp.R j j : ℝ)| - t * |s.fp.R j j|)| ≤ 1 := by
      have : t * |s.fp.R j j| = |t * s.fp.R j j| := by rw [abs_mul, abs_of_pos ht]
      rw [this]
      exact (abs_abs_sub_abs_le _ _).trans h1
    unfold blockRZ
    rw [if_pos ⟨hj, hj⟩, if_neg (lt_irrefl j)]
    split
    · rename_i h0
      rw [h0.2] at h2
      simp only [Int.cast_zero, abs_zero, zero_sub, abs_neg] at h2
      rw [abs_of_nonneg (by positivity)] at h2
      simp only [Int.cast_one, abs_one]
      rw [abs_le]; constructor
      · linarith
      · have : 0 ≤ t * |s.fp.R j j| := by positivity
        linarith
    · exact h2

theorem mono_block {c : SCst ℝ} {n d : ℕ} {A : Mat Int} (hd : 0 < d) {K : ℝ} (hc : ConvScale d K c.setF) {s : Lat ℝ}
    (h : PhI n d A s) (hG : GsMono n d s.B) {δ : ℝ} (hδ : 8 ≤ (1 - δ) * K) (hδ1 : δ ≤ 1) (hK : 8 ≤ K) {i : ℕ}
    (hi : i + 1 < d) :
    δ * (blockRZ c d s.fp.R i i : ℝ) ^ 2 ≤ (blockRZ c d s.fp.R (i + 1) (i + 1) : ℝ) ^ 2 := by
  obtain ⟨t, ht, h1, h2⟩ := conv_abs hc h
  have c1 := h2 i (by omega)
  have c2 := h2 (i + 1) hi
  obtain ⟨b, hb⟩ : ∃ b, b = ‖HPLLL.colN n s.B 0‖ := ⟨_, rfl⟩
  have hg0 := hG.zero_le i (by omega)
  have hg1 := hG i hi
  obtain ⟨u, hu⟩ : ∃ u, u = ‖gramSchmidt ℝ (HPLLL.colN n s.B) i‖ := ⟨_, rfl⟩
  obtain ⟨v, hv⟩ : ∃ v, v = ‖gramSchmidt ℝ (HPLLL.colN n s.B) (i + 1)‖ := ⟨_, rfl⟩
  obtain ⟨x, hx⟩ : ∃ x, x = |(blockRZ c d s.fp.R i i : ℝ)| := ⟨_, rfl⟩
  obtain ⟨y, hy⟩ : ∃ y, y = |(blockRZ c d s.fp.R (i + 1) (i + 1) : ℝ)| := ⟨_, rfl⟩
  rw [← hx, ← hu] at c1
  rw [← hy, ← hv] at c2
  rw [← hb] at h1 hg0
  rw [← hu] at hg0 hg1
  rw [← hv] at hg1
  rw [← sq_abs (blockRZ c d s.fp.R i i : ℝ), ← sq_abs (blockRZ c d s.fp.R (i + 1) (i + 1) : ℝ), ← hx, ← hy]
  have hx0 : 0 ≤ x := hx ▸ abs_nonneg _
  rw [abs_le] at c1 c2
  have hb0 : 0 ≤ b := hb ▸ norm_nonneg _
  have hs2 : √2 ≤ 2 := by rw [Real.sqrt_le_left (by norm_num)]; norm_num
  obtain ⟨X, hX⟩ : ∃ X, X = t * u := ⟨_, rfl⟩
  have hXK : K ≤ 2 * X := by
    have e1 : √2 * b ≤ 2 * u := by nlinarith [Real.sqrt_nonneg 2]
    have := mul_le_mul_of_nonneg_left e1 ht.le
    rw [hX]; linarith
  have hXv : X ≤ t * v := by rw [hX]; exact mul_le_mul_of_nonneg_left hg1 ht.le
  have hx1 : x ≤ X + 1 := by rw [hX]; linarith
  have hy1 : X - 1 ≤ y := by linarith
  have hX1 : 4 ≤ X := by linarith
  have hy2 : (X - 1) ^ 2 ≤ y ^ 2 := by nlinarith
  have hx2 : x ^ 2 ≤ (X + 1) ^ 2 := by nlinarith
  by_cases hδ0 : 0 ≤ δ
  · have h3 : δ * x ^ 2 ≤ δ * (X + 1) ^ 2 := mul_le_mul_of_nonneg_left hx2 hδ0
    have h4 : 4 ≤ (1 - δ) * X := by nlinarith
    have h5 : 4 * X ≤ (1 - δ) * X * X := by nlinarith
    have h6 : 0 ≤ (1 - δ) * X := by linarith
    nlinarith
  · have : δ * x ^ 2 ≤ 0 := mul_nonpos_of_nonpos_of_nonneg (by linarith) (sq_nonneg _)
    nlinarith [sq_nonneg y]

/-- A phase with a single round of tests and non decreasing norms does not see a gap. -/
theorem sphase_nogap (ho : Exact o) (c : SCst ℝ) (heps : c.eps9 ≤ 1) {σ : Sched} (hσ : σ.Ok) {n d : ℕ} {A : Mat Int} (hd : 0 < d)
    (hA : FullColumnRank (toMatrix n d A)) {L L' : SLat ℝ} (hdo : L.dorigin = d) (h : PhI n d A L.lat) (hG : GsMono n d L.lat.B)
    (junk : ℝ) (key : List ℕ) (fuel : ℕ) {δ : ℝ} (hδ : δ ≤ 1) (S lovmax : ℕ) (hS : 0 < S) (h2S : 2 * S ∣ d)
    (hlov : d / S ≤ lovmax) (odd : Bool) (g : ℕ)
    (hr : sphase o c σ junk key fuel δ S lovmax odd L = some (true, g, L')) : g = 0 := by
  obtain rfl : L.lat.n = n := h.inv.hn
  obtain rfl : L.lat.d = d := h.inv.hd
  have hO : SObj L.lat.n L.lat.d A L L := ⟨⟨h.inv, rfl, SameCfg.rfl' _⟩, rfl, rfl, rfl⟩
  unfold sphase at hr
  dsimp only at hr
  split at hr
  · simp at hr
  rename_i BRs hBR
  obtain ⟨w, hw⟩ : ∃ w, w = L.lat.d / S := ⟨_, rfl⟩
  obtain ⟨dec, hdec⟩ : ∃ dec, dec = (if odd then L.lat.d / (2 * S) else 0) := ⟨_, rfl⟩
  obtain ⟨nb, hnb⟩ : ∃ nb, nb = (if odd then S - 1 else S) := ⟨_, rfl⟩
  obtain ⟨q, hq⟩ := h2S
  have hwq : w = 2 * q := by
    rw [hw, hq, Nat.mul_comm 2 S, Nat.mul_assoc, Nat.mul_div_cancel_left _ hS]
  have hbq : L.lat.d / (2 * S) = q := by rw [hq, Nat.mul_div_cancel_left _ (by omega)]
  have hq0 : 0 < q := by
    rcases Nat.eq_zero_or_pos q with rfl | h
    · omega
    · exact h
  have hdS : L.lat.d = S * w := by rw [hq, hwq]; ring
  have hfit : dec + nb * w ≤ L.lat.d := by
    rw [hdec, hnb, hbq]
    cases odd
    · simp only [Bool.false_eq_true, if_false]; omega
    · simp only [if_true]
      have : S * w = (S - 1) * w + w := by
        conv_lhs => rw [show S = (S - 1) + 1 by omega]
        rw [Nat.succ_mul]
      omega
  rw [← hnb, ← hdec] at hr hBR
  rw [← hw] at hr
  set Us : Nat → Mat Int := blockUs BRs with hUs
  set U := sput σ key L.lat.d S dec nb Us (fun _ _ => 0) with hU
  obtain ⟨hlen, hall⟩ := allBlocks_some hBR
  have hps : ∀ b, pshift w b odd = b * w + dec := by
    intro b; unfold pshift; rw [hdec, hbq, hwq, Nat.mul_div_cancel_left _ (by omega)]
  obtain ⟨p1, -⟩ := sput_apply hσ key L.lat.d S dec nb Us (fun _ _ => 0)
  rw [← hw, ← hU] at p1
  obtain ⟨m1, m2⟩ := spmatprod_apply hσ key L.lat.n w nb odd U L.lat.B
  simp only [hps] at m1 m2
  have hblk : ∀ b (hb : b < nb), ∃ hlt : b < BRs.length, Us b = BRs[b].getU.M ∧
      w - 1 ≤ BRs[b].nblov ∧ (BRs[b].nblov = w - 1 →
      (∀ j < w, ∀ i < w, j ≤ i → BRs[b].getU.M j i = if i = j then 1 else 0) ∧
      ∀ j, j + 1 < w → (δ - 1 / 4) * (blockRZ c L.lat.d L.lat.fp.R (b * w + dec + j) (b * w + dec + j) : ℝ) ^ 2 ≤
        (blockRZ c L.lat.d L.lat.fp.R (b * w + dec + (j + 1)) (b * w + dec + (j + 1)) : ℝ) ^ 2) := by
    intro b hb
    have hlt : b < BRs.length := by omega
    refine ⟨hlt, by simp only [hUs, blockUs, List.getElem?_eq_getElem hlt], ?_⟩
    have hb' := hall b hb
    rw [List.getElem?_eq_getElem hlt] at hb'
    have hm : (b + 1) * w ≤ nb * w := Nat.mul_le_mul_right _ hb
    have := blockReduce_exact ho c junk fuel hδ L.lat.d S dec lovmax _ _ h.sey L.lat.fp.R b (by rw [← hw]; omega)
      (by rw [← hw]; omega) hlov _ hb'.symm
    rw [← hw] at this
    exact this
  split at hr
  · simp at hr
  rename_i g' L1 hgap
  simp only [Option.some.injEq, Prod.mk.injEq] at hr
  obtain ⟨hstop, rfl, -⟩ := hr
  -- the product
  obtain ⟨W, hW, e⟩ := mul_blocks L.lat.n L.lat.d w nb dec hfit U L.lat.B (spmatprod σ key L.lat.n w nb odd U L.lat.B)
    (by
      intro b hb
      have : (toMatrix w w fun j i => U (b * w + dec + j) (b * w + dec + i)) = toMatrix w w (Us b) := by
        ext i j
        exact p1 b hb j j.2 i i.2
      rw [this]
      obtain ⟨hlt, hUb, -⟩ := hblk b hb
      have hb' := hall b hb
      rw [List.getElem?_eq_getElem hlt] at hb'
      rw [hUb, hw]
      refine blockReduce_unit o c junk fuel δ L.lat.d S dec lovmax _ _ _ b ?_ _ hb'.symm
      have : (b + 1) * w ≤ nb * w := Nat.mul_le_mul_right _ hb
      rw [← hw]
      omega)
    (fun b hb c' r hr g1 g2 => m1 b hb c' r hr g1 g2) (fun c' r hn => m2 c' r hn)
  have hs1 := hO.si.lattice h.str (spmatprod σ key L.lat.n w nb odd U L.lat.B) U
    (σ.race key L.lat.nbswaps (BRs.map (·.nbswaps))) (L.lat.nblov + (BRs.map (·.nblov)).sum)
    (L.lat.ub || BRs.any (·.ub) || !sphaseIdx L.lat.n L.lat.d S nb dec L.swapLen odd) W hW e
  have hstop := of_decide_eq_true hstop
  have hsum : (BRs.map (·.nblov)).sum = (BRs.map (·.nblov)).length * (w - 1) := by
    rw [hbq] at hstop
    have e1 : (BRs.map fun b => (b.nblov : Int)).sum = ((BRs.map (·.nblov)).sum : ℕ) := by
      have : ∀ l : List (Lat ℝ), (l.map fun b => (b.nblov : Int)).sum = ((l.map (·.nblov)).sum : ℕ) := by
        intro l
        induction l with
        | nil => rfl
        | cons a l ih => simp only [List.map_cons, List.sum_cons, Nat.cast_add, ih]
      exact this BRs
    rw [e1] at hstop
    rw [List.length_map, hlen]
    have : ((w - 1 : ℕ) : ℤ) = 2 * (q : ℤ) - 1 := by omega
    rw [← this] at hstop
    exact_mod_cast hstop
  have heq : ∀ b (hb : b < nb), ∃ hlt : b < BRs.length, BRs[b].nblov = w - 1 := by
    intro b hb
    obtain ⟨hlt, -⟩ := hblk b hb
    refine ⟨hlt, list_sum_min (BRs.map (·.nblov)) (w - 1) ?_ hsum _ (List.mem_map.mpr ⟨BRs[b], List.getElem_mem hlt, rfl⟩)⟩
    intro x hx
    obtain ⟨B, hB, rfl⟩ := List.mem_map.mp hx
    obtain ⟨k, hk, rfl⟩ := List.mem_iff_getElem.mp hB
    obtain ⟨_, _, h3, _⟩ := hblk k (by omega)
    exact h3
  have hUT : UniTri L.lat.n L.lat.d L.lat.B (spmatprod σ key L.lat.n w nb odd U L.lat.B) := by
    intro cc hcc
    by_cases hin : ∃ b < nb, b * w + dec ≤ cc ∧ cc < b * w + dec + w
    · obtain ⟨b, hb, g1, g2⟩ := hin
      obtain ⟨hlt, hUb, -, hx⟩ := hblk b hb
      obtain ⟨_, he⟩ := heq b hb
      have hx := (hx he).1
      obtain ⟨j, rfl⟩ : ∃ j, cc = b * w + dec + j := ⟨cc - (b * w + dec), by omega⟩
      have hjw : j < w := by omega
      refine ⟨fun i => if b * w + dec ≤ i then U (b * w + dec + j) i else 0, fun r hr => ?_⟩
      rw [m1 b hb _ r hr g1 g2]
      have hUe : ∀ k < w, j ≤ k → U (b * w + dec + j) (b * w + dec + k) = if k = j then 1 else 0 := by
        intro k hk hjk
        rw [p1 b hb j hjw k hk, hUb]; exact hx j hjw k hk hjk
      rw [← sum_subset (range_mono (by omega : j + 1 ≤ w)), sum_range_succ, hUe j hjw (le_refl _), if_pos rfl]
      · rw [mul_one, add_comm]
        congr 1
        rw [sum_range_add]
        beta_reduce
        have hz : ∑ i ∈ range (b * w + dec), (if b * w + dec ≤ i then U (b * w + dec + j) i else 0) *
            L.lat.B i r = 0 := by
          refine sum_eq_zero fun i hi => ?_
          have := mem_range.mp hi
          rw [if_neg (by omega), zero_mul]
        rw [hz, zero_add]
        refine sum_congr rfl fun k hk => ?_
        rw [if_pos (by omega)]; ring
      · intro k hk hk'
        have h1 := mem_range.mp hk
        have h2 : ¬ k < j + 1 := fun h => hk' (mem_range.mpr h)
        rw [hUe k h1 (by omega), if_neg (by omega), mul_zero]
    · refine ⟨fun _ => 0, fun r hr => ?_⟩
      rw [m2 cc r fun b hb hh => hin ⟨b, hb, hh.2⟩]
      simp
  have key3 := fun a1 a2 a3 a4 a5 a6 => reduceAndGap_nogap ho c heps σ hd hA key fuel a1 a2 a3 a4 a5 a6 hgap
  exact key3 hdo hs1.inv h.numS h.sey h.bz (hG.unitri hUT)

/-- One phase: a single round of tests in each block. -/
theorem sphase_fix (ho : ExactTies o) (c : SCst ℝ) (heps : c.eps9 ≤ 1) {n d : ℕ} {A : Mat Int} (hd : 0 < d)
    (hA : FullColumnRank (toMatrix n d A)) {K : ℝ} (hc : ConvScale d K c.setF) {L : SLat ℝ} (hdo : L.dorigin = d)
    (h : PhI n d A L.lat) (hG : GsMono n d L.lat.B) (junk : ℝ) {δ : ℝ} (hδ : 8 ≤ (1 - δ) * K) (hδ1 : δ ≤ 1)
    (hK : 8 ≤ K) (S lovmax : ℕ) (hS : 0 < S) (h2S : 2 * S ∣ d) (hlov : d / S ≤ lovmax) (odd : Bool) :
    ∃ N L', (∀ key fuel, N ≤ fuel → sphase o c Sched.seq junk key fuel δ S lovmax odd L = some (true, 0, L')) ∧
      PhI n d A L'.lat ∧ GsMono n d L'.lat.B ∧ L'.dorigin = d := by
  obtain ⟨q, hq⟩ := id h2S
  have hwq : d / S = 2 * q := by
    rw [hq, Nat.mul_comm 2 S, Nat.mul_assoc, Nat.mul_div_cancel_left _ hS]
  have hbq : d / (2 * S) = q := by rw [hq, Nat.mul_div_cancel_left _ (by omega)]
  have hdS : d = S * (2 * q) := by rw [hq]; ring
  have hq0 : 0 < q := by
    rcases Nat.eq_zero_or_pos q with rfl | h
    · omega
    · exact h
  have hfit : (if odd then d / (2 * S) else 0) + (if odd then S - 1 else S) * (d / S) ≤ d := by
    rw [hbq, hwq]
    cases odd
    · simp only [Bool.false_eq_true, if_false]; omega
    · simp only [if_true]
      have : S * (2 * q) = (S - 1) * (2 * q) + 2 * q := by
        conv_lhs => rw [show S = (S - 1) + 1 by omega]
        rw [Nat.succ_mul]
      omega
  obtain ⟨N, BRs, hBR⟩ := allBlocks_term (fun fuel => blockReduce o junk fuel δ d S (if odd then d / (2 * S) else 0)
    lovmax L.lat.seysenFlag L.lat.verboseDepth (blockRZ c d L.lat.fp.R)) (if odd then S - 1 else S) (fun k hk => by
      have : (k + 1) * (d / S) ≤ (if odd then S - 1 else S) * (d / S) := Nat.mul_le_mul_right _ hk
      exact blockReduce_term ho c junk hδ1 _ S _ lovmax _ _ h.sey _ k (by omega))
  obtain ⟨⟨g, L'⟩, hr⟩ := sphase_term' ho c hd hA hdo h junk hδ1 S lovmax hS h2S odd N BRs hBR
  have hmin : ∀ b ∈ BRs, b.nblov = d / S - 1 := by
    intro B hB
    obtain ⟨hlen, hall⟩ := allBlocks_some (hBR N (le_refl _))
    obtain ⟨k, hk, rfl⟩ := List.mem_iff_getElem.mp hB
    have hk' : k < (if odd then S - 1 else S) := by omega
    have hb := hall k hk'
    rw [List.getElem?_eq_getElem hk] at hb
    have hm : (k + 1) * (d / S) ≤ (if odd then S - 1 else S) * (d / S) := Nat.mul_le_mul_right _ hk'
    refine blockReduce_min ho.toExact c junk N hδ1 d S _ lovmax _ _ _ k (by omega) (by omega) _ ?_ hb.symm
    intro j hj
    have hm2 : (k + 1) * (d / S) = k * (d / S) + d / S := Nat.succ_mul _ _
    have := mono_block hd hc h hG hδ hδ1 hK (i := k * (d / S) + j + (if odd then d / (2 * S) else 0)) (by omega)
    rw [show k * (d / S) + (j + 1) + (if odd then d / (2 * S) else 0) =
      k * (d / S) + j + (if odd then d / (2 * S) else 0) + 1 by omega]
    exact this
  have hsum : (BRs.map fun b => (b.nblov : Int)).sum = ((if odd then S - 1 else S : ℕ) : Int) *
      (2 * ((d / (2 * S) : ℕ) : Int) - 1) := by
    have hlen := (allBlocks_some (hBR N (le_refl _))).1
    have : ∀ l : List (Lat ℝ), (∀ b ∈ l, b.nblov = d / S - 1) →
        (l.map fun b => (b.nblov : Int)).sum = (l.length : Int) * (2 * (q : Int) - 1) := by
      intro l
      induction l with
      | nil => intro _; simp
      | cons a l ih =>
        intro hl
        rw [List.map_cons, List.sum_cons, ih fun b hb => hl b (by simp [hb]), hl a (by simp), List.length_cons]
        have : ((d / S - 1 : ℕ) : ℤ) = 2 * (q : ℤ) - 1 := by omega
        rw [this]; push_cast; ring
    rw [this BRs hmin, hlen, hbq]
  rw [decide_eq_true hsum] at hr
  have hr0 := hr [] (N + 2) (le_refl _)
  have hg0 : g = 0 := sphase_nogap ho.toExact c heps Sched.seq_ok hd hA hdo h hG junk [] (N + 2) hδ1 S lovmax hS h2S hlov odd g hr0
  subst hg0
  obtain ⟨a1, -, a3, -, a5⟩ := sphase_exact ho.toExact c Sched.seq_ok hd hA hdo h junk [] (N + 2) hδ1 S lovmax hS h2S hlov
    odd true 0 (by omega) hr0
  exact ⟨N + 2, L', hr, a1, hG.unitri (a5 rfl).1, a3⟩

/-- The whole call returns after one iteration. -/
theorem slll_fix (ho : ExactTies o) (c : SCst ℝ) (heps : c.eps9 ≤ 1) (n d S0 : ℕ) (hd : 0 < d) (A : Mat Int)
    (hA : FullColumnRank (toMatrix n d A)) (hG : GsMono n d (padBasis n d S0 A)) {K : ℝ} (hc : ConvScale d K c.setF)
    (h2S0 : 2 * S0 ∣ d) (forU : Bool) (method : ℤ) (hm : method < 1) (lf : Bool) (vd : ℤ) (junk : ℝ) {δ : ℝ}
    (hδ : 8 ≤ (1 - δ) * K) (hδ1 : δ ≤ 1)
    (hK : 8 ≤ K) (S lovmax : ℕ) (hS : 0 < S) (h2S : 2 * S ∣ d) (hlov : d / S ≤ lovmax) :
    ∃ N L', ∀ fuel, N ≤ fuel →
      (newSLattice o junk n d A S0 forU method lf vd).hlll o c Sched.seq junk fuel δ S lovmax = some (0, L') := by
  obtain ⟨hF, hP, hdo⟩ := fresh_exact ho.toExact n d hd A hA S0 h2S0 forU method hm lf vd junk _ rfl
  obtain ⟨L0, hL0⟩ : ∃ L0, L0 = (SLat.householder o { newSLattice o junk n d A S0 forU method lf vd with
      lat := { (newSLattice o junk n d A S0 forU method lf vd).lat with verboseDepth := vd - 1 } }).padR o := ⟨_, rfl⟩
  rw [← hL0] at hP hdo
  have hB0 : L0.lat.B = padBasis n d S0 A := by rw [hL0]; rfl
  obtain ⟨N0, L1, h1, p1, m1, d1⟩ := sphase_fix ho c heps hd hF hc hdo hP (by rw [hB0]; exact hG) junk hδ hδ1 hK S lovmax
    hS h2S hlov false
  obtain ⟨N1, L2, h2, p2, m2, d2⟩ := sphase_fix ho c heps hd hF hc d1 p1 m1 junk hδ hδ1 hK S lovmax
    hS h2S hlov true
  refine ⟨max N0 N1 + 1, { L2 with lat := { L2.lat with verboseDepth := L2.lat.verboseDepth + 1 } }, fun fuel hf => ?_⟩
  obtain ⟨f, rfl⟩ : ∃ f, fuel = f + 1 := ⟨fuel - 1, by omega⟩
  have hph : sphases o c Sched.seq junk δ S lovmax (f + 1) L0 = some (0, L2) := by
    simp only [sphases, h1 [0, f] (f + 1) (by omega), h2 [1, f] (f + 1) (by omega)]
    simp
  unfold SLat.hlll
  dsimp only
  have e : (SLat.householder o { newSLattice o junk n d A S0 forU method lf vd with
      lat := { (newSLattice o junk n d A S0 forU method lf vd).lat with
        verboseDepth := (newSLattice o junk n d A S0 forU method lf vd).lat.verboseDepth - 1 } }).padR o = L0 := by
    rw [hL0]; rfl
  rw [e, hph]

end HPLLL
