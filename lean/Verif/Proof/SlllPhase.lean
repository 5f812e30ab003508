import Verif.Proof.SlllBlock
import Verif.Proof.Short
/-! Phases of segment LLL in exact arithmetic. -/

namespace HPLLL
open Spec Finset InnerProductSpace

variable {o : FPOps ℝ}

/-- State between two phases: the diagonal of `R` gives the Gram–Schmidt norms of the basis. -/
structure PhI (n d : ℕ) (A : Mat Int) (s : Lat ℝ) : Prop where
  inv : LInv n d A False s
  numS : 0 < s.numS
  sey : s.seysenFlag < 1
  str : ∀ i j, s.str i = s.str j
  bz : ∀ c < d, ∀ r, nmaxOf s.str c ≤ r → r < n → s.fp.Bfp c r = 0
  diag : ∀ i < d, s.fp.R i i * s.fp.R i i = ‖gramSchmidt ℝ (HPLLL.colN n s.B) i‖ ^ 2
  rdiag : ∀ i < d, s.fp.R i i ≠ 0
  col0 : ∑ r ∈ range d, s.fp.R 0 r ^ 2 ≤ 2 * ‖HPLLL.colN n s.B 0‖ ^ 2

theorem normsq_colN (n : ℕ) (B : Mat Int) (j : ℕ) :
    ‖HPLLL.colN n B j‖ ^ 2 = ∑ r ∈ range n, bv n B j r ^ 2 := by
  rw [EuclideanSpace.norm_sq_eq, ← Fin.sum_univ_eq_sum_range (fun r => bv n B j r ^ 2)]
  refine sum_congr rfl fun r _ => ?_
  simp only [HPLLL.colN, bv, if_pos r.2, Real.norm_eq_abs, sq_abs]

theorem gsN_zero (n : ℕ) (B : Mat Int) : gramSchmidt ℝ (HPLLL.colN n B) 0 = HPLLL.colN n B 0 := by
  rw [← gsRem_self]; simp [gsRem]

/-- The triangular factor computed on all columns. -/
theorem PhI.of_qr {n d : ℕ} {A : Mat Int} {s : Lat ℝ} {str : ℕ → ℤ} (hd : 0 < d) (hdn : d ≤ n)
    (inv : LInv n d A False s)
    (numS : 0 < s.numS) (sey : s.seysenFlag < 1) (hstr : ∀ i j, s.str i = s.str j)
    (bz : ∀ c < d, ∀ r, nmaxOf s.str c ≤ r → r < n → s.fp.Bfp c r = 0)
    (hq : QRv n str s.B s.fp.V s.fp.R d)
    (h0 : ∀ r, 1 ≤ r → r < d → s.fp.R 0 r ^ 2 ≤ bv n s.B 0 r ^ 2) : PhI n d A s := by
  have hdiag : ∀ i < d, s.fp.R i i * s.fp.R i i = ‖gramSchmidt ℝ (HPLLL.colN n s.B) i‖ ^ 2 := by
    intro i hi
    have := hq.norm_gs hdn ⟨i, hi⟩
    rw [gs_nat] at this
    exact this.symm
  refine ⟨inv, numS, sey, hstr, bz, hdiag, hq.rdiag, ?_⟩
  have e0 := hdiag 0 hd
  rw [gsN_zero] at e0
  obtain ⟨m, rfl⟩ : ∃ m, d = m + 1 := ⟨d - 1, by omega⟩
  rw [sum_range_succ', sq, e0]
  have : ∑ r ∈ range m, s.fp.R 0 (r + 1) ^ 2 ≤ ‖HPLLL.colN n s.B 0‖ ^ 2 := by
    rw [normsq_colN]
    calc ∑ r ∈ range m, s.fp.R 0 (r + 1) ^ 2 ≤ ∑ r ∈ range m, bv n s.B 0 (r + 1) ^ 2 :=
          sum_le_sum fun r hr => h0 (r + 1) (by omega) (by have := mem_range.mp hr; omega)
      _ ≤ ∑ r ∈ range m, bv n s.B 0 (r + 1) ^ 2 + bv n s.B 0 0 ^ 2 := by nlinarith [sq_nonneg (bv n s.B 0 0)]
      _ = ∑ r ∈ range (m + 1), bv n s.B 0 r ^ 2 := (sum_range_succ' (fun r => bv n s.B 0 r ^ 2) m).symm
      _ ≤ _ := sum_le_sum_of_subset_of_nonneg (range_mono hdn) fun r _ _ => sq_nonneg _
  linarith

theorem fcr_le {n d : ℕ} {A : Mat Int} {s : Lat ℝ} (hd : 0 < d) (hA : FullColumnRank (toMatrix n d A))
    (hI : LInv n d A False s) : d ≤ n := by
  have hg := hI.geo hA
  have := hg.diag (d - 1) (by omega); have := hg.le (d - 1) (by omega); omega

/-- `reduce_and_gap_detect` that reports no gap. -/
theorem reduceAndGap_exact (ho : Exact o) (c : SCst ℝ) (σ : Sched) {n d : ℕ} {A : Mat Int} (hd : 0 < d)
    (hA : FullColumnRank (toMatrix n d A)) (key : List ℕ) (fuel : ℕ) {L L' : SLat ℝ} (hdo : L.dorigin = d)
    (hI : LInv n d A False L.lat) (hS : 0 < L.lat.numS) (hf : L.lat.seysenFlag < 1)
    (hstr : ∀ i j, L.lat.str i = L.lat.str j)
    (bz : ∀ c < d, ∀ r, nmaxOf L.lat.str c ≤ r → r < n → L.lat.fp.Bfp c r = 0)
    (h : reduceAndGap o c σ key fuel L = some (0, L')) :
    PhI n d A L'.lat ∧ SizeReduced (toMatrix n d L'.lat.B) ∧ L'.dorigin = d ∧ L'.norigin = L.norigin ∧
      ∀ B0, UniTri n d B0 L.lat.B → UniTri n d B0 L'.lat.B := by
  have hdn := fcr_le hd hA hI
  unfold reduceAndGap at h
  simp only [Option.map_eq_some_iff] at h
  obtain ⟨⟨g, s'⟩, h, e⟩ := h
  simp only [Prod.mk.injEq] at e
  obtain ⟨rfl, rfl⟩ := e
  rw [hdo] at h
  set t : Lat ℝ := { L.lat with fp := { L.lat.fp with
    colKept := fun i => if i < d then false else L.lat.fp.colKept i
    descendu := fun i => if i < d then 0 else L.lat.fp.descendu i } } with ht
  have hIt : LInv n d A False t := hI.congr rfl rfl rfl rfl rfl rfl rfl rfl
  obtain ⟨g1, g2, g3⟩ := gap_start ho hd hA hIt bz (fun c hc => if_pos hc) (fun c hc => if_pos hc)
  have key2 := fun B0 hu => gapLoop_exact ho c σ hA key fuel B0 (d - 1) 1 ((t.hhR o 0).hhV o 0) s' (by omega)
    (by omega) (hIt.congr rfl rfl rfl rfl rfl rfl rfl rfl) hS hf g1 g2 (fun k h1 h2 => by omega) hu h
  obtain ⟨a1, a2, a3, a4, a5, a6, a7, a8⟩ := key2 L.lat.B (UniTri.refl _ _ _)
  have hstr' : ∀ i j, s'.str i = s'.str j := by rw [a7]; exact hstr
  have hg := a1.geo hA
  have hnm : d ≤ nmaxOf L.lat.str 0 := by
    have h1 := hg.diag (d - 1) (by omega)
    have h2 : s'.str (d - 1) = L.lat.str 0 := by rw [a7]; exact hstr _ _
    unfold nmaxOf at *
    rw [h2] at h1; omega
  refine ⟨PhI.of_qr hd hdn a1 (by rw [a6.numS]; exact hS) (by rw [a6.seysenFlag]; exact hf) hstr' a2.bz a2.qr ?_,
    ?_, hdo, rfl, fun B0 hu => (key2 B0 hu).2.2.2.1⟩
  · intro r h1 h2
    rw [a5, g3 r h1 (by show r < nmaxOf L.lat.str 0; omega)]
    apply le_of_eq
    have : s'.B 0 = L.lat.B 0 := a8
    simp only [bv, this]; rfl
  · have := a2.qr.reduced (δ := 0) (size := True) hdn (fun k h1 h2 => ⟨fun _ => a3 k h1 h2, by
      nlinarith [mul_self_nonneg (s'.fp.R k (k - 1)), mul_self_nonneg (s'.fp.R k k)]⟩)
    exact this.1 trivial

theorem list_sum_min (l : List ℕ) (m : ℕ) (h : ∀ x ∈ l, m ≤ x) (hs : l.sum = l.length * m) :
    ∀ x ∈ l, x = m := by
  induction l with
  | nil => simp
  | cons a l ih =>
    have hge : ∀ l : List ℕ, (∀ x ∈ l, m ≤ x) → l.length * m ≤ l.sum := by
      intro l
      induction l with
      | nil => simp
      | cons b l ih =>
        intro h
        have := ih fun x hx => h x (by simp [hx])
        have := h b (by simp)
        simp only [List.length_cons, List.sum_cons, Nat.succ_mul]; omega
    have h1 := hge l fun x hx => h x (by simp [hx])
    have h2 := h a (by simp)
    simp only [List.length_cons, List.sum_cons, Nat.succ_mul] at hs
    intro x hx
    rcases List.mem_cons.mp hx with rfl | hx
    · omega
    · exact ih (fun x hx => h x (by simp [hx])) (by omega) x hx

/-- Siegel's condition for the converted diagonal, inside the blocks of a phase. -/
def BlockSiegel (c : SCst ℝ) (δ : ℝ) (d w dec nb : ℕ) (R : Mat ℝ) : Prop :=
  ∀ b < nb, ∀ j, j + 1 < w → (δ - 1 / 4) * (blockRZ c d R (b * w + dec + j) (b * w + dec + j) : ℝ) ^ 2 ≤
    (blockRZ c d R (b * w + dec + (j + 1)) (b * w + dec + (j + 1)) : ℝ) ^ 2

theorem sphase_exact (ho : Exact o) (c : SCst ℝ) {σ : Sched} (hσ : σ.Ok) {n d : ℕ} {A : Mat Int} (hd : 0 < d)
    (hA : FullColumnRank (toMatrix n d A)) {L L' : SLat ℝ} (hdo : L.dorigin = d) (h : PhI n d A L.lat)
    (junk : ℝ) (key : List ℕ) (fuel : ℕ) {δ : ℝ} (hδ : δ ≤ 1) (S lovmax : ℕ) (hS : 0 < S) (h2S : 2 * S ∣ d)
    (hlov : d / S ≤ lovmax) (odd stop : Bool) (g : ℕ) (hg : ¬ 2 ≤ g)
    (hr : sphase o c σ junk key fuel δ S lovmax odd L = some (stop, g, L')) :
    PhI n d A L'.lat ∧ SizeReduced (toMatrix n d L'.lat.B) ∧ L'.dorigin = d ∧ L'.norigin = L.norigin ∧
    (stop = true → UniTri n d L.lat.B L'.lat.B ∧
      BlockSiegel c δ d (d / S) (if odd then d / (2 * S) else 0) (if odd then S - 1 else S) L.lat.fp.R) := by
  obtain rfl : L.lat.n = n := h.inv.hn
  obtain rfl : L.lat.d = d := h.inv.hd
  have hO : SObj L.lat.n L.lat.d A L L := ⟨⟨h.inv, rfl, SameCfg.rfl' _⟩, rfl, rfl, rfl⟩
  obtain ⟨hO', hg0⟩ := hO.sphase o c hσ h.str (by omega) hd junk key fuel δ S lovmax hS odd stop g L' hr
  have hg0 : g = 0 := by rcases hg0 with h' | h' <;> omega
  subst hg0
  unfold sphase at hr
  dsimp only at hr
  split at hr
  · simp at hr
  rename_i BRs hBR
  obtain ⟨w, hw⟩ : ∃ w, w = L.lat.d / S := ⟨_, rfl⟩
  obtain ⟨dec, hdec⟩ : ∃ dec, dec = (if odd then L.lat.d / (2 * S) else 0) := ⟨_, rfl⟩
  obtain ⟨nb, hnb⟩ : ∃ nb, nb = (if odd then S - 1 else S) := ⟨_, rfl⟩
  obtain ⟨q, hq⟩ := h2S
  have hwq : w = 2 * q := by
    rw [hw, hq, Nat.mul_comm 2 S, Nat.mul_assoc, Nat.mul_div_cancel_left _ hS]
  have hbq : L.lat.d / (2 * S) = q := by rw [hq, Nat.mul_div_cancel_left _ (by omega)]
  have hq0 : 0 < q := by
    rcases Nat.eq_zero_or_pos q with rfl | h
    · omega
    · exact h
  have hdS : L.lat.d = S * w := by rw [hq, hwq]; ring
  have hfit : dec + nb * w ≤ L.lat.d := by
    rw [hdec, hnb, hbq]
    cases odd
    · simp only [Bool.false_eq_true, if_false]; omega
    · simp only [if_true]
      have : S * w = (S - 1) * w + w := by
        conv_lhs => rw [show S = (S - 1) + 1 by omega]
        rw [Nat.succ_mul]
      omega
  rw [← hnb, ← hdec] at hr hBR
  rw [← hw] at hr
  set Us : Nat → Mat Int := blockUs BRs with hUs
  set U := sput σ key L.lat.d S dec nb Us (fun _ _ => 0) with hU
  obtain ⟨hlen, hall⟩ := allBlocks_some hBR
  have hps : ∀ b, pshift w b odd = b * w + dec := by
    intro b; unfold pshift; rw [hdec, hbq, hwq, Nat.mul_div_cancel_left _ (by omega)]
  obtain ⟨p1, -⟩ := sput_apply hσ key L.lat.d S dec nb Us (fun _ _ => 0)
  rw [← hw, ← hU] at p1
  obtain ⟨m1, m2⟩ := spmatprod_apply hσ key L.lat.n w nb odd U L.lat.B
  simp only [hps] at m1 m2
  have hblk : ∀ b (hb : b < nb), ∃ hlt : b < BRs.length, Us b = BRs[b].getU.M ∧
      w - 1 ≤ BRs[b].nblov ∧ (BRs[b].nblov = w - 1 →
      (∀ j < w, ∀ i < w, j ≤ i → BRs[b].getU.M j i = if i = j then 1 else 0) ∧
      ∀ j, j + 1 < w → (δ - 1 / 4) * (blockRZ c L.lat.d L.lat.fp.R (b * w + dec + j) (b * w + dec + j) : ℝ) ^ 2 ≤
        (blockRZ c L.lat.d L.lat.fp.R (b * w + dec + (j + 1)) (b * w + dec + (j + 1)) : ℝ) ^ 2) := by
    intro b hb
    have hlt : b < BRs.length := by omega
    refine ⟨hlt, by simp only [hUs, blockUs, List.getElem?_eq_getElem hlt], ?_⟩
    have hb' := hall b hb
    rw [List.getElem?_eq_getElem hlt] at hb'
    have hm : (b + 1) * w ≤ nb * w := Nat.mul_le_mul_right _ hb
    have := blockReduce_exact ho c junk fuel hδ L.lat.d S dec lovmax _ _ h.sey L.lat.fp.R b (by rw [← hw]; omega)
      (by rw [← hw]; omega) hlov _ hb'.symm
    rw [← hw] at this
    exact this
  split at hr
  · simp at hr
  rename_i g' L1 hgap
  simp only [Option.some.injEq, Prod.mk.injEq] at hr
  obtain ⟨hstop, rfl, hL⟩ := hr
  rw [if_neg (by omega)] at hL
  -- the product
  obtain ⟨W, hW, e⟩ := mul_blocks L.lat.n L.lat.d w nb dec hfit U L.lat.B (spmatprod σ key L.lat.n w nb odd U L.lat.B)
    (by
      intro b hb
      have : (toMatrix w w fun j i => U (b * w + dec + j) (b * w + dec + i)) = toMatrix w w (Us b) := by
        ext i j
        exact p1 b hb j j.2 i i.2
      rw [this]
      obtain ⟨hlt, hUb, -⟩ := hblk b hb
      have hb' := hall b hb
      rw [List.getElem?_eq_getElem hlt] at hb'
      rw [hUb, hw]
      refine blockReduce_unit o c junk fuel δ L.lat.d S dec lovmax _ _ _ b ?_ _ hb'.symm
      have : (b + 1) * w ≤ nb * w := Nat.mul_le_mul_right _ hb
      rw [← hw]
      omega)
    (fun b hb c' r hr g1 g2 => m1 b hb c' r hr g1 g2) (fun c' r hn => m2 c' r hn)
  have hs1 := hO.si.lattice h.str (spmatprod σ key L.lat.n w nb odd U L.lat.B) U
    (σ.race key L.lat.nbswaps (BRs.map (·.nbswaps))) (L.lat.nblov + (BRs.map (·.nblov)).sum)
    (L.lat.ub || BRs.any (·.ub) || !sphaseIdx L.lat.n L.lat.d S nb dec L.swapLen odd) W hW e
  have key3 := fun a1 a2 a3 a4 a5 a6 => reduceAndGap_exact ho c σ hd hA key fuel a1 a2 a3 a4 a5 a6 hgap
  obtain ⟨r1, r2, r3, r4, r5⟩ := key3 hdo hs1.inv h.numS h.sey h.str h.bz
  have hpad : L1.padR o = L1 := by
    have hd1 : L1.lat.d = L.lat.d := r1.inv.hd
    unfold SLat.padR
    have : (fun j i => if i = j ∧ L1.dorigin ≤ j ∧ j < L1.lat.d then o.ofZ L1.amax else L1.lat.fp.R j i) =
        L1.lat.fp.R := by
      funext j i; rw [if_neg (by omega)]
    rw [this]
  rw [hpad] at hL
  subst hL
  refine ⟨r1, r2, r3, r4, fun hst => ?_⟩
  rw [hst] at hstop
  have hstop := of_decide_eq_true hstop
  have hsum : (BRs.map (·.nblov)).sum = (BRs.map (·.nblov)).length * (w - 1) := by
    rw [hbq] at hstop
    have e1 : (BRs.map fun b => (b.nblov : Int)).sum = ((BRs.map (·.nblov)).sum : ℕ) := by
      have : ∀ l : List (Lat ℝ), (l.map fun b => (b.nblov : Int)).sum = ((l.map (·.nblov)).sum : ℕ) := by
        intro l
        induction l with
        | nil => rfl
        | cons a l ih => simp only [List.map_cons, List.sum_cons, Nat.cast_add, ih]
      exact this BRs
    rw [e1] at hstop
    rw [List.length_map, hlen]
    have : ((w - 1 : ℕ) : ℤ) = 2 * (q : ℤ) - 1 := by omega
    rw [← this] at hstop
    exact_mod_cast hstop
  have heq : ∀ b (hb : b < nb), ∃ hlt : b < BRs.length, BRs[b].nblov = w - 1 := by
    intro b hb
    obtain ⟨hlt, -⟩ := hblk b hb
    refine ⟨hlt, list_sum_min (BRs.map (·.nblov)) (w - 1) ?_ hsum _ (List.mem_map.mpr ⟨BRs[b], List.getElem_mem hlt, rfl⟩)⟩
    intro x hx
    obtain ⟨B, hB, rfl⟩ := List.mem_map.mp hx
    obtain ⟨k, hk, rfl⟩ := List.mem_iff_getElem.mp hB
    obtain ⟨_, _, h3, _⟩ := hblk k (by omega)
    exact h3
  constructor
  · apply r5
    show UniTri L.lat.n L.lat.d L.lat.B (spmatprod σ key L.lat.n w nb odd U L.lat.B)
    intro cc hcc
    by_cases hin : ∃ b < nb, b * w + dec ≤ cc ∧ cc < b * w + dec + w
    · obtain ⟨b, hb, g1, g2⟩ := hin
      obtain ⟨hlt, hUb, -, hx⟩ := hblk b hb
      obtain ⟨_, he⟩ := heq b hb
      have hx := (hx he).1
      obtain ⟨j, rfl⟩ : ∃ j, cc = b * w + dec + j := ⟨cc - (b * w + dec), by omega⟩
      have hjw : j < w := by omega
      refine ⟨fun i => if b * w + dec ≤ i then U (b * w + dec + j) i else 0, fun r hr => ?_⟩
      rw [m1 b hb _ r hr g1 g2]
      have hUe : ∀ k < w, j ≤ k → U (b * w + dec + j) (b * w + dec + k) = if k = j then 1 else 0 := by
        intro k hk hjk
        rw [p1 b hb j hjw k hk, hUb]; exact hx j hjw k hk hjk
      rw [← sum_subset (range_mono (by omega : j + 1 ≤ w)), sum_range_succ, hUe j hjw (le_refl _), if_pos rfl]
      · rw [mul_one, add_comm]
        congr 1
        rw [sum_range_add]
        beta_reduce
        have hz : ∑ i ∈ range (b * w + dec), (if b * w + dec ≤ i then U (b * w + dec + j) i else 0) *
            L.lat.B i r = 0 := by
          refine sum_eq_zero fun i hi => ?_
          have := mem_range.mp hi
          rw [if_neg (by omega), zero_mul]
        rw [hz, zero_add]
        refine sum_congr rfl fun k hk => ?_
        rw [if_pos (by omega)]; ring
      · intro k hk hk'
        have h1 := mem_range.mp hk
        have h2 : ¬ k < j + 1 := fun h => hk' (mem_range.mpr h)
        rw [hUe k h1 (by omega), if_neg (by omega), mul_zero]
    · refine ⟨fun _ => 0, fun r hr => ?_⟩
      rw [m2 cc r fun b hb hh => hin ⟨b, hb, hh.2⟩]
      simp
  · rw [← hw, ← hdec, ← hnb]
    intro b hb
    obtain ⟨hlt, -, -, hx⟩ := hblk b hb
    obtain ⟨_, he⟩ := heq b hb
    exact (hx he).2

end HPLLL
