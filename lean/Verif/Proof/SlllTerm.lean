import Verif.Proof.SlllFinal
/-! A phase of segment LLL returns in exact arithmetic. -/

namespace HPLLL
open Spec Finset InnerProductSpace

variable {o : FPOps ℝ}

theorem exactTies_withTenth (ho : ExactTies o) (t : ℝ) : ExactTies { o with tenth := t } :=
  ⟨exact_withTenth ho.toExact t, ho.tie⟩

theorem gapLoop_term (ho : ExactTies o) (c : SCst ℝ) {n d : ℕ} {A : Mat Int} {track : Prop}
    (hA : FullColumnRank (toMatrix n d A)) : ∀ (k i : ℕ) (s : Lat ℝ),
    0 < i → i + k = d → LInv n d A track s → 0 < s.numS → s.seysenFlag < 1 →
    (i < d → Mid n d i s) → ∃ r, ∀ (σ : Sched) (key : List ℕ) (fuel : ℕ),
      gapLoop o c σ key (fuel + 2) d k i s = some r := by
  intro k
  induction k with
  | zero => intro i s _ _ _ _ _ _; exact ⟨_, fun _ _ _ => rfl⟩
  | succ k ih =>
    intro i s hi hik hI hS hf hM
    have hid : i < d := by omega
    have ho' := exactTies_withTenth ho c.thousandth
    obtain ⟨⟨st, s2⟩, hr⟩ := hlllReduce_term ho' hi hid hA 0 s hS hI (hM hid) hf
    have hcol : ∀ (σ : Sched) (key : List ℕ) (fuel : ℕ), sreduceCol o c σ key (fuel + 2) i s = some s2 := by
      intro σ key fuel
      have hr' := hlllReduce_mono _ i (0 + 2) fuel s _ hr
      unfold sreduceCol
      rw [if_pos hf]
      unfold hlllReduce at hr'
      rw [if_pos hf] at hr'
      rw [show fuel + 2 = 0 + 2 + fuel by omega, hr']; rfl
    simp only [gapLoop, hcol]
    split
    · exact ⟨_, fun _ _ _ => rfl⟩
    · obtain ⟨-, hP, hsr⟩ := hlllReduce_spec ho'.toExact hi hid hA (0 + 2) _ _ _ hS hI (hM hid) hr
      have hzs := hlllReduce_zs _ hi (0 + 2) _ _ _ hr
      have hI2 : LInv n d A track s2 := hI.zsteps hid hzs
      have hfr := hzs.frame
      obtain ⟨n1, n2, n3⟩ := Post.next ho.toExact hi hid hI2.hn (hI2.geo hA) hP
      exact ih (i + 1) _ (by omega) (by omega)
          (hI2.congr rfl rfl rfl rfl rfl rfl rfl rfl) (by show 0 < s2.numS; rw [hfr.numS]; exact hS)
          (by show s2.seysenFlag < 1; rw [hfr.seysenFlag]; exact hf) n2

theorem reduceAndGap_term (ho : ExactTies o) (c : SCst ℝ) {n d : ℕ} {A : Mat Int} (hd : 0 < d)
    (hA : FullColumnRank (toMatrix n d A)) {L : SLat ℝ} (hdo : L.dorigin = d)
    (hI : LInv n d A False L.lat) (hS : 0 < L.lat.numS) (hf : L.lat.seysenFlag < 1)
    (bz : ∀ c < d, ∀ r, nmaxOf L.lat.str c ≤ r → r < n → L.lat.fp.Bfp c r = 0) :
    ∃ r, ∀ (σ : Sched) (key : List ℕ) (fuel : ℕ), reduceAndGap o c σ key (fuel + 2) L = some r := by
  unfold reduceAndGap
  simp only []
  rw [hdo]
  set t : Lat ℝ := { L.lat with fp := { L.lat.fp with
    colKept := fun i => if i < d then false else L.lat.fp.colKept i
    descendu := fun i => if i < d then 0 else L.lat.fp.descendu i } } with ht
  have hIt : LInv n d A False t := hI.congr rfl rfl rfl rfl rfl rfl rfl rfl
  obtain ⟨g1, g2, g3⟩ := gap_start ho.toExact hd hA hIt bz (fun c hc => if_pos hc) (fun c hc => if_pos hc)
  obtain ⟨r, hr⟩ := gapLoop_term ho c hA (d - 1) 1 ((t.hhR o 0).hhV o 0) (by omega)
    (by omega) (hIt.congr rfl rfl rfl rfl rfl rfl rfl rfl) hS hf g2
  simp only [hr]
  exact ⟨_, fun _ _ _ => rfl⟩

theorem blockReduce_term (ho : ExactTies o) (c : SCst ℝ) (junk : ℝ) {δ : ℝ} (hδ : δ ≤ 1)
    (d S dec lovmax : ℕ) (sey vd : ℤ) (hsey : sey < 1) (R : Mat ℝ) (k : ℕ) (hk : (k + 1) * (d / S) + dec ≤ d) :
    ∃ N L, ∀ fuel, N ≤ fuel →
      blockReduce o junk fuel δ d S dec lovmax sey vd (blockRZ c d R) k = some L := by
  generalize hwd : d / S = w at *
  have hrows : (getblockSq ⟨d, d, blockRZ c d R⟩ k k S dec).rows = w := hwd
  set M := (getblockSq ⟨d, d, blockRZ c d R⟩ k k S dec).M with hM
  rw [Nat.succ_mul] at hk
  have hent : ∀ c' r, c' < w → r < w → M c' r = blockRZ c d R (k * w + c' + dec) (k * w + r + dec) := by
    intro c' r h1 h2
    rw [hM, getblockSq_apply]
    simp only [hwd]
    rw [if_pos ⟨h1, h2⟩]
  have hfull : FullColumnRank (toMatrix w w M) := by
    refine fullRank_triangular M ?_ ?_
    · intro j i hji hi
      rw [hent j i (by omega) hi]
      unfold blockRZ
      rw [if_pos (by omega), if_pos (by omega)]
    · intro j hj
      rw [hent j j hj hj]
      unfold blockRZ
      rw [if_pos (by omega), if_neg (by omega)]
      split
      · simp
      · rename_i hne; intro h0; exact hne ⟨rfl, h0⟩
  set s0 := (newLattice o junk w w M true sey true vd).setNblovMax lovmax with hs0
  have hR : ExReady w w M s0 := ⟨LInv.of_basis M False _ rfl rfl rfl rfl False.elim, Nat.zero_lt_one, by
    intro _ _ _ _ _; exact ho.zero, rfl⟩
  obtain ⟨N, s', h⟩ := hR.terminates ho hfull hδ hsey false
  refine ⟨N, s', fun fuel hf => ?_⟩
  unfold blockReduce
  simp only []
  rw [hrows, ← hM, ← hs0]
  obtain ⟨e, rfl⟩ : ∃ e, fuel = N + e := ⟨fuel - N, by omega⟩
  rw [hlll_mono o N e δ false s0 _ h]
  rfl

theorem allBlocks_term (f : ℕ → ℕ → Option (Lat ℝ)) (nb : ℕ)
    (h : ∀ k < nb, ∃ N L, ∀ fuel, N ≤ fuel → f fuel k = some L) :
    ∃ N l, ∀ fuel, N ≤ fuel → allBlocks (f fuel) nb = some l := by
  induction nb with
  | zero => exact ⟨0, [], fun _ _ => rfl⟩
  | succ nb ih =>
    obtain ⟨N, l, h1⟩ := ih fun k hk => h k (by omega)
    obtain ⟨N', L, h2⟩ := h nb (by omega)
    refine ⟨max N N', l ++ [L], fun fuel hf => ?_⟩
    simp only [allBlocks, h1 fuel (by omega), h2 fuel (by omega)]



/-- A phase whose blocks return. -/
theorem sphase_term' (ho : ExactTies o) (c : SCst ℝ) {n d : ℕ} {A : Mat Int} (hd : 0 < d)
    (hA : FullColumnRank (toMatrix n d A)) {L : SLat ℝ} (hdo : L.dorigin = d) (h : PhI n d A L.lat)
    (junk : ℝ) {δ : ℝ} (hδ : δ ≤ 1) (S lovmax : ℕ) (hS : 0 < S) (h2S : 2 * S ∣ d) (odd : Bool)
    (N : ℕ) (BRs : List (Lat ℝ)) (hBR : ∀ fuel, N ≤ fuel → allBlocks (blockReduce o junk fuel δ d S
      (if odd then d / (2 * S) else 0) lovmax L.lat.seysenFlag L.lat.verboseDepth (blockRZ c d L.lat.fp.R))
      (if odd then S - 1 else S) = some BRs) :
    ∃ r, ∀ key fuel, N + 2 ≤ fuel → sphase o c Sched.seq junk key fuel δ S lovmax odd L = some
      (decide ((BRs.map fun b => (b.nblov : Int)).sum = ((if odd then S - 1 else S : ℕ) : Int) *
        (2 * ((d / (2 * S) : ℕ) : Int) - 1)), r) := by
  obtain rfl : L.lat.n = n := h.inv.hn
  obtain rfl : L.lat.d = d := h.inv.hd
  have hO : SObj L.lat.n L.lat.d A L L := ⟨⟨h.inv, rfl, SameCfg.rfl' _⟩, rfl, rfl, rfl⟩
  obtain ⟨w, hw⟩ : ∃ w, w = L.lat.d / S := ⟨_, rfl⟩
  obtain ⟨dec, hdec⟩ : ∃ dec, dec = (if odd then L.lat.d / (2 * S) else 0) := ⟨_, rfl⟩
  obtain ⟨nb, hnb⟩ : ∃ nb, nb = (if odd then S - 1 else S) := ⟨_, rfl⟩
  obtain ⟨q, hq⟩ := h2S
  have hwq : w = 2 * q := by
    rw [hw, hq, Nat.mul_comm 2 S, Nat.mul_assoc, Nat.mul_div_cancel_left _ hS]
  have hbq : L.lat.d / (2 * S) = q := by rw [hq, Nat.mul_div_cancel_left _ (by omega)]
  have hdS : L.lat.d = S * w := by rw [hq, hwq]; ring
  have hfit : dec + nb * w ≤ L.lat.d := by
    rw [hdec, hnb, hbq]
    cases odd
    · simp only [Bool.false_eq_true, if_false]; omega
    · simp only [if_true]
      have : S * w = (S - 1) * w + w := by
        conv_lhs => rw [show S = (S - 1) + 1 by omega]
        rw [Nat.succ_mul]
      omega
  rw [← hdec, ← hnb] at hBR
  have hall := (allBlocks_some (hBR N (le_refl _))).2
  have hlen := (allBlocks_some (hBR N (le_refl _))).1
  set U := sput Sched.seq [] L.lat.d S dec nb (blockUs BRs) (fun _ _ => 0) with hU
  have hps : ∀ b, pshift w b odd = b * w + dec := by
    intro b; unfold pshift; rw [hdec, hbq, hwq, Nat.mul_div_cancel_left _ (by omega)]
  obtain ⟨p1, -⟩ := sput_apply Sched.seq_ok [] L.lat.d S dec nb (blockUs BRs) (fun _ _ => 0)
  rw [← hw, ← hU] at p1
  obtain ⟨m1, m2⟩ := spmatprod_apply Sched.seq_ok [] L.lat.n w nb odd U L.lat.B
  simp only [hps] at m1 m2
  obtain ⟨W, hW, e⟩ := mul_blocks L.lat.n L.lat.d w nb dec hfit U L.lat.B (spmatprod Sched.seq [] L.lat.n w nb odd U L.lat.B)
    (by
      intro b hb
      have : (toMatrix w w fun j i => U (b * w + dec + j) (b * w + dec + i)) = toMatrix w w (blockUs BRs b) := by
        ext i j
        exact p1 b hb j j.2 i i.2
      rw [this]
      have hlt : b < BRs.length := by omega
      have hUb : blockUs BRs b = BRs[b].getU.M := by
        simp only [blockUs, List.getElem?_eq_getElem hlt]
      have hb' := hall b hb
      rw [List.getElem?_eq_getElem hlt] at hb'
      rw [hUb, hw]
      refine blockReduce_unit o c junk _ δ L.lat.d S dec lovmax _ _ _ b ?_ _ hb'.symm
      have : (b + 1) * w ≤ nb * w := Nat.mul_le_mul_right _ hb
      rw [← hw]
      omega)
    (fun b hb c' r hr g1 g2 => m1 b hb c' r hr g1 g2) (fun c' r hn => m2 c' r hn)
  have hs1 := hO.si.lattice h.str (spmatprod Sched.seq [] L.lat.n w nb odd U L.lat.B) U
    (Sched.seq.race [] L.lat.nbswaps (BRs.map (·.nbswaps))) (L.lat.nblov + (BRs.map (·.nblov)).sum)
    (L.lat.ub || BRs.any (·.ub) || !sphaseIdx L.lat.n L.lat.d S nb dec L.swapLen odd) W hW e
  have key3 := reduceAndGap_term (L := { L with
      swapstab := addSwaps odd BRs L.swapstab
      lat := { L.lat with
        nbswaps := Sched.seq.race [] L.lat.nbswaps (BRs.map (·.nbswaps))
        nblov := L.lat.nblov + (BRs.map (·.nblov)).sum
        U := U
        B := spmatprod Sched.seq [] L.lat.n w nb odd U L.lat.B
        ub := L.lat.ub || BRs.any (·.ub) || !sphaseIdx L.lat.n L.lat.d S nb dec L.swapLen odd } }) (n := L.lat.n) (d := L.lat.d) (A := A) ho c hd hA
      hdo hs1.inv h.numS h.sey h.bz
  obtain ⟨⟨g, L3⟩, h3⟩ := key3
  refine ⟨(g, if 2 ≤ g then L3 else L3.padR o), fun key fuel hf => ?_⟩
  obtain ⟨f2, rfl⟩ : ∃ f2, fuel = f2 + 2 := ⟨fuel - 2, by omega⟩
  have h3 := h3 Sched.seq key f2
  unfold sphase
  dsimp only
  rw [← hdec, ← hnb, hBR _ (by omega)]
  dsimp only
  rw [← hw]
  dsimp only at h3
  have e1 : sput Sched.seq key L.lat.d S dec nb (blockUs BRs) (fun _ _ => 0) = U := rfl
  have e2 : spmatprod Sched.seq key L.lat.n w nb odd U L.lat.B = spmatprod Sched.seq [] L.lat.n w nb odd U L.lat.B := rfl
  have e3 : Sched.seq.race key L.lat.nbswaps (BRs.map (·.nbswaps)) =
    Sched.seq.race [] L.lat.nbswaps (BRs.map (·.nbswaps)) := rfl
  rw [e1, e2, e3, h3]

/-- A block that satisfies the Lovász condition already. -/
theorem blockReduce_min (ho : Exact o) (c : SCst ℝ) (junk : ℝ) (fuel : ℕ) {δ : ℝ} (hδ : δ ≤ 1)
    (d S dec lovmax : ℕ) (sey vd : ℤ) (R : Mat ℝ) (k : ℕ) (hk : (k + 1) * (d / S) + dec ≤ d)
    (hlov : d / S ≤ lovmax + 1) (L : Lat ℝ)
    (hsg : ∀ j, j + 1 < d / S → δ * (blockRZ c d R (k * (d / S) + j + dec) (k * (d / S) + j + dec) : ℝ) ^ 2 ≤
        (blockRZ c d R (k * (d / S) + (j + 1) + dec) (k * (d / S) + (j + 1) + dec) : ℝ) ^ 2)
    (h : blockReduce o junk fuel δ d S dec lovmax sey vd (blockRZ c d R) k = some L) :
    L.nblov = d / S - 1 := by
  unfold blockReduce at h
  simp only [Option.map_eq_some_iff] at h
  obtain ⟨⟨st, L'⟩, h, rfl⟩ := h
  generalize hwd : d / S = w at *
  have hrows : (getblockSq ⟨d, d, blockRZ c d R⟩ k k S dec).rows = w := hwd
  set M := (getblockSq ⟨d, d, blockRZ c d R⟩ k k S dec).M with hM
  rw [hrows] at h
  rw [Nat.succ_mul] at hk
  have hent : ∀ c' r, c' < w → r < w → M c' r = blockRZ c d R (k * w + c' + dec) (k * w + r + dec) := by
    intro c' r h1 h2
    rw [hM, getblockSq_apply]
    simp only [hwd]
    rw [if_pos ⟨h1, h2⟩]
  have ht0 : ∀ j i, j < i → i < w → M j i = 0 := by
    intro j i hji hi
    rw [hent j i (by omega) hi]
    unfold blockRZ
    rw [if_pos (by omega), if_pos (by omega)]
  have ht1 : ∀ j < w, M j j ≠ 0 := by
    intro j hj
    rw [hent j j hj hj]
    unfold blockRZ
    rw [if_pos (by omega), if_neg (by omega)]
    split
    · simp
    · rename_i hne; intro h0; exact hne ⟨rfl, h0⟩
  have hfull : FullColumnRank (toMatrix w w M) := fullRank_triangular M ht0 ht1
  set s0 := (newLattice o junk w w M true sey true vd).setNblovMax lovmax with hs0
  have hR : ExReady w w M s0 := ⟨LInv.of_basis M False _ rfl rfl rfl rfl False.elim, Nat.zero_lt_one, by
    intro _ _ _ _ _; exact ho.zero, rfl⟩
  have hlm : LovMin δ w w M := by
    intro j hj cc
    rw [norm_gs_triangular M ht0 ht1 j (by omega), norm_gs_triangular M ht0 ht1 (j + 1) hj]
    have := hsg j hj
    rw [← hent j j (by omega) (by omega), ← hent (j + 1) (j + 1) hj hj] at this
    nlinarith [mul_nonneg (sq_nonneg (inner ℝ (gramSchmidt ℝ (HPLLL.colN w M) j) (HPLLL.colN w M (j + 1)) /
        (M j j : ℝ) ^ 2 + cc)) (sq_nonneg (M j j : ℝ))]
  have := (hR.noswap ho hfull hδ (UniTri.refl w w M) hfull hlm h).2.2.2.1
  have e0 : s0.nblov = 0 := rfl
  have e1 : s0.nblovMax = lovmax := rfl
  rw [e0, e1] at this
  show L'.nblov = w - 1
  rw [this (by omega)]; omega

end HPLLL
