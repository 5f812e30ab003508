import Verif.Proof.ExactGen
import Verif.Proof.Mach
/-! In exact arithmetic, size reduction keeps all the basis vectors short during the whole run; hence
integers that are seen through a function that fixes short vectors give the same run. -/

namespace HPLLL
open Spec Finset

section via
variable {F : Type} (o : FPOps F) (f : Int → Int)

theorem hhR_via (κ : Nat) (s : Lat F) (h : ∀ r < nmaxOf s.str κ, f (s.B κ r) = s.B κ r) :
    s.hhR (o.via f) κ = s.hhR o κ := by
  have e : ∀ M : Mat F, fsetcolZ (o.via f) M κ (s.B κ) (nmaxOf s.str κ) =
      fsetcolZ o M κ (s.B κ) (nmaxOf s.str κ) := by
    intro M
    unfold fsetcolZ
    congr 1
    funext r
    split
    · rename_i hr
      show o.ofZ (f (s.B κ r)) = _
      rw [h r hr]
    · rfl
  have : householderR (o.via f) s.str s.B κ s.fp = householderR o s.str s.B κ s.fp := by
    unfold householderR
    by_cases hκ : κ = 0
    · subst hκ
      simp only [if_true]
      rw [e]
      rfl
    · simp only [if_neg hκ]
      unfold hhFull
      simp only []
      rw [e]
      rfl
  unfold Lat.hhR
  rw [this]

theorem hhV_via (κ : Nat) (s : Lat F) : s.hhV (o.via f) κ = s.hhV o κ := rfl

theorem sizeUpdateLoop_via (κ m : Nat) (q : Lat F × Bool) :
    sizeUpdateLoop (o.via f) κ m q = sizeUpdateLoop o κ m q := by
  induction m generalizing q with
  | zero => rfl
  | succ m ih => simp only [sizeUpdateLoop]; rw [ih]; rfl

theorem sizeUpdateRLoop_via (κ m : Nat) (q : Lat F × (Nat → F) × Bool) :
    sizeUpdateRLoop (o.via f) κ m q = sizeUpdateRLoop o κ m q := by
  induction m generalizing q with
  | zero => rfl
  | succ m ih => simp only [sizeUpdateRLoop]; rw [ih]; rfl

theorem psizeThread_via (fl : Bool) (κ : Nat) (vx : Nat → F) (ibeg nloc m : Nat) (M : Mat Int) :
    psizeThread (o.via f) fl κ vx ibeg nloc m M = psizeThread o fl κ vx ibeg nloc m M := by
  induction m generalizing M with
  | zero => rfl
  | succ m ih => simp only [psizeThread]; rw [ih]; rfl

theorem hsizePass_via (κ m : Nat) (s : Lat F) : hsizePass (o.via f) κ m s = hsizePass o κ m s := by
  unfold hsizePass psizeUpdateB
  simp only [sizeUpdateLoop_via, sizeUpdateRLoop_via, psizeThread_via]
  rfl

end via

/-! ### Short vectors -/

variable {o : FPOps ℝ}

/-- Profile and vectors are bounded. -/
structure NInv (n d : ℕ) (β : ℝ) (B : Mat Int) : Prop where
  g : ∀ j < d, (gd n B (j + 1) : ℝ) ≤ β * gd n B j
  c : ∀ j < d, Ex.dot n (bv n B j) (bv n B j) ≤ (d + 3) / 4 * β

theorem QRv.gd_diag {n : ℕ} {str : ℕ → ℤ} {B : Mat Int} {V R : Mat ℝ} {κ i : ℕ} (hκ : κ ≤ n)
    (h : QRv n str B V R κ) (hi : i < κ) : (gd n B (i + 1) : ℝ) = gd n B i * (R i i * R i i) := by
  rw [(h.mono (by omega : i + 1 ≤ κ)).gd_prod (by omega), (h.mono (by omega : i ≤ κ)).gd_prod (by omega),
    prod_range_succ]

/-- Norm of a size reduced column. -/
theorem Post.short {n d κ : ℕ} {β : ℝ} {s : Lat ℝ} (hκd : κ < d) (hg : Geo n d s.str s.B)
    (hP : Post n d κ s) (hr : SizeRed κ s.fp.R)
    (hN : ∀ j < d, (gd n s.B (j + 1) : ℝ) ≤ β * gd n s.B j) :
    Ex.dot n (bv n s.B κ) (bv n s.B κ) ≤ (d + 3) / 4 * β := by
  have hdg := hg.diag κ hκd
  have hle := hg.le κ hκd
  have hκn : κ < n := by omega
  have hpos : ∀ k ≤ d, (0 : ℝ) < gd n s.B k := fun k hk => by exact_mod_cast hg.rank k hk
  have hβ : 0 ≤ β := by
    by_contra h
    rw [not_le] at h
    have := hN κ hκd
    have p1 := hpos (κ + 1) (by omega)
    have p0 := hpos κ (by omega)
    nlinarith
  rw [← Ex.app_dot n s.fp.V κ hP.1.qr.vnorm, Ex.dot_split n κ hκn.le]
  have ht : Ex.tail n κ (Ex.app n s.fp.V κ (bv n s.B κ)) ≤ β := by
    have e := hP.1.qr.gd_tail hκn
    have := hN κ hκd
    have p0 := hpos κ (by omega)
    rw [e, mul_comm β] at this
    exact le_of_mul_le_mul_left this p0
  have hs : Ex.dot κ (Ex.app n s.fp.V κ (bv n s.B κ)) (Ex.app n s.fp.V κ (bv n s.B κ)) ≤ κ * (β / 4) := by
    unfold Ex.dot
    have : ∀ i ∈ range κ, Ex.app n s.fp.V κ (bv n s.B κ) i * Ex.app n s.fp.V κ (bv n s.B κ) i ≤ β / 4 := by
      intro i hi
      have hi := mem_range.mp hi
      rw [← hP.2.r i (by omega)]
      have e := hP.1.qr.gd_diag hκn.le hi
      have h1 := hN i (by omega)
      have p0 := hpos i (by omega)
      rw [e, mul_comm β] at h1
      have h2 := le_of_mul_le_mul_left h1 p0
      have h3 := hr i hi
      have h4 : |s.fp.R κ i| * |s.fp.R κ i| ≤ (|s.fp.R i i| / 2) * (|s.fp.R i i| / 2) :=
        mul_self_le_mul_self (abs_nonneg _) h3
      rw [abs_mul_abs_self] at h4
      have h5 := abs_mul_abs_self (s.fp.R i i)
      nlinarith
    have := sum_le_sum this
    simpa using this
  have ht' : ∑ i ∈ range (n - κ), Ex.app n s.fp.V κ (bv n s.B κ) (κ + i) *
      Ex.app n s.fp.V κ (bv n s.B κ) (κ + i) ≤ β := ht
  have hk : (κ : ℝ) + 1 ≤ d := by exact_mod_cast hκd
  nlinarith

/-- A swap does not increase the profile too much. -/
theorem Post.swap_low {n d κ : ℕ} {s : Lat ℝ} (hκ : 0 < κ) (hκd : κ < d) (hg : Geo n d s.str s.B)
    (hP : Post n d κ s) :
    (gd n s.B (κ - 1) : ℝ) * gd n s.B (κ + 1) ≤ gd n (colswap s.B (κ - 1) κ) κ * gd n s.B κ := by
  have hn : κ < n := by have := hg.diag _ hκd; have := hg.le _ hκd; omega
  have hgd' : gd n (colswap s.B (κ - 1) κ) (κ - 1) = gd n s.B (κ - 1) :=
    gd_colswap n s.B κ (κ - 1) hκ (by omega)
  have hq : QRv n s.str (colswap s.B (κ - 1) κ) s.fp.V s.fp.R (κ - 1) := by
    refine (hP.1.qr.mono (by omega : κ - 1 ≤ κ)).congr (fun _ _ => rfl) ?_
      (fun _ _ => rfl) (fun _ _ => rfl)
    intro k hk; simp only [colswap]
    rw [if_neg (by omega), if_neg (by omega)]
  have e := hq.gd_tail (by omega)
  rw [show κ - 1 + 1 = κ by omega] at e
  have hb : bv n (colswap s.B (κ - 1) κ) (κ - 1) = bv n s.B κ := by
    rw [bv_colswap]; rw [if_pos rfl]
  have ht := Ex.tail_app n s.fp.V (κ - 1) (by omega)
    (hP.1.qr.vnorm (κ - 1) (by omega)) (bv n s.B κ)
  rw [show κ - 1 + 1 = κ by omega] at ht
  rw [hgd', hb, ← ht, Ex.tail_succ n (κ - 1) _ (by omega), show κ - 1 + 1 = κ by omega] at e
  rw [e, hP.1.qr.gd_tail hn]
  have p0 : (0 : ℝ) < gd n s.B (κ - 1) := by exact_mod_cast hg.rank _ (by omega)
  have p1 : (0 : ℝ) < gd n s.B κ := by exact_mod_cast hg.rank _ (by omega)
  have p2 := mul_self_nonneg (Ex.app n s.fp.V κ (bv n s.B κ) (κ - 1))
  have := mul_nonneg (mul_nonneg p0.le p2) p1.le
  nlinarith

/-- The triangular factor exists. -/
theorem QRv.exists (ho : Exact o) {n d : ℕ} {str : ℕ → ℤ} {B : Mat Int} (hg : Geo n d str B) (p : FPart ℝ) :
    ∀ k ≤ d, ∃ V R, QRv n str B V R k := by
  intro k
  induction k with
  | zero =>
    intro _
    exact ⟨fun _ _ => 0, fun _ _ => 0, fun k hk => by omega, fun k hk => by omega,
      fun k hk => by omega, fun k hk => by omega, fun k hk => by omega⟩
  | succ k ih =>
    intro hk
    obtain ⟨V, R, h⟩ := ih (by omega)
    have hdg := hg.diag k (by omega)
    have hle := hg.le k (by omega)
    have hq : QRv n str B V (setCol R k (Ex.app n V k (bv n B k))) k :=
      h.congr (fun _ _ => rfl) (fun _ _ => rfl) (fun _ _ => rfl)
        (fun j hj => by rw [setCol_ne _ _ (by omega)])
    have hgt := h.gd_tail (by omega : k < n)
    have hT : Ex.tail n k (Ex.app n V k (bv n B k)) ≠ 0 := by
      intro h0
      rw [h0, mul_zero] at hgt
      have p1 : (0 : ℝ) < (gd n B (k + 1) : ℝ) := by exact_mod_cast hg.rank (k + 1) (by omega)
      linarith
    obtain ⟨q, -, -⟩ := QRv.extend (p := { p with
        V := V, R := setCol R k (Ex.app n V k (bv n B k)), nmaxkappa := nmaxOf str k })
      ho hq hdg hle (fun j hj => hg.mono j k (by omega) (by omega)) (hg.supp k (by omega)) rfl
      (fun i _ => by simp only [setCol_same]) hT
    exact ⟨_, _, q⟩

/-- Hadamard: the profile is bounded by the norms. -/
theorem gd_hadamard (ho : Exact o) {n d : ℕ} {str : ℕ → ℤ} {B : Mat Int} (hg : Geo n d str B) (p : FPart ℝ)
    {j : ℕ} (hj : j < d) :
    (gd n B (j + 1) : ℝ) ≤ Ex.dot n (bv n B j) (bv n B j) * gd n B j := by
  obtain ⟨V, R, h⟩ := QRv.exists ho hg p j hj.le
  have hn : j < n := by have := hg.diag j hj; have := hg.le j hj; omega
  rw [h.gd_tail hn, mul_comm]
  have p0 : (0 : ℝ) < gd n B j := by exact_mod_cast hg.rank j hj.le
  refine mul_le_mul_of_nonneg_right ?_ p0.le
  rw [← Ex.app_dot n V j h.vnorm, Ex.dot_split n j hn.le]
  have : 0 ≤ Ex.dot j (Ex.app n V j (bv n B j)) (Ex.app n V j (bv n B j)) := Ex.dot_self_nonneg _ _
  unfold Ex.tail
  linarith

theorem NInv.init (ho : Exact o) {n d : ℕ} {str : ℕ → ℤ} {B : Mat Int} (hg : Geo n d str B) (p : FPart ℝ)
    {β : ℝ} (hβ : ∀ j < d, Ex.dot n (bv n B j) (bv n B j) ≤ β) : NInv n d β B := by
  constructor
  · intro j hj
    refine (gd_hadamard ho hg p hj).trans ?_
    have p0 : (0 : ℝ) < gd n B j := by exact_mod_cast hg.rank j hj.le
    exact mul_le_mul_of_nonneg_right (hβ j hj) p0.le
  · intro j hj
    have h1 := hβ j hj
    have h2 := Ex.dot_self_nonneg n (bv n B j)
    have hd : (1 : ℝ) ≤ d := by exact_mod_cast (by omega : 1 ≤ d)
    nlinarith

/-! ### The run -/

/-- `f` fixes the integers that fit in a vector of squared norm `Γ`. -/
def Fix (f : Int → Int) (Γ : ℝ) : Prop := ∀ z : ℤ, (z : ℝ) * z ≤ Γ → f z = z

theorem Fix.col {f : Int → Int} {Γ : ℝ} (h : Fix f Γ) {n j : ℕ} {B : Mat Int}
    (hc : Ex.dot n (bv n B j) (bv n B j) ≤ Γ) (r : ℕ) (hr : r < n) : f (B j r) = B j r := by
  refine h _ (le_trans ?_ hc)
  have e : bv n B j r = (B j r : ℝ) := by unfold bv; rw [if_pos hr]
  rw [← e]
  unfold Ex.dot
  exact single_le_sum (f := fun r => bv n B j r * bv n B j r) (fun i _ => mul_self_nonneg _)
    (mem_range.mpr hr)

theorem NInv.zsteps {n d κ : ℕ} {A : Mat Int} {track : Prop} {β : ℝ} {s s' : Lat ℝ} (hκd : κ < d)
    (hI : LInv n d A track s) (hz : ZSteps κ s s') (h : NInv n d β s.B)
    (hc : Ex.dot n (bv n s'.B κ) (bv n s'.B κ) ≤ (d + 3) / 4 * β) : NInv n d β s'.B := by
  constructor
  · intro j hj
    rw [ZSteps.gd hκd hI hz, ZSteps.gd hκd hI hz]
    exact h.g j hj
  · intro j hj
    by_cases e : j = κ
    · subst e; exact hc
    · have : bv n s'.B j = bv n s.B j := by unfold bv; rw [hz.frame.Bcol j e]
      rw [this]; exact h.c j hj

theorem hsizeLoop_via (ho : Exact o) {n d κ : ℕ} {A : Mat Int} {track : Prop} {β : ℝ} {f : Int → Int}
    (hf : Fix f ((d + 3) / 4 * β))
    (hκ : 0 < κ) (hκd : κ < d) (hA : FullColumnRank (toMatrix n d A)) (fuel : ℕ) :
    ∀ (b : Bool) (s : Lat ℝ), 0 < s.numS → LInv n d A track s → Post n d κ s →
    NInv n d β s.B → hsizeLoop (o.via f) κ κ fuel b s = hsizeLoop o κ κ fuel b s := by
  induction fuel with
  | zero => intro b s _ _ _ _; rfl
  | succ fuel ih =>
    intro b s hS hI hP hN
    obtain ⟨-, ⟨-, c3, c4, c5⟩, -⟩ := pass_spec ho hκ hκd hA hS hI hP
    have hzs := hsizePass_zs o (κ := κ) (le_refl κ) s
    simp only [hsizeLoop]
    rw [hsizePass_via]
    set t : Lat ℝ := { (hsizePass o κ κ s).1 with fp := { (hsizePass o κ κ s).1.fp with
      colKept := setAt (hsizePass o κ κ s).1.fp.colKept κ false } } with ht
    have hBt : (t.hhR o κ).B = t.B := rfl
    have hzt : ZSteps κ s t := hzs.trans (zs_fp _ _ _ _)
    have hsh : Ex.dot n (bv n t.B κ) (bv n t.B κ) ≤ (d + 3) / 4 * β := by
      refine Post.short (s := t.hhR o κ) hκd (c3.geo hA) c4 c5 ?_
      intro j hj
      rw [hBt, ZSteps.gd hκd hI hzt, ZSteps.gd hκd hI hzt]
      exact hN.g j hj
    have hNt : NInv n d β t.B := hN.zsteps hκd hI hzt hsh
    have hvia : t.hhR (o.via f) κ = t.hhR o κ := hhR_via o f κ t (fun r hr =>
      hf.col hsh r (lt_of_lt_of_le hr ((c3.geo hA).le κ hκd)))
    rw [hvia]
    have hS' : 0 < (t.hhR o κ).numS := by
      have := hzs.frame.numS
      show 0 < (hsizePass o κ κ s).1.numS
      rw [this]; exact hS
    have := fun b => ih b (t.hhR o κ) hS' (c3.congr rfl rfl rfl rfl rfl rfl rfl rfl) c4 hNt
    rw [this]
    rfl

theorem hlllReduce_via (ho : Exact o) {n d κ : ℕ} {A : Mat Int} {track : Prop} {β : ℝ} {f : Int → Int}
    (hf : Fix f ((d + 3) / 4 * β))
    (hκ : 0 < κ) (hκd : κ < d) (hA : FullColumnRank (toMatrix n d A)) (fuel : ℕ)
    (s : Lat ℝ) (hS : 0 < s.numS) (hm : s.seysenFlag < 1) (hI : LInv n d A track s)
    (hM : Mid n d κ s) (hN : NInv n d β s.B) :
    hlllReduce (o.via f) fuel κ s = hlllReduce o fuel κ s := by
  unfold hlllReduce
  rw [if_pos hm, if_pos hm]
  unfold hsizereduce
  simp only [Nat.lt_irrefl, if_false]
  rw [show κ - 1 + 1 = κ by omega]
  rw [hhR_via o f κ s (fun r hr =>
      hf.col (hN.c κ hκd) r (lt_of_lt_of_le hr ((hI.geo hA).le κ hκd)))]
  exact hsizeLoop_via ho hf hκ hκd hA fuel _ (s.hhR o κ) hS
    (hI.congr rfl rfl rfl rfl rfl rfl rfl rfl) (hM.hhR ho hκ hκd (hI.geo hA)) hN

theorem hlllReduce_short (ho : Exact o) {n d κ : ℕ} {A : Mat Int} {track : Prop} {β : ℝ}
    (hκ : 0 < κ) (hκd : κ < d) (hA : FullColumnRank (toMatrix n d A)) (fuel : ℕ)
    (s s' : Lat ℝ) (st : ℤ) (hS : 0 < s.numS) (hm : s.seysenFlag < 1) (hI : LInv n d A track s)
    (hM : Mid n d κ s) (hN : NInv n d β s.B) (h : hlllReduce o fuel κ s = some (st, s')) :
    NInv n d β s'.B ∧ Post n d κ s' ∧ LInv n d A track s' ∧ ZSteps κ s s' := by
  obtain ⟨-, hP, hr⟩ := hlllReduce_spec ho hκ hκd hA fuel s s' st hS hI hM h
  have hz := hlllReduce_zs o hκ fuel s st s' h
  have hI' := hI.zsteps hκd hz
  refine ⟨hN.zsteps hκd hI hz ?_, hP, hI', hz⟩
  refine Post.short hκd (hI'.geo hA) hP (hr hm) ?_
  intro j hj
  rw [ZSteps.gd hκd hI hz, ZSteps.gd hκd hI hz]
  exact hN.g j hj

/-- One iteration keeps the vectors short. -/
theorem NInv.step (ho : Exact o) {n d : ℕ} {A : Mat Int} {track : Prop} {β δ : ℝ} {h h' : HState ℝ}
    (hδ : δ ≤ 1) (hA : FullColumnRank (toMatrix n d A)) (hE : ExInv n d A track δ h)
    (hm : h.s.seysenFlag < 1) (hκd : h.kappa < d) (fuel : ℕ) (hN : NInv n d β h.s.B)
    (hs : hlllStep o fuel δ h = .next h') : NInv n d β h'.s.B := by
  obtain ⟨hM, hI1⟩ := hE.mid ho hA hκd
  have hpf := (hlllPrep_zs o h.kappa h.s).frame
  have hok := hE.step ho hA hκd fuel
  rw [hs] at hok
  obtain ⟨-, hgs, -, -⟩ := hok
  have hB : (hlllPrep o h.kappa h.s).B = h.s.B := by
    unfold hlllPrep; split <;> rfl
  unfold hlllStep at hs
  simp only [] at hs
  cases hr : hlllReduce o fuel h.kappa (hlllPrep o h.kappa h.s) with
  | none => rw [hr] at hs; simp at hs
  | some r =>
    obtain ⟨st, s⟩ := r
    obtain ⟨hNs, hP, hIs, hz⟩ := hlllReduce_short ho hE.pos hκd hA fuel _ s st
      (by rw [hpf.numS]; exact hE.numS) (by rw [hpf.seysenFlag]; exact hm) hI1 hM
      (by rw [hB]; exact hN) hr
    have hgd : ∀ k, gd n s.B k = gd n h.s.B k := by
      intro k; rw [ZSteps.gd hκd hI1 hz, hB]
    rw [hr] at hs
    simp only [] at hs
    split at hs
    · simp at hs
    · split at hs
      · split at hs
        · simp at hs
        · simp only [HStep.next.injEq] at hs
          subst hs
          exact hNs
      · simp only [HStep.next.injEq] at hs
        subst hs
        have hg := hIs.geo hA
        have hlow := hP.swap_low hE.pos hκd hg
        have hne : ∀ k, k ≠ h.kappa → gd n (colswap s.B (h.kappa - 1) h.kappa) k = gd n s.B k :=
          fun k hk => gd_colswap n s.B h.kappa k hE.pos hk
        have hlt : (gd n (colswap s.B (h.kappa - 1) h.kappa) h.kappa : ℝ) ≤ gd n s.B h.kappa := by
          rcases hgs with ⟨a, -, -⟩ | ⟨-, -, -, b⟩
          · exfalso
            have a : max (h.kappa - 1) 1 = h.kappa + 1 := a
            have := hE.pos
            omega
          · have b : (gd n (colswap s.B (h.kappa - 1) h.kappa) h.kappa : ℝ) <
              δ * gd n h.s.B h.kappa := b
            rw [hgd]
            have p : (0 : ℝ) < gd n s.B h.kappa := by exact_mod_cast hg.rank _ hκd.le
            rw [hgd] at p
            nlinarith
        have hpos : ∀ k ≤ d, (0 : ℝ) < gd n s.B k := fun k hk => by exact_mod_cast hg.rank k hk
        show NInv n d β (colswap s.B (h.kappa - 1) h.kappa)
        have hκ := hE.pos
        constructor
        · intro j hj
          by_cases j1 : j = h.kappa
          · subst j1
            rw [hne _ (by omega)]
            have a1 := hNs.g (h.kappa - 1) (by omega)
            rw [show h.kappa - 1 + 1 = h.kappa by omega] at a1
            have q1 := hpos (h.kappa - 1) (by omega)
            have q2 := hpos (h.kappa + 1) (by omega)
            have q3 := hpos h.kappa (by omega)
            -- g(κ-1) g(κ+1) ≤ g' g ≤ β g(κ-1) g'
            have g0 : (0 : ℝ) < gd n (colswap s.B (h.kappa - 1) h.kappa) h.kappa := by
              by_contra hc
              rw [not_lt] at hc
              have := mul_pos q1 q2
              nlinarith
            have b1 : (gd n s.B (h.kappa - 1) : ℝ) * gd n s.B (h.kappa + 1) ≤
                gd n s.B (h.kappa - 1) *
                  (β * gd n (colswap s.B (h.kappa - 1) h.kappa) h.kappa) := by nlinarith
            exact le_of_mul_le_mul_left b1 q1
          · by_cases j2 : j + 1 = h.kappa
            · rw [j2, hne j j1]
              refine hlt.trans ?_
              have := hNs.g j hj
              rw [j2] at this
              exact this
            · rw [hne _ j1, hne _ j2]; exact hNs.g j hj
        · intro j hj
          rw [bv_colswap]
          split
          · exact hNs.c _ hκd
          · split
            · exact hNs.c _ (by omega)
            · exact hNs.c j hj

theorem hlllStep_via (ho : Exact o) {n d : ℕ} {A : Mat Int} {track : Prop} {β δ : ℝ} {h : HState ℝ}
    {f : Int → Int} (hf : Fix f ((d + 3) / 4 * β))
    (hA : FullColumnRank (toMatrix n d A)) (hE : ExInv n d A track δ h)
    (hm : h.s.seysenFlag < 1) (hκd : h.kappa < d) (fuel : ℕ) (hN : NInv n d β h.s.B) :
    hlllStep (o.via f) fuel δ h = hlllStep o fuel δ h := by
  obtain ⟨hM, hI1⟩ := hE.mid ho hA hκd
  have hpf := (hlllPrep_zs o h.kappa h.s).frame
  have hB : (hlllPrep o h.kappa h.s).B = h.s.B := by
    unfold hlllPrep; split <;> rfl
  have hprep : hlllPrep (o.via f) h.kappa h.s = hlllPrep o h.kappa h.s := by
    unfold hlllPrep
    split
    · simp only []
      have hv := fun s : Lat ℝ => fun (e1 : s.str = h.s.str) (e2 : s.B = h.s.B) =>
        hhR_via o f 0 s (fun r hr => by
          rw [e1] at hr; rw [e2]
          exact hf.col (hN.c 0 (by omega)) r (lt_of_lt_of_le hr ((hE.inv.geo hA).le 0 (by omega))))
      rw [hv]
      all_goals rfl
    · rfl
  unfold hlllStep
  simp only []
  rw [hprep, hlllReduce_via ho hf hE.pos hκd hA fuel _ (by rw [hpf.numS]; exact hE.numS)
    (by rw [hpf.seysenFlag]; exact hm) hI1 hM (by rw [hB]; exact hN)]
  rfl

theorem hlllLoop_short (ho : Exact o) {n d : ℕ} {A : Mat Int} {track : Prop} {β δ : ℝ}
    (hδ : δ ≤ 1) (hA : FullColumnRank (toMatrix n d A)) (fuel : ℕ) :
    ∀ (h : HState ℝ), ExInv n d A track δ h → h.s.seysenFlag < 1 → h.s.kappaMax = d →
    NInv n d β h.s.B →
    (∀ st s', hlllLoop o δ fuel h = some (st, s') → NInv n d β s'.B) ∧
    ∀ f : Int → Int, Fix f ((d + 3) / 4 * β) → hlllLoop (o.via f) δ fuel h = hlllLoop o δ fuel h := by
  induction fuel with
  | zero => intro h _ _ _ _; exact ⟨fun st s' h => by simp [hlllLoop] at h, fun _ _ => rfl⟩
  | succ fuel ih =>
    intro h hE hm hk hN
    simp only [hlllLoop]
    by_cases hc : h.kappa < h.s.kappaMax ∧ h.s.nblov < h.s.nblovMax
    · simp only [if_pos hc]
      have hκd : h.kappa < d := by omega
      have hok := hE.step ho hA hκd (fuel + 1)
      cases e : hlllStep o (fuel + 1) δ h with
      | diverge =>
        refine ⟨fun st s' h => by simp at h, fun f hf => ?_⟩
        rw [hlllStep_via ho hf hA hE hm hκd (fuel + 1) hN, e]
      | fail s => rw [e] at hok; exact absurd hδ hok
      | next h1 =>
        rw [e] at hok
        obtain ⟨e1, -, -, e4⟩ := hok
        obtain ⟨i1, i2⟩ := ih h1 e1 (by rw [e4.seysenFlag]; exact hm) (by rw [e4.kappaMax]; exact hk)
          (hN.step ho hδ hA hE hm hκd (fuel + 1) e)
        refine ⟨i1, fun f hf => ?_⟩
        rw [hlllStep_via ho hf hA hE hm hκd (fuel + 1) hN, e]
        exact i2 f hf
    · simp only [if_neg hc]
      refine ⟨fun st s' h => ?_, fun f hf => trivial⟩
      simp only [Option.some.injEq, Prod.mk.injEq] at h
      rw [← h.2]; exact hN

end HPLLL
