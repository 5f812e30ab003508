import Verif.Proof.Idem
import Verif.Proof.HhAll
import Verif.Proof.ExactHist
/-! Runs of the main loop on a basis that is already reduced (exact arithmetic). -/

namespace HPLLL
open Spec Finset InnerProductSpace

variable {o : FPOps ℝ}

theorem gs_ne_zero {n d : ℕ} {A : Mat Int} (hA : FullColumnRank (toMatrix n d A)) (hdn : d ≤ n) :
    ∀ k < d, gramSchmidt ℝ (HPLLL.colN n A) k ≠ 0 := by
  intro k hk h0
  have hq := hhAll_spec realOps_exact.toExact A
    { Bfp := fun _ _ => 0, Rkept := fun _ _ => 0, nmaxkappa := 0, R := fun _ _ => 0, V := fun _ _ => 0, VR := fun _ _ => 0,
      normB2 := fun _ => 0, colKept := fun _ => false, kappamin := fun _ => 0,
      descendu := fun _ => 0, x := 0 } hA hdn d (le_refl d)
  have h1 := hq.norm_gs hdn ⟨k, hk⟩
  rw [gs_nat, h0] at h1
  have := hq.rdiag k hk
  simp at h1
  exact this h1

theorem UniTri.refl (n d : ℕ) (A : Mat Int) : UniTri n d A A :=
  fun _ _ => ⟨fun _ => 0, fun _ _ => by simp⟩

/-- Integer operations on column `κ` keep the relation. -/
theorem UniTri.zsteps {F : Type} {n d κ : ℕ} {A A0 : Mat Int} {track : Prop} {s s' : Lat F} (hκ : κ < d)
    (hI : LInv n d A track s) (hz : ZSteps κ s s') (hu : UniTri n d A0 s.B) : UniTri n d A0 s'.B := by
  induction hz with
  | refl => exact hu
  | tail h1 h2 ih =>
    have hI' := hI.zsteps hκ h1
    cases h2 with
    | fp p b => exact ih
    | col p b i c hi =>
      refine ih.axpy hi hκ c _ fun r hr hrn => hI'.supp i (by omega) r hrn ?_
      unfold nmaxOf at hr; omega
    | pcol i c l hi hl hp =>
      refine ih.axpy hi hκ c _ fun r hr hrn => hI'.supp i (by omega) r hrn ?_
      unfold nmaxOf at hl; omega

/-- Size-reduced columns in terms of the triangular factor. -/
theorem sizeReduced_sizeRed {n d κ : ℕ} {str : ℕ → ℤ} {B : Mat Int} {V R : Mat ℝ} (hκ : κ < d)
    (hn : κ < n) (h : SizeReduced (toMatrix n d B)) (hq : QRv n str B V R (κ + 1)) : SizeRed κ R := by
  intro i hi
  have h1 := h ⟨κ, hκ⟩ ⟨i, by omega⟩ hi
  rw [mu_nat] at h1
  have h2 := hq.mu_eq (by omega) ⟨κ, by omega⟩ ⟨i, by omega⟩ hi
  rw [mu_nat] at h2
  simp only [] at h1 h2
  rw [h2, abs_div, div_le_iff₀ (abs_pos.mpr (hq.rdiag i (by omega)))] at h1
  linarith

/-- One size reduction of a size-reduced column changes nothing in the basis. -/
theorem hlllReduce_fixed (ho : ExactTies o) {n d κ : ℕ} {A : Mat Int} {track : Prop}
    (hκ : 0 < κ) (hκd : κ < d) (hA : FullColumnRank (toMatrix n d A)) (fuel : ℕ) (s s' : Lat ℝ)
    (st : ℤ) (hS : 0 < s.numS) (hI : LInv n d A track s) (hM : Mid n d κ s) (hf : s.seysenFlag < 1)
    (hB : SizeReduced (toMatrix n d s.B))
    (h : hlllReduce o fuel κ s = some (st, s')) : s'.B = s.B := by
  have hg := hI.geo hA
  have hpost := hM.hhR ho.toExact hκ hκd hg
  have hI' : LInv n d A track (s.hhR o κ) := hI.congr rfl rfl rfl rfl rfl rfl rfl rfl
  have hn : κ < n := by have := hg.diag _ hκd; have := hg.le _ hκd; omega
  obtain ⟨hh, vf, -, -⟩ := Post.up (s := s.hhR o κ) ho.toExact hκ hκd hI.hn hg hpost
  have hq := (hh.full (by omega)).qr
  have hsr : SizeRed κ (s.hhR o κ).fp.R := by
    have := sizeReduced_sizeRed hκd hn hB hq
    intro i hi
    have e := this i hi
    rw [show (hlllUp κ ((s.hhR o κ).hhV o κ)).fp.R = ((s.hhR o κ).hhV o κ).fp.R from rfl] at e
    rw [vf.Rκ i (by omega), vf.R i (by omega)] at e
    exact e
  obtain ⟨-, -, c6⟩ := pass_spec ho.toExact hκ hκd hA (s := s.hhR o κ) hS hI' hpost
  have hq2 := c6 ho hsr
  obtain ⟨-, -, a3, -⟩ := hsizePass_spec ho.toExact (s.hhR o κ) hS hpost.1.qr
    (fun i hi => hg.supp i (by omega)) (fun r hr => hpost.2.r r (by
      have := hg.diag κ hκd; show r < nmaxOf s.str κ; omega))
  obtain ⟨b1, -⟩ := a3 hq2
  unfold hlllReduce at h
  rw [if_pos hf] at h
  unfold hsizereduce at h
  simp only [Nat.lt_irrefl, if_false] at h
  rw [show κ - 1 + 1 = κ by omega] at h
  cases fuel with
  | zero => simp [hsizeLoop] at h
  | succ fuel =>
    simp only [hsizeLoop, hq2, Bool.false_eq_true, if_false, Option.some.injEq, Prod.mk.injEq] at h
    rw [← h.2]; exact b1

/-- What one iteration does on a basis that satisfies the Lovász conditions up to size reduction. -/
theorem ExInv.step_noswap (ho : Exact o) {n d : ℕ} {A A0 : Mat Int} {track : Prop} {δ : ℝ} {h h' : HState ℝ}
    (hA : FullColumnRank (toMatrix n d A)) (hE : ExInv n d A track δ h) (hκd : h.kappa < d)
    (fuel : ℕ) (hA0 : ∀ k < d, gramSchmidt ℝ (HPLLL.colN n A0) k ≠ 0)
    (hu : UniTri n d A0 h.s.B) (hL : LovMin δ n d A0) (hs : hlllStep o fuel δ h = .next h') :
    h'.kappa = h.kappa + 1 ∧ h'.s.nbswaps = h.s.nbswaps ∧ UniTri n d A0 h'.s.B ∧
    (ExactTies o → h.s.seysenFlag < 1 → SizeReduced (toMatrix n d h.s.B) → h'.s.B = h.s.B) := by
  obtain ⟨hM, hI1⟩ := hE.mid ho hA hκd
  have hκ := hE.pos
  have hzp := hlllPrep_zs o h.kappa h.s
  have hpf := hzp.frame
  have hS1 : 0 < (hlllPrep o h.kappa h.s).numS := by rw [hpf.numS]; exact hE.numS
  unfold hlllStep at hs
  simp only [] at hs
  cases hr : hlllReduce o fuel h.kappa (hlllPrep o h.kappa h.s) with
  | none => rw [hr] at hs; simp at hs
  | some r =>
    obtain ⟨flag, s⟩ := r
    rw [hr] at hs
    obtain ⟨rfl, hP, hsr⟩ := hlllReduce_spec ho hκ hκd hA fuel _ _ _ hS1 hI1 hM hr
    have hzs : ZSteps h.kappa h.s s := hzp.trans (hlllReduce_zs o hκ fuel _ _ _ hr)
    have hfr := hzs.frame
    have hI : LInv n d A track s := hE.inv.zsteps hκd hzs
    have hg := hI.geo hA
    have hnt := newt_eq ho hκ hκd hg hP
    have hn : h.kappa < n := by have := hg.diag _ hκd; have := hg.le _ hκd; omega
    have hus : UniTri n d A0 s.B := hu.zsteps hκd hE.inv hzs
    have hlv : lovtest o δ h.kappa s.fp = δ *
        (s.fp.R (h.kappa - 1) (h.kappa - 1) * s.fp.R (h.kappa - 1) (h.kappa - 1)) := by
      unfold lovtest; rw [ho.mul, ho.mul]
    have hle : o.le (lovtest o δ h.kappa s.fp) (newt o s.str h.kappa s.fp) = true := by
      obtain ⟨hh, vf, hRR, -⟩ := Post.up (s := s) ho hκ hκd hI.hn hg hP
      have hq := (hh.full (by omega)).qr
      have hLs := (hus.lovMin hA0).1 hL (h.kappa - 1) (by omega) 0
      rw [show h.kappa - 1 + 1 = h.kappa by omega] at hLs
      have n1 := hq.norm_gs (by omega) ⟨h.kappa - 1, by omega⟩
      have n2 := hq.norm_gs (by omega) ⟨h.kappa, by omega⟩
      have m1 := hq.mu_eq (by omega) ⟨h.kappa, by omega⟩ ⟨h.kappa - 1, by omega⟩
        (by rw [Fin.lt_def]; simp only []; omega)
      have hne := hq.rdiag (h.kappa - 1) (by omega)
      rw [gs_nat] at n1 n2
      rw [mu_nat] at m1
      rw [show (hlllUp h.kappa (s.hhV o h.kappa)).fp.R = (s.hhV o h.kappa).fp.R from rfl] at n1 n2 m1 hne
      simp only [] at n1 n2 m1
      rw [m1, n1, n2, hRR] at hLs
      have e1 : (s.hhV o h.kappa).fp.R (h.kappa - 1) = s.fp.R (h.kappa - 1) := vf.R _ (by omega)
      have e2 : (s.hhV o h.kappa).fp.R h.kappa (h.kappa - 1) = s.fp.R h.kappa (h.kappa - 1) :=
        vf.Rκ _ (by omega)
      rw [e1] at hne
      rw [e1, e2] at hLs
      rw [ho.le, hlv, hnt, Ex.tail_succ n (h.kappa - 1) _ (by omega),
        show h.kappa - 1 + 1 = h.kappa by omega, ← hP.2.r (h.kappa - 1) (by have := hg.diag _ hκd; omega)]
      have e3 : (s.fp.R h.kappa (h.kappa - 1) / s.fp.R (h.kappa - 1) (h.kappa - 1) + ((0 : ℤ) : ℝ)) ^ 2 *
        (s.fp.R (h.kappa - 1) (h.kappa - 1) * s.fp.R (h.kappa - 1) (h.kappa - 1)) =
          s.fp.R h.kappa (h.kappa - 1) * s.fp.R h.kappa (h.kappa - 1) := by
        push_cast; rw [add_zero]; field_simp
      rw [e3] at hLs
      linarith
    simp only [] at hs
    rw [if_neg (by decide), if_pos hle] at hs
    split at hs
    · simp at hs
    · simp only [HStep.next.injEq] at hs
      subst hs
      refine ⟨rfl, hfr.nbswaps, hus, ?_⟩
      intro hot hf hsz
      have hpB : (hlllPrep o h.kappa h.s).B = h.s.B := by
        unfold hlllPrep; split <;> rfl
      show s.B = h.s.B
      rw [hlllReduce_fixed hot hκ hκd hA fuel _ _ _ hS1 hI1 hM (by rw [hpf.seysenFlag]; exact hf)
        (by rw [hpB]; exact hsz) hr, hpB]

/-- The whole loop on such a basis. -/
theorem ExInv.loop_noswap (ho : Exact o) {n d : ℕ} {A A0 : Mat Int} {track : Prop} {δ : ℝ} (hδ : δ ≤ 1)
    (hA : FullColumnRank (toMatrix n d A)) (hA0 : ∀ k < d, gramSchmidt ℝ (HPLLL.colN n A0) k ≠ 0)
    (hL : LovMin δ n d A0) : ∀ (fuel : ℕ) (h : HState ℝ), ExInv n d A track δ h →
    h.s.kappaMax = d → UniTri n d A0 h.s.B → ∀ st s', hlllLoop o δ fuel h = some (st, s') →
    st = 0 ∧ s'.nbswaps = h.s.nbswaps ∧ UniTri n d A0 s'.B ∧
    (h.s.nblov + (d - h.kappa) ≤ h.s.nblovMax → s'.nblov = h.s.nblov + (d - h.kappa)) ∧
    (ExactTies o → h.s.seysenFlag < 1 → SizeReduced (toMatrix n d h.s.B) → s'.B = h.s.B) := by
  intro fuel
  induction fuel with
  | zero => intro h _ _ _ st s' h2; simp [hlllLoop] at h2
  | succ fuel ih =>
    intro h hE hkm hu st s' hl
    simp only [hlllLoop] at hl
    split at hl
    · rename_i hc
      have hκd : h.kappa < d := by omega
      have hst := hE.step ho hA hκd (fuel + 1)
      cases hs : hlllStep o (fuel + 1) δ h with
      | diverge => rw [hs] at hl; simp at hl
      | fail s => rw [hs] at hst; exact absurd hδ hst
      | next h1 =>
        rw [hs] at hl hst
        obtain ⟨e1, e2, e3, e4⟩ := hst
        obtain ⟨f1, f2, f3, f4⟩ := hE.step_noswap ho hA hκd (fuel + 1) hA0 hu hL hs
        obtain ⟨g1, g2, g3, g4, g5⟩ := ih h1 e1 (by rw [e4.kappaMax, hkm]) f3 st s' hl
        have hb := e4.nblovMax
        refine ⟨g1, by omega, g3, fun hh => ?_, fun a b c => ?_⟩
        · rw [g4 (by omega)]; omega
        · have := f4 a b c
          rw [g5 a (by rw [e4.seysenFlag]; exact b) (by rw [this]; exact c), this]
    · rename_i hc
      simp only [Option.some.injEq, Prod.mk.injEq] at hl
      obtain ⟨rfl, rfl⟩ := hl
      refine ⟨rfl, rfl, hu, fun hh => ?_, fun _ _ _ => rfl⟩
      rw [hkm] at hc
      by_cases hk : h.kappa < d
      · exfalso; exact hc ⟨hk, by omega⟩
      · omega

/-- `hlll` on a basis that satisfies the Lovász conditions up to size reduction. -/
theorem ExReady.noswap (ho : Exact o) {n d : ℕ} {A A0 : Mat Int} {s s' : Lat ℝ}
    (hA : FullColumnRank (toMatrix n d A)) (hR : ExReady n d A s) {fuel : ℕ} {δ : ℝ} (hδ : δ ≤ 1)
    (hu : UniTri n d A0 s.B) (hA0 : FullColumnRank (toMatrix n d A0)) (hL : LovMin δ n d A0)
    {v : Bool} {st : ℤ} (h : HPLLL.hlll o fuel δ v s = some (st, s')) :
    st = 0 ∧ s'.nbswaps = s.nbswaps ∧ UniTri n d A0 s'.B ∧
    (s.nblov + (d - 1) ≤ s.nblovMax → s'.nblov = s.nblov + (d - 1)) ∧
    (ExactTies o → s.seysenFlag < 1 → SizeReduced (toMatrix n d s.B) → s'.B = s.B) := by
  have hE := hR.init (o := o) δ v
  have hdn : d ≤ n := by
    rcases Nat.eq_zero_or_pos d with h0 | h0
    · omega
    · have hg := hE.inv.geo hA
      have := hg.diag (d - 1) (by omega); have := hg.le (d - 1) (by omega); omega
  have hA0' := gs_ne_zero hA0 hdn
  unfold HPLLL.hlll at h
  simp only [] at h
  split at h
  · simp at h
  · rename_i st1 s1 hl
    simp only [Option.some.injEq, Prod.mk.injEq] at h
    obtain ⟨rfl, rfl⟩ := h
    have := ExInv.loop_noswap ho hδ hA hA0' hL fuel _ hE (by cases v <;> exact hR.km)
      (by cases v <;> exact hu) st1 s1 hl
    obtain ⟨b1, b2, b3, b4, b5⟩ := this
    refine ⟨b1, ?_, ?_, ?_, ?_⟩
    · cases v <;> exact b2
    · cases v <;> exact b3
    · intro hd
      cases v <;> exact b4 hd
    · intro a b c
      cases v <;> exact b5 a b c

end HPLLL
