import Verif.Proof.DecExact
import Verif.Proof.Decomp
/-! One iteration of the FGAS decomposition in exact arithmetic. -/

namespace HPLLL
open Spec Finset

namespace Dec

variable {o : FPOps ℝ}

theorem Sp_update {d : ℕ} {M M' : Mat Int} {κ K : ℕ} (hK : K ≤ κ) (hM : ∀ c, c ≠ κ → M' c = M c)
    (hdiff : bv d M' κ - bv d M κ ∈ Sp d M K) (k : ℕ) : Sp d M' k = Sp d M k := by
  by_cases hk : κ < k
  · have hb : ∀ c, c ≠ κ → bv d M' c = bv d M c := fun c hc => by unfold bv; rw [hM c hc]
    have hKk : Sp d M K ≤ Sp d M k := Sp_mono (by omega)
    have hK' : Sp d M K ≤ Sp d M' k := Sp_le fun i hi => by
      rw [← hb i (by omega)]; exact bv_mem_Sp (by omega)
    apply le_antisymm
    · refine Sp_le fun i hi => ?_
      by_cases h : i = κ
      · subst h
        have := Submodule.add_mem _ (hKk hdiff) (bv_mem_Sp (d := d) (M := M) hk)
        rwa [sub_add_cancel] at this
      · rw [hb i h]; exact bv_mem_Sp hi
    · refine Sp_le fun i hi => ?_
      by_cases h : i = κ
      · subst h
        have := Submodule.sub_mem _ (bv_mem_Sp (d := d) (M := M') hk) (hK' hdiff)
        rwa [sub_sub_cancel] at this
      · rw [← hb i h]; exact bv_mem_Sp hi
  · exact Sp_congr fun i hi => hM i (by omega)

theorem hsizeRange_append (q : XOps Int ℝ) (fuel l2 : ℕ) : ∀ (l1 a : ℕ) (s : Fg Int ℝ),
    Fg.hsizeRange o q fuel a (l1 + l2) s =
      (Fg.hsizeRange o q fuel a l1 s).bind (Fg.hsizeRange o q fuel (a + l1) l2) := by
  intro l1
  induction l1 with
  | zero => intro a s; simp [Fg.hsizeRange]
  | succ l1 ih =>
    intro a s
    rw [show l1 + 1 + l2 = (l1 + l2) + 1 by omega]
    simp only [Fg.hsizeRange]
    cases s.hsizereduce o q fuel a with
    | none => rfl
    | some s1 =>
      simp only
      rw [ih, show a + 1 + l1 = a + (l1 + 1) by omega]

/-- Outcome of `hsizereduce(a), ..., hsizereduce(b-1)`, left part. -/
structure LOut (a b : ℕ) (s s' : Fg Int ℝ) : Prop where
  same : Same s s'
  Mc : ∀ c, c < a ∨ b ≤ c → s'.M c = s.M c
  Rc : ∀ c, c < a ∨ b ≤ c → s'.fp.R c = s.fp.R c
  gd : ∀ k, gd s.d s'.M k = gd s.d s.M k
  sp : ∀ k, Sp s.d s'.M k = Sp s.d s.M k
  qr : QR s.d s'.M s'.fp.V s'.fp.R b
  red : ∀ κ, a ≤ κ → κ < b → ∀ r < κ, |s'.fp.R κ r| ≤ |s'.fp.R r r| / 2

theorem range_left (ho : ExactTies o) {fuel : ℕ} (hf : 2 ≤ fuel) : ∀ (len a : ℕ) (s : Fg Int ℝ),
    a + len ≤ s.d - s.ldim → QR s.d s.M s.fp.V s.fp.R a → (∀ k ≤ a + len, 0 < gd s.d s.M k) →
    ∃ s', Fg.hsizeRange o (zX o) fuel a len s = some s' ∧ LOut a (a + len) s s' := by
  intro len
  induction len with
  | zero =>
    intro a s h1 h2 h3
    exact ⟨s, rfl, ⟨Same.rfl' s, fun _ _ => rfl, fun _ _ => rfl, fun _ => rfl, fun _ => rfl, h2,
      fun κ h4 h5 => by omega⟩⟩
  | succ len ih =>
    intro a s h1 h2 h3
    have hm : min a (s.d - s.ldim) = a := by omega
    obtain ⟨s1, e1, e2, e3, -⟩ := hsizereduce_spec ho (κ := a) s (by rw [hm]; exact h2) fuel hf
    rw [hm] at e2
    have hD := e3 (by omega)
    have hq1 : QR s.d s1.M s1.fp.V s1.fp.R a :=
      h2.congr (fun _ _ => rfl) (fun k hk => e2.Mc k (by omega))
        (fun k hk => e2.Vc k (by omega)) (fun k hk => e2.Rc k (by omega))
    have hq2 : QR s.d s1.M s1.fp.V s1.fp.R (a + 1) := by
      refine hD.qr hq1 ?_
      intro h0
      have h4 := hq1.gd_tail (by omega : a < s.d)
      rw [h0, mul_zero, e2.gd] at h4
      have h5 : gd s.d s.M (a + 1) = 0 := by exact_mod_cast h4
      have := h3 (a + 1) (by omega)
      omega
    obtain ⟨s2, f1, f2⟩ := ih (a + 1) s1 (by rw [e2.same.1, e2.same.2.2.2]; omega)
      (by rw [e2.same.1]; exact hq2)
      (fun k hk => by rw [e2.same.1, e2.gd]; exact h3 k (by omega))
    have hsd := e2.same.1
    refine ⟨s2, ?_, ?_⟩
    · simp only [Fg.hsizeRange, e1]; exact f1
    · rw [show a + 1 + len = a + (len + 1) by omega] at f2
      refine ⟨e2.same.trans f2.same, ?_, ?_, ?_, ?_, ?_, ?_⟩
      · intro c hc; rw [f2.Mc c (by omega), e2.Mc c (by omega)]
      · intro c hc; rw [f2.Rc c (by omega), e2.Rc c (by omega)]
      · intro k; have := f2.gd k; rw [hsd] at this; rw [this, e2.gd]
      · intro k; have := f2.sp k; rw [hsd] at this
        rw [this]; exact Sp_update (le_refl _) e2.Mc e2.diff k
      · have := f2.qr; rw [hsd] at this; exact this
      · intro κ h4 h5 r hr
        by_cases h : κ = a
        · subst h
          rw [f2.Rc κ (by omega), f2.Rc r (by omega), e2.Rc r (by omega)]
          exact e2.red r hr
        · exact f2.red κ (by omega) h5 r hr

/-- Outcome of `hsizereduce(a), ..., hsizereduce(b-1)`, right part, `m = d - ldim`. -/
structure ROut (m a b : ℕ) (s s' : Fg Int ℝ) : Prop where
  same : Same s s'
  Mc : ∀ c, c < a ∨ b ≤ c → s'.M c = s.M c
  Rc : ∀ c, c < a ∨ b ≤ c → s'.fp.R c = s.fp.R c
  V : s'.fp.V = s.fp.V
  gd : ∀ k, gd s.d s'.M k = gd s.d s.M k
  mem : ∀ κ, a ≤ κ → κ < b → bv s.d s.M κ ∈ Sp s.d s.M m → bv s.d s'.M κ ∈ Sp s.d s.M m
  tr : ∀ κ, a ≤ κ → κ < b → ∀ r < m, s'.fp.R κ r = Ex.app s.d s.fp.V m (bv s.d s'.M κ) r
  red : ∀ κ, a ≤ κ → κ < b → ∀ r < m, |s'.fp.R κ r| ≤ |s.fp.R r r| / 2

theorem range_right (ho : ExactTies o) {fuel m : ℕ} (hf : 2 ≤ fuel) : ∀ (len a : ℕ) (s : Fg Int ℝ),
    m = s.d - s.ldim → m ≤ a → QR s.d s.M s.fp.V s.fp.R m →
    ∃ s', Fg.hsizeRange o (zX o) fuel a len s = some s' ∧ ROut m a (a + len) s s' := by
  intro len
  induction len with
  | zero =>
    intro a s h0 h1 h2
    exact ⟨s, rfl, ⟨Same.rfl' s, fun _ _ => rfl, fun _ _ => rfl, rfl, fun _ => rfl,
      fun κ h4 h5 => by omega, fun κ h4 h5 => by omega, fun κ h4 h5 => by omega⟩⟩
  | succ len ih =>
    intro a s h0 h1 h2
    have hm : min a (s.d - s.ldim) = m := by omega
    obtain ⟨s1, e1, e2, -, e4⟩ := hsizereduce_spec ho (κ := a) s (by rw [hm]; exact h2) fuel hf
    rw [hm] at e2
    have hV := e4 (by omega)
    have hsd := e2.same.1
    have hq1 : QR s1.d s1.M s1.fp.V s1.fp.R m := by
      rw [hsd]
      exact h2.congr (fun _ _ => rfl) (fun k hk => e2.Mc k (by omega))
        (fun k hk => e2.Vc k (by omega)) (fun k hk => e2.Rc k (by omega))
    obtain ⟨s2, f1, f2⟩ := ih (a + 1) s1 (by rw [hsd, e2.same.2.2.2]; exact h0) (by omega) hq1
    have hsp : Sp s.d s1.M m = Sp s.d s.M m := Sp_congr fun i hi => e2.Mc i (by omega)
    have hb : ∀ c, c ≠ a → bv s.d s1.M c = bv s.d s.M c := fun c hc => by
      unfold bv; rw [e2.Mc c hc]
    refine ⟨s2, ?_, ?_⟩
    · simp only [Fg.hsizeRange, e1]; exact f1
    · rw [show a + 1 + len = a + (len + 1) by omega] at f2
      refine ⟨e2.same.trans f2.same, ?_, ?_, ?_, ?_, ?_, ?_, ?_⟩
      · intro c hc; rw [f2.Mc c (by omega), e2.Mc c (by omega)]
      · intro c hc; rw [f2.Rc c (by omega), e2.Rc c (by omega)]
      · rw [f2.V, hV]
      · intro k; have := f2.gd k; rw [hsd] at this; rw [this, e2.gd]
      · intro κ h4 h5 h6
        by_cases h : κ = a
        · subst h
          have : bv s.d s2.M κ = bv s.d s1.M κ := by unfold bv; rw [f2.Mc κ (by omega)]
          rw [this]
          have := Submodule.add_mem _ e2.diff h6
          rwa [sub_add_cancel] at this
        · have := f2.mem κ (by omega) h5
          rw [hsd, hsp, hb κ h] at this
          exact this h6
      · intro κ h4 h5 r hr
        by_cases h : κ = a
        · subst h
          have : bv s.d s2.M κ = bv s.d s1.M κ := by unfold bv; rw [f2.Mc κ (by omega)]
          rw [this, f2.Rc κ (by omega)]
          exact e2.tr r hr
        · have := f2.tr κ (by omega) h5 r hr
          rw [hsd, hV] at this
          exact this
      · intro κ h4 h5 r hr
        by_cases h : κ = a
        · subst h
          rw [f2.Rc κ (by omega)]; exact e2.red r hr
        · rw [← e2.Rc r (by omega)]; exact f2.red κ (by omega) h5 r hr

/-! ### Positions -/

theorem argmax (ho : Exact o) (f : ℕ → ℝ) : ∀ (l : List ℕ) (t : ℕ × ℝ), t.2 = f t.1 →
    let u := l.foldl (fun t j => if o.lt t.2 (f j) then (j, f j) else t) t
    u.2 = f u.1 ∧ t.2 ≤ u.2 ∧ ∀ j ∈ l, f j ≤ u.2 := by
  intro l
  induction l with
  | nil => intro t h; exact ⟨h, le_refl _, fun j hj => by simp at hj⟩
  | cons a l ih =>
    intro t h
    simp only [List.foldl_cons]
    obtain ⟨h1, h2, h3⟩ := ih (if o.lt t.2 (f a) then (a, f a) else t) (by split; rfl; exact h)
    have h4 : t.2 ≤ (if o.lt t.2 (f a) then (a, f a) else t).2 ∧
        f a ≤ (if o.lt t.2 (f a) then (a, f a) else t).2 := by
      split
      · rename_i hl; exact ⟨((ho.lt _ _).mp hl).le, le_refl _⟩
      · rename_i hl
        exact ⟨le_refl _, by
          by_contra hc
          exact hl ((ho.lt _ _).mpr (by linarith [not_le.mp hc]))⟩
    refine ⟨h1, h4.1.trans h2, fun j hj => ?_⟩
    rcases List.mem_cons.mp hj with rfl | hj
    · exact h4.2.trans h2
    · exact h3 j hj

theorem gpow_exact (ho : Exact o) (γ : ℝ) (j : ℕ) : gpow o γ j = γ ^ (j + 1) := by
  induction j with
  | zero => simp [gpow]
  | succ j ih => simp only [gpow, ho.mul, ih]; ring

/-- The position found in the left part, when it is not the last one. -/
theorem leftPos_next (ho : Exact o) (γ : ℝ) (hγ : 1 ≤ γ) (R : Mat ℝ) (e m k : ℕ)
    (hk : k = (leftPos o (gpow o γ) R e m).1) (hkm : k + 1 < m) :
    γ * |R (k + 1) (k + 1)| ≤ |R k k| := by
  have hγ0 : 0 < γ := by linarith
  have hex : ∀ i j, o.abs (o.mul (gpow o γ i) (R j j)) = γ ^ (i + 1) * |R j j| := by
    intro i j
    rw [ho.abs, ho.mul, gpow_exact ho, abs_mul, abs_of_pos (pow_pos hγ0 _)]
  obtain ⟨f, hf⟩ : ∃ f : ℕ → ℝ, f = fun j => if j = e then γ * |R e e| else γ ^ (j + 1) * |R j j| := ⟨_, rfl⟩
  have hfe : f e = γ * |R e e| := by rw [hf]; simp
  have hfj : ∀ j, j ≠ e → f j = γ ^ (j + 1) * |R j j| := fun j hj => by rw [hf]; simp [hj]
  have hL : leftPos o (gpow o γ) R e m = (List.range' (e + 1) (m - (e + 1))).foldl
      (fun t j => if o.lt t.2 (f j) then (j, f j) else t) (e, f e) := by
    unfold leftPos
    rw [hex 0 e, zero_add, pow_one, ← hfe]
    apply List.foldl_ext
    intro t j hj
    rw [List.mem_range'_1] at hj
    rw [hex j j, ← hfj j (by omega)]
  have hke := leftPos_ge (o := o) (gpow o γ) R e m
  rw [← hk] at hke
  obtain ⟨h1, h2, h3⟩ := argmax ho f (List.range' (e + 1) (m - (e + 1))) (e, f e) rfl
  rw [← hL] at h1 h2 h3
  rw [← hk] at h1
  have h4 := h3 (k + 1) (by rw [List.mem_range'_1]; omega)
  rw [h1, hfj (k + 1) (by omega)] at h4
  by_cases hkE : k = e
  · rw [hkE, hfe] at h4
    rw [hkE]
    have hp : 1 ≤ γ ^ e := one_le_pow₀ hγ
    have hx := abs_nonneg (R (e + 1) (e + 1))
    have h5 : γ * (γ * |R (e + 1) (e + 1)|) ≤ γ * |R e e| := by
      have : γ ^ (e + 1 + 1) = γ ^ e * (γ * γ) := by ring
      rw [this] at h4
      have h6 : 0 ≤ γ * γ * |R (e + 1) (e + 1)| := by positivity
      nlinarith
    exact le_of_mul_le_mul_left h5 hγ0
  · rw [hfj k hkE, pow_succ] at h4
    have h5 : γ ^ (k + 1) * (γ * |R (k + 1) (k + 1)|) ≤ γ ^ (k + 1) * |R k k| := by linarith
    exact le_of_mul_le_mul_left h5 (pow_pos hγ0 _)

theorem rightPos_max (ho : Exact o) (R : Mat ℝ) (r a b j : ℕ) (hj : a ≤ j) (hjb : j < b) :
    |R j r| ≤ |R (rightPos o R r a b).1 r| := by
  obtain ⟨h1, h2, h3⟩ := argmax ho (fun j => o.abs (R j r))
    (List.range' (a + 1) (b - (a + 1))) (a, o.abs (R a r)) rfl
  rw [← ho.abs, ← ho.abs]
  unfold rightPos
  rw [← h1]
  by_cases h0 : j = a
  · subst h0; exact h2
  · exact h3 j (by rw [List.mem_range'_1]; omega)

theorem diagMin_le (ho : Exact o) (R : Mat ℝ) (e hi : ℕ) (P : ℝ → Prop)
    (h : ∀ i < hi, P |R i i|) (h0 : P |R e e|) : P (diagMin o R e hi) := by
  unfold diagMin
  have : ∀ (l : List ℕ) (t : ℝ), (∀ i ∈ l, P |R i i|) → P t →
      P (l.foldl (fun m i => if o.lt (o.abs (R i i)) m then o.abs (R i i) else m) t) := by
    intro l
    induction l with
    | nil => intro t _ h; exact h
    | cons a l ih =>
      intro t h1 h2
      rw [List.foldl_cons]
      refine ih _ (fun i hi => h1 i (List.mem_cons_of_mem _ hi)) ?_
      split
      · rw [ho.abs]; exact h1 a List.mem_cons_self
      · exact h2
  refine this _ _ (fun i hi => h i ?_) (by rw [ho.abs]; exact h0)
  rw [List.mem_range'_1] at hi
  omega

end Dec

end HPLLL
