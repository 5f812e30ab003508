import Verif.Proof.Cont
import Verif.Proof.Decomp
/-!
# The FGAS decomposition of an integer matrix depends only on the matrix

Two runs from objects with the same dimensions and the same matrix make the same exchanges, whatever
the uninitialised contents, the transformations and the counters are.
-/

namespace HPLLL
namespace Agr
open Dec

variable {F : Type} {o : FPOps F}

/-- Agreement of the floating point parts, columns `P`, rows `< d`; of `V`, columns `< m` only. -/
structure AgP (P : ℕ → Prop) (d m : ℕ) (p q : FPart F) : Prop where
  R : ∀ c, P c → ∀ r < d, q.R c r = p.R c r
  V : ∀ c, P c → c < m → ∀ r < d, c ≤ r → q.V c r = p.V c r
  nb : ∀ c, P c → q.normB2 c = p.normB2 c

structure Ag (P : ℕ → Prop) (s t : Fg Int F) : Prop where
  d : t.d = s.d
  n : t.n = s.n
  dec : t.dec = s.dec
  ldim : t.ldim = s.ldim
  dpos : 0 < s.d
  M : ∀ c < s.n, ∀ r < s.d, t.M c r = s.M c r
  fp : AgP P s.d (s.d - s.ldim) s.fp t.fp

theorem Ag.weaken {P Q : ℕ → Prop} {s t : Fg Int F} (h : Ag P s t) (hQ : ∀ c, Q c → P c) : Ag Q s t :=
  ⟨h.d, h.n, h.dec, h.ldim, h.dpos, h.M, ⟨fun c hc => h.fp.R c (hQ c hc), fun c hc => h.fp.V c (hQ c hc),
    fun c hc => h.fp.nb c (hQ c hc)⟩⟩

theorem hhAllApply_ag {P : ℕ → Prop} {d m κ k : ℕ} {p q : FPart F} (h : AgP P d m p q) (hκ : P κ) (hk : P k)
    (hkm : k < m) (hkd : k < d) : AgP P d m (hhAllApply o d κ k p) (hhAllApply o d κ k q) := by
  have hs : scalarprod o (getcol q.V k k) (getcol q.R κ k) (d - k) =
      scalarprod o (getcol p.V k k) (getcol p.R κ k) (d - k) := by
    apply scalarprod_congr o (by omega)
    · intro i hi; exact h.V k hk hkm _ (by omega) (by omega)
    · intro i hi; exact h.R κ hκ _ (by omega)
  refine ⟨?_, ?_, ?_⟩
  · intro c hc r hr
    unfold hhAllApply
    simp only [hs]
    unfold fmasub setCol
    by_cases hcκ : c = κ
    · subst hcκ
      simp only [if_true]
      split
      · unfold getcol
        rw [h.R c hκ _ (by omega), h.V k hk hkm _ (by omega) (by omega)]
      · exact h.R c hc r hr
    · simp only [hcκ, if_false]; exact h.R c hc r hr
  · exact h.V
  · exact h.nb

theorem foldl_ag {P : ℕ → Prop} {d m κ : ℕ} (hκ : P κ) : ∀ (l : List ℕ) (p q : FPart F), AgP P d m p q →
    (∀ k ∈ l, P k ∧ k < m ∧ k < d) →
    AgP P d m (l.foldl (fun p k => hhAllApply o d κ k p) p) (l.foldl (fun p k => hhAllApply o d κ k p) q) := by
  intro l
  induction l with
  | nil => intro p q h _; exact h
  | cons a l ih =>
    intro p q h hl
    obtain ⟨h1, h2, h3⟩ := hl a List.mem_cons_self
    exact ih _ _ (hhAllApply_ag h hκ h1 h2 h3) fun k hk => hl k (List.mem_cons_of_mem _ hk)

/-- Columns `P` and column `κ`. -/
def Or1 (P : ℕ → Prop) (κ : ℕ) : ℕ → Prop := fun c => P c ∨ c = κ

theorem fgCol_ag {P : ℕ → Prop} {d m κ l : ℕ} {M N : Mat Int} {p q : FPart F} (x : XOps Int F)
    (hd : 0 < d) (h : AgP P d m p q) (hV : κ < m → ¬ P κ → ∀ r < d, κ ≤ r → q.V κ r = p.V κ r)
    (hM : ∀ r < d, N κ r = M κ r) (hl : ∀ k < l, P k ∧ k < m ∧ k < d) :
    AgP (Or1 P κ) d m (fgCol o x d M κ l p) (fgCol o x d N κ l q) := by
  unfold fgCol
  refine foldl_ag (Or.inr rfl) _ _ _ ?_ fun k hk => ?_
  · have hR : ∀ c, Or1 P κ c → ∀ r < d, fsetcol q.R κ (fun i => x.toF (N κ i)) d c r =
        fsetcol p.R κ (fun i => x.toF (M κ i)) d c r := by
      intro c hc r hr
      unfold fsetcol setCol
      by_cases hcκ : c = κ
      · simp only [hcκ, if_true, hr]; rw [hM r hr]
      · simp only [hcκ, if_false]
        exact h.R c (hc.resolve_right hcκ) r hr
    refine ⟨hR, ?_, ?_⟩
    · intro c hc hcm r hr hcr
      rcases hc with hc | rfl
      · exact h.V c hc hcm r hr hcr
      · by_cases hp : P c
        · exact h.V c hp hcm r hr hcr
        · exact hV hcm hp r hr hcr
    · intro c hc
      unfold setAt
      by_cases hcκ : c = κ
      · simp only [hcκ, if_true]
        exact fpNormSq_congr o hd fun i hi => hR κ (Or.inr rfl) i hi
      · simp only [hcκ, if_false]
        exact h.nb c (hc.resolve_right hcκ)
  · have := hl k (List.mem_range.mp hk)
    exact ⟨Or.inl this.1, this.2⟩

theorem hh_ag {P : ℕ → Prop} {s t : Fg Int F} {κ : ℕ} (x : XOps Int F) (h : Ag P s t) (hκ : κ < s.n)
    (hP : ∀ c < min κ (s.d - s.ldim), P c) : Ag (Or1 P κ) (s.hh o x κ) (t.hh o x κ) := by
  refine ⟨h.d, h.n, h.dec, h.ldim, h.dpos, h.M, ?_⟩
  show AgP (Or1 P κ) s.d (s.d - s.ldim) (fgHhCol o x s.d s.ldim s.M κ s.fp)
    (fgHhCol o x t.d t.ldim t.M κ t.fp)
  rw [h.d, h.ldim]
  unfold fgHhCol
  split
  · rename_i hlt
    have hpre : AgP (fun c => P c ∧ c ≠ κ) s.d (s.d - s.ldim) s.fp t.fp :=
      ⟨fun c hc => h.fp.R c hc.1, fun c hc => h.fp.V c hc.1, fun c hc => h.fp.nb c hc.1⟩
    -- without column `κ` of `V`
    have hcol : AgP (Or1 P κ) s.d (min κ (s.d - s.ldim)) (fgCol o x s.d s.M κ κ s.fp)
        (fgCol o x s.d t.M κ κ t.fp) :=
      fgCol_ag x h.dpos ⟨h.fp.R, fun c hc hm => h.fp.V c hc (by omega), h.fp.nb⟩ (fun h1 _ => by omega)
        (h.M κ hκ) (fun k hk => ⟨hP k (by omega), by omega, by omega⟩)
    have hVf : ∀ (M : Mat Int) (p : FPart F), (fgCol o x s.d M κ κ p).V = p.V := by
      intro M p
      unfold fgCol
      have : ∀ (l : List ℕ) (p : FPart F), (l.foldl (fun p k => hhAllApply o s.d κ k p) p).V = p.V := by
        intro l
        induction l with
        | nil => intro p; rfl
        | cons a l ih => intro p; rw [List.foldl_cons, ih]; rfl
      rw [this]
    have hVp := hVf s.M s.fp
    have hVq := hVf t.M t.fp
    obtain ⟨p, hp⟩ : ∃ p, p = fgCol o x s.d s.M κ κ s.fp := ⟨_, rfl⟩
    obtain ⟨q, hq⟩ : ∃ q, q = fgCol o x s.d t.M κ κ t.fp := ⟨_, rfl⟩
    simp only
    rw [← hp, ← hq] at hcol
    rw [← hp] at hVp
    rw [← hq] at hVq
    rw [← hp, ← hq]
    have hw : q.R κ κ = p.R κ κ := hcol.R κ (Or.inr rfl) κ (by omega)
    have hnrm : fpNorm o (getcol q.R κ κ) (s.d - κ) = fpNorm o (getcol p.R κ κ) (s.d - κ) := by
      unfold fpNorm
      have : 0 < s.d - κ := by omega
      rw [fpNormSq_congr o (v := getcol q.R κ κ) (v' := getcol p.R κ κ) this fun i hi => hcol.R κ (Or.inr rfl) (κ + i) (by omega)]
    unfold householderV
    simp only [hw, hnrm]
    refine ⟨?_, ?_, ?_⟩
    · intro c hc r hr
      simp only [setCol, setEntry]
      by_cases hcκ : c = κ
      · subst hcκ
        simp only [if_true, setAt]
        split
        · rfl
        · by_cases hrc : r = c
          · simp [hrc]
          · simp only [hrc, if_false]
            exact hcol.R c hc r hr
      · simp only [hcκ, if_false]
        exact hcol.R c hc r hr
    · intro c hc hcm r hr hcr
      simp only [setCol, setEntry, fdivcol, getcol]
      by_cases hcκ : c = κ
      · subst hcκ
        simp only [if_true, setAt]
        by_cases hrc : r = c
        · simp [hrc]
        · simp only [hrc, if_false]
          have n1 : ¬ (s.d ≤ r ∧ r < s.d) := by omega
          have n2 : c + 1 ≤ r ∧ r < c + 1 + (s.d - c - 1) := by omega
          have n3 : ¬ (c + 1 + (r - (c + 1)) = c) := by omega
          rw [if_neg n1, if_neg n1, if_pos n2, if_pos n2, if_neg n3, if_neg n3]
          rw [hcol.R c hc (c + 1 + (r - (c + 1))) (by omega)]
      · simp only [hcκ, if_false]
        rw [hVp, hVq]
        exact h.fp.V c (hc.resolve_right hcκ) hcm r hr hcr
    · exact hcol.nb
  · rename_i hge
    refine fgCol_ag x h.dpos h.fp (fun h1 => absurd h1 hge) (h.M κ hκ) fun k hk => ⟨hP k (by omega), hk, by omega⟩

theorem col_ag {X : Type} {d n κ i l : ℕ} {M N : Mat X} (f : X → X → X) (g : ℕ → Prop)
    (h : ∀ c, g c → ∀ r < d, N c r = M c r) (hκ : g κ) (hi : g i) :
    ∀ c, g c → ∀ r < d, setCol N κ (fun r => if r < l then f (N κ r) (N i r) else N κ r) c r =
      setCol M κ (fun r => if r < l then f (M κ r) (M i r) else M κ r) c r := by
  intro c hc r hr
  unfold setCol
  by_cases hcκ : c = κ
  · subst hcκ
    simp only [if_true]
    rw [h c hκ r hr, h i hi r hr]
  · simp only [hcκ, if_false]; exact h c hc r hr

theorem combine_ag {P : ℕ → Prop} {s t : Fg Int F} {κ i : ℕ} (q : XOps Int F) (y : F) (h : Ag P s t)
    (hκ : κ < s.n) (hi : i < s.n) (hPκ : P κ) (hPi : P i) :
    Ag P (s.combine o q κ i y) (t.combine o q κ i y) := by
  unfold Fg.combine
  simp only
  split
  · refine ⟨h.d, h.n, h.dec, h.ldim, h.dpos, ?_, ?_, h.fp.V, h.fp.nb⟩
    · simp only [h.d]
      exact col_ag (n := s.n) _ (· < s.n) h.M hκ hi
    · exact col_ag (n := s.n) _ P h.fp.R hPκ hPi
  · split
    · refine ⟨h.d, h.n, h.dec, h.ldim, h.dpos, ?_, ?_, h.fp.V, h.fp.nb⟩
      · simp only [h.d]
        exact col_ag (n := s.n) _ (· < s.n) h.M hκ hi
      · exact col_ag (n := s.n) _ P h.fp.R hPκ hPi
    · refine ⟨h.d, h.n, h.dec, h.ldim, h.dpos, ?_, ?_, h.fp.V, h.fp.nb⟩
      · simp only [h.d]
        exact col_ag (n := s.n) (fun a b => q.submul a (q.ofZ (o.toZ y)) b) (· < s.n) h.M hκ hi
      · exact col_ag (n := s.n) (fun a b => o.submul a y b) P h.fp.R hPκ hPi

theorem combine_same {s : Fg Int F} {κ i : ℕ} (q : XOps Int F) (y : F) :
    (s.combine o q κ i y).d = s.d ∧ (s.combine o q κ i y).n = s.n ∧
      (s.combine o q κ i y).ldim = s.ldim := by
  unfold Fg.combine
  simp only
  split
  · exact ⟨rfl, rfl, rfl⟩
  · split <;> exact ⟨rfl, rfl, rfl⟩

theorem sizePass_ag {P : ℕ → Prop} {κ : ℕ} (q : XOps Int F) : ∀ (m : ℕ) (s t : Fg Int F) (b : Bool),
    Ag P s t → κ < s.n → P κ → m ≤ s.d → m ≤ s.n → (∀ c < m, P c) →
    Ag P (Fg.sizePass o q κ m (s, b)).1 (Fg.sizePass o q κ m (t, b)).1 ∧
      (Fg.sizePass o q κ m (t, b)).2 = (Fg.sizePass o q κ m (s, b)).2 ∧
      (Fg.sizePass o q κ m (s, b)).1.d = s.d ∧ (Fg.sizePass o q κ m (s, b)).1.n = s.n ∧
      (Fg.sizePass o q κ m (s, b)).1.ldim = s.ldim := by
  intro m
  induction m with
  | zero => intro s t b h _ _ _ _ _; exact ⟨h, rfl, rfl, rfl, rfl⟩
  | succ m ih =>
    intro s t b h hκ hPκ hmd hmn hP
    unfold Fg.sizePass Fg.sizeStep
    simp only
    rw [h.fp.R κ hPκ m (by omega), h.fp.R m (hP m (by omega)) m (by omega)]
    obtain ⟨y, hy⟩ : ∃ y, y = o.rnd (o.div (s.fp.R κ m) (s.fp.R m m)) := ⟨_, rfl⟩
    rw [← hy]
    split
    · exact ih s t b h hκ hPκ (by omega) (by omega) fun c hc => hP c (by omega)
    · obtain ⟨c1, c2, c3⟩ := combine_same (s := s) (κ := κ) (i := m) (o := o) q y
      have := ih _ _ true (combine_ag q y h hκ (by omega) hPκ (hP m (by omega))) (by rw [c2]; exact hκ) hPκ
        (by rw [c1]; omega) (by rw [c2]; omega) fun c hc => hP c (by omega)
      rw [c1, c2, c3] at this
      exact this

/-- Both end or neither does, with states that agree. -/
def OAg (P : ℕ → Prop) (s : Fg Int F) : Option (Fg Int F) → Option (Fg Int F) → Prop
  | none, none => True
  | some a, some b => Ag P a b ∧ a.d = s.d ∧ a.n = s.n ∧ a.ldim = s.ldim
  | _, _ => False

theorem sizeLoop_ag {P : ℕ → Prop} {κ : ℕ} (q : XOps Int F) : ∀ (fuel : ℕ) (s t : Fg Int F),
    Ag P s t → κ < s.n → s.d ≤ s.n → P κ → (∀ c < min κ (s.d - s.ldim), P c) →
    OAg P s (Fg.sizeLoop o q κ fuel s) (Fg.sizeLoop o q κ fuel t) := by
  intro fuel
  induction fuel with
  | zero => intro s t _ _ _ _ _; trivial
  | succ fuel ih =>
    intro s t h hκ hdn hPκ hP
    unfold Fg.sizeLoop
    simp only
    rw [h.d, h.ldim]
    obtain ⟨p1, p2, p3, p4, p5⟩ := sizePass_ag (o := o) q (min κ (s.d - s.ldim)) s t false h hκ hPκ (by omega)
      (by omega) hP
    obtain ⟨a, ha⟩ : ∃ a, a = Fg.sizePass o q κ (min κ (s.d - s.ldim)) (s, false) := ⟨_, rfl⟩
    obtain ⟨b, hb⟩ : ∃ b, b = Fg.sizePass o q κ (min κ (s.d - s.ldim)) (t, false) := ⟨_, rfl⟩
    rw [← ha, ← hb] at p1 p2
    rw [← ha] at p3 p4 p5
    rw [← ha, ← hb, p2]
    split
    · have hh := hh_ag (o := o) q p1 (by rw [p4]; exact hκ) (by rw [p3, p5]; exact hP)
      have hh := hh.weaken (Q := P) fun c hc => Or.inl hc
      have e1 : (Fg.hh o q κ a.1).d = s.d := p3
      have e2 : (Fg.hh o q κ a.1).n = s.n := p4
      have e3 : (Fg.hh o q κ a.1).ldim = s.ldim := p5
      rw [p1.fp.nb κ hPκ, hh.fp.nb κ hPκ]
      split
      · have := ih _ _ hh (by rw [e2]; exact hκ) (by rw [e1, e2]; exact hdn) hPκ (by rw [e1, e3]; exact hP)
        revert this
        generalize Fg.sizeLoop o q κ fuel (Fg.hh o q κ a.1) = u
        generalize Fg.sizeLoop o q κ fuel (Fg.hh o q κ b.1) = v
        intro this
        cases u <;> cases v <;> simp only [OAg] at this ⊢
        rw [e1, e2, e3] at this; exact this
      · exact ⟨hh, e1, e2, e3⟩
    · exact ⟨p1, p3, p4, p5⟩

theorem hsizereduce_ag {P : ℕ → Prop} {κ fuel : ℕ} (q : XOps Int F) {s t : Fg Int F}
    (h : Ag P s t) (hκ : κ < s.n) (hdn : s.d ≤ s.n) (hP : ∀ c < min κ (s.d - s.ldim), P c) :
    OAg (Or1 P κ) s (Fg.hsizereduce o q fuel κ s) (Fg.hsizereduce o q fuel κ t) :=
  sizeLoop_ag q fuel _ _ (hh_ag q h hκ hP) hκ hdn (Or.inr rfl) fun c hc => Or.inl (hP c hc)

theorem hsizeRange_ag (q : XOps Int F) {fuel : ℕ} : ∀ (len a : ℕ) (P : ℕ → Prop) (s t : Fg Int F),
    Ag P s t → a + len ≤ s.n → s.d ≤ s.n → (∀ c < min a (s.d - s.ldim), P c) →
    OAg (fun c => P c ∨ (a ≤ c ∧ c < a + len)) s (Fg.hsizeRange o q fuel a len s)
      (Fg.hsizeRange o q fuel a len t) := by
  intro len
  induction len with
  | zero => intro a P s t h _ _ _; exact ⟨h.weaken fun c hc => hc.resolve_right (by omega), rfl, rfl, rfl⟩
  | succ len ih =>
    intro a P s t h han hdn hP
    have h1 := hsizereduce_ag (o := o) (fuel := fuel) (κ := a) q h (by omega) hdn hP
    unfold Fg.hsizeRange
    revert h1
    generalize Fg.hsizereduce o q fuel a s = u
    generalize Fg.hsizereduce o q fuel a t = v
    intro h1
    cases u <;> cases v <;> simp only [OAg] at h1 ⊢
    obtain ⟨h1, e1, e2, e3⟩ := h1
    rename_i u v
    have := ih (a + 1) _ u v h1 (by omega) (by omega) (fun c hc => by
      by_cases hca : c = a
      · exact Or.inr hca
      · exact Or.inl (hP c (by rw [e1, e3] at hc; omega)))
    revert this
    generalize Fg.hsizeRange o q fuel (a + 1) len u = u'
    generalize Fg.hsizeRange o q fuel (a + 1) len v = v'
    intro this
    cases u' <;> cases v' <;> simp only [OAg] at this ⊢
    rw [e1, e2, e3] at this
    refine ⟨this.1.weaken fun c hc => ?_, this.2⟩
    rcases hc with hc | hc
    · exact Or.inl (Or.inl hc)
    · by_cases hca : c = a
      · exact Or.inl (Or.inr hca)
      · exact Or.inr (by omega)

/-! ### The main loop -/

theorem swap_ag {P : ℕ → Prop} {s t : Fg Int F} {a b : ℕ} (h : Ag P s t) (ha : a < s.n) (hb : b < s.n) :
    Ag P (s.swap a b) (t.swap a b) := by
  refine ⟨h.d, h.n, h.dec, h.ldim, h.dpos, ?_, h.fp⟩
  intro c hc r hr
  show colswap t.M a b c r = colswap s.M a b c r
  unfold colswap
  split
  · exact h.M b hb r hr
  · split
    · exact h.M a ha r hr
    · exact h.M c hc r hr

theorem ub_ag {P : ℕ → Prop} {s t : Fg Int F} (h : Ag P s t) (x y : Bool) :
    Ag P { s with ub := x } { t with ub := y } :=
  ⟨h.d, h.n, h.dec, h.ldim, h.dpos, h.M, h.fp⟩

theorem gapDo_ag {P : ℕ → Prop} {s t : Fg Int F} {k : ℕ} (h : Ag P s t) (hk : k < s.n) :
    Ag P (gapDo k s) (gapDo k t) := by
  unfold gapDo
  simp only
  rw [h.n, h.ldim]
  split
  · have h1 := swap_ag (b := s.n - s.ldim - 1) h hk (by omega)
    refine ⟨h1.d, h1.n, h1.dec, ?_, h1.dpos, h1.M, ?_⟩
    · simp only; rw [h1.ldim]
    · exact ⟨h1.fp.R, fun c hc hm => h1.fp.V c hc (by
        show c < s.d - s.ldim
        have : c < s.d - (s.ldim + 1) := hm
        omega), h1.fp.nb⟩
  · refine ⟨h.d, h.n, h.dec, ?_, h.dpos, h.M, ?_⟩
    · simp only; rw [h.ldim]
    · exact ⟨h.fp.R, fun c hc hm => h.fp.V c hc (by
        have : c < s.d - (s.ldim + 1) := hm
        omega), h.fp.nb⟩

theorem diagMin_congr {R R' : Mat F} {dec hi : ℕ} (h0 : R' dec dec = R dec dec)
    (h : ∀ i, dec < i → i < hi → R' i i = R i i) : diagMin o R' dec hi = diagMin o R dec hi := by
  unfold diagMin
  rw [h0]
  apply List.foldl_ext
  intro a b hb
  rw [List.mem_range'_1] at hb
  rw [h b (by omega) (by omega)]

theorem leftPos_congr {g : ℕ → F} {R R' : Mat F} {dec hi : ℕ} (h0 : R' dec dec = R dec dec)
    (h : ∀ i, dec < i → i < hi → R' i i = R i i) : leftPos o g R' dec hi = leftPos o g R dec hi := by
  unfold leftPos
  rw [h0]
  apply List.foldl_ext
  intro a b hb
  rw [List.mem_range'_1] at hb
  rw [h b (by omega) (by omega)]

theorem rightPos_congr {R R' : Mat F} {r a b : ℕ} (h0 : R' a r = R a r)
    (h : ∀ i, a < i → i < b → R' i r = R i r) : rightPos o R' r a b = rightPos o R r a b := by
  unfold rightPos
  rw [h0]
  apply List.foldl_ext
  intro x y hb
  rw [List.mem_range'_1] at hb
  rw [h y (by omega) (by omega)]

/-- As `OAg`, with the same position. -/
def EAg (s : Fg Int F) : Option (Fg Int F × ℕ) → Option (Fg Int F × ℕ) → Prop
  | none, none => True
  | some a, some b => Ag (· < s.n) a.1 b.1 ∧ a.1.d = s.d ∧ a.1.n = s.n ∧ a.1.ldim = s.ldim ∧
      a.1.dec = s.dec ∧ b.2 = a.2 ∧ a.2 < s.n
  | _, _ => False

theorem combine_dec {s : Fg Int F} {κ i : ℕ} (q : XOps Int F) (y : F) :
    (s.combine o q κ i y).dec = s.dec := by
  unfold Fg.combine
  simp only
  split
  · rfl
  · split <;> rfl

theorem sizePass_dec {κ : ℕ} (q : XOps Int F) : ∀ (m : ℕ) (x : Fg Int F × Bool),
    (Fg.sizePass o q κ m x).1.dec = x.1.dec := by
  intro m
  induction m with
  | zero => intro x; rfl
  | succ m ih =>
    intro x
    unfold Fg.sizePass
    rw [ih]
    unfold Fg.sizeStep
    simp only
    split
    · rfl
    · exact combine_dec q _

theorem sizeLoop_dec {κ : ℕ} (q : XOps Int F) : ∀ (fuel : ℕ) (s s' : Fg Int F),
    Fg.sizeLoop o q κ fuel s = some s' → s'.dec = s.dec := by
  intro fuel
  induction fuel with
  | zero => intro s s' h; simp [Fg.sizeLoop] at h
  | succ fuel ih =>
    intro s s' h
    unfold Fg.sizeLoop at h
    simp only at h
    split at h
    · split at h
      · have h1 := ih _ _ h
        rw [h1]
        show (Fg.sizePass o q κ _ (s, false)).1.dec = _
        rw [sizePass_dec]
      · cases h
        show (Fg.sizePass o q κ _ (s, false)).1.dec = _
        rw [sizePass_dec]
    · cases h
      rw [sizePass_dec]

theorem hsizeRange_dec (q : XOps Int F) {fuel : ℕ} : ∀ (len a : ℕ) (s s' : Fg Int F),
    Fg.hsizeRange o q fuel a len s = some s' → s'.dec = s.dec := by
  intro len
  induction len with
  | zero => intro a s s' h; cases h; rfl
  | succ len ih =>
    intro a s s' h
    unfold Fg.hsizeRange at h
    split at h
    · cases h
    · rename_i u hu
      rw [ih _ _ _ h]
      exact sizeLoop_dec (o := o) q fuel (Fg.hh o q a s) _ hu

theorem exchange_ag (q : XOps Int F) {fuel k N : ℕ} {s t : Fg Int F} (h : Ag (· < N) s t) (hN : s.n = N)
    (hk : k < s.d - s.ldim) (hl : s.ldim < s.d) (hdn : s.d < s.n) :
    EAg s (exchange o q fuel k s) (exchange o q fuel k t) := by
  subst hN
  unfold exchange
  simp only
  rw [h.d, h.ldim, h.n]
  by_cases h1 : k < s.d - s.ldim - 1
  · rw [if_pos h1, if_pos h1]
    have h2 := swap_ag (a := k) (b := k + 1) h (by omega) (by omega)
    have h3 := hsizeRange_ag (o := o) (fuel := fuel) q (s.d - s.ldim - k) k _ _ _ h2
      (by show k + (s.d - s.ldim - k) ≤ s.n; omega) hdn.le (fun c hc => by omega)
    have h4 := hsizeRange_dec (o := o) q (fuel := fuel) (s.d - s.ldim - k) k (s.swap k (k + 1))
    revert h3 h4
    generalize Fg.hsizeRange o q fuel k (s.d - s.ldim - k) (s.swap k (k + 1)) = u
    generalize Fg.hsizeRange o q fuel k (s.d - s.ldim - k) (t.swap k (k + 1)) = v
    intro h3 h4
    cases u <;> cases v <;> simp only [OAg, EAg] at h3 ⊢
    rename_i u v
    exact ⟨h3.1.weaken fun c hc => Or.inl hc, h3.2.1, h3.2.2.1, h3.2.2.2, h4 u rfl, trivial, by omega⟩
  · rw [if_neg h1, if_neg h1]
    have h3 := hsizeRange_ag (o := o) (fuel := fuel) q (s.n - s.ldim - (s.d - s.ldim)) (s.d - s.ldim) _ _ _ h
      (by omega) hdn.le (fun c hc => by omega)
    have h4 := hsizeRange_dec (o := o) q (fuel := fuel) (s.n - s.ldim - (s.d - s.ldim)) (s.d - s.ldim) s
    revert h3 h4
    generalize Fg.hsizeRange o q fuel (s.d - s.ldim) (s.n - s.ldim - (s.d - s.ldim)) s = u
    generalize Fg.hsizeRange o q fuel (s.d - s.ldim) (s.n - s.ldim - (s.d - s.ldim)) t = v
    intro h3 h4
    cases u <;> cases v <;> simp only [OAg, EAg] at h3 ⊢
    rename_i u v
    obtain ⟨h3, e1, e2, e3⟩ := h3
    have h3 := h3.weaken (Q := (· < s.n)) fun c hc => Or.inl hc
    have hd4 := h4 u rfl
    have er : rightPos o v.fp.R (s.d - s.ldim - 1) (s.d - s.ldim) (v.n - v.ldim) =
        rightPos o u.fp.R (s.d - s.ldim - 1) (s.d - s.ldim) (u.n - u.ldim) := by
      rw [h3.n, h3.ldim]
      exact rightPos_congr (h3.fp.R _ (by show _ < s.n; omega) _ (by omega))
        fun i h5 h6 => h3.fp.R _ (by show _ < s.n; omega) _ (by omega)
    rw [er]
    have hr := (rightPos_range (o := o) u.fp.R (s.d - s.ldim - 1) (s.d - s.ldim) (u.n - u.ldim)).2 (by omega)
    obtain ⟨j, hj⟩ : ∃ j, j = (rightPos o u.fp.R (s.d - s.ldim - 1) (s.d - s.ldim) (u.n - u.ldim)).1 := ⟨_, rfl⟩
    rw [← hj] at hr ⊢
    have h6 := swap_ag (a := s.d - s.ldim - 1) (b := j) (ub_ag h3 (u.ub || !decide (s.d - s.ldim < u.n))
      (v.ub || !decide (s.d - s.ldim < v.n))) (by show _ < u.n; omega) (by show _ < u.n; omega)
    have h7 := hsizereduce_ag (o := o) (fuel := fuel) (κ := s.d - s.ldim - 1) q h6 (by show _ < u.n; omega)
      (by show u.d ≤ u.n; omega) (fun c hc => by show _ < s.n; omega)
    have h8 := sizeLoop_dec (o := o) q (κ := s.d - s.ldim - 1) fuel (Fg.hh o q (s.d - s.ldim - 1)
      (Fg.swap (s.d - s.ldim - 1) j { u with ub := u.ub || !decide (s.d - s.ldim < u.n) }))
    change ∀ s', Fg.hsizereduce o q fuel (s.d - s.ldim - 1) (Fg.swap (s.d - s.ldim - 1) j
      { u with ub := u.ub || !decide (s.d - s.ldim < u.n) }) = some s' → s'.dec = u.dec at h8
    revert h7 h8
    generalize Fg.hsizereduce o q fuel (s.d - s.ldim - 1) (Fg.swap (s.d - s.ldim - 1) j
      { u with ub := u.ub || !decide (s.d - s.ldim < u.n) }) = u'
    generalize Fg.hsizereduce o q fuel (s.d - s.ldim - 1) (Fg.swap (s.d - s.ldim - 1) j
      { v with ub := v.ub || !decide (s.d - s.ldim < v.n) }) = v'
    intro h7 h8
    cases u' <;> cases v' <;> simp only [OAg] at h7 ⊢
    rename_i u' v'
    obtain ⟨g1, g2, g3, g4⟩ := h7
    exact ⟨g1.weaken fun c hc => Or.inl hc, g2.trans e1, g3.trans e2, g4.trans e3, (h8 u' rfl).trans hd4,
      trivial, by omega⟩

/-- Agreement at the beginning of an iteration. -/
structure DAg (N D E : ℕ) (t u : DSt Int F) : Prop where
  s : Ag (· < N) t.s u.s
  n : t.s.n = N
  d : t.s.d = D
  dec : t.s.dec = E
  dn : t.s.d < t.s.n
  lt : t.s.ldim + t.s.dec < t.s.d
  mh : t.maxh < N
  maxh : u.maxh = t.maxh
  diagold : u.diagold = t.diagold
  prevkappa : u.prevkappa = t.prevkappa
  prevR : ∀ h : ℕ, t.prevkappa = h → u.prevR h = t.prevR h

def SAg (N D E : ℕ) : Option (DStep Int F) → Option (DStep Int F) → Prop
  | none, none => True
  | some (.ret a s), some (.ret b t) => a = b ∧ Ag (· < N) s t
  | some (.next t), some (.next u) => DAg N D E t u
  | _, _ => False

/-- The iteration after the return test. -/
def zTail2 (o : FPOps F) (fuel : ℕ) (gamma : F) (pk : ℤ) (pR : ℕ → F) (s : Fg Int F) :
    Option (DStep Int F) :=
  let m := s.d - s.ldim
  let diagold := diagMin o s.fp.R s.dec (m - 1)
  let maxh := (leftPos o (gpow o gamma) s.fp.R s.dec m).1
  if maxh < m ∧ pk = (maxh : Int) ∧
      o.lt (pR maxh) (o.abs (s.fp.R maxh maxh)) = true then some (.ret (-1) s)
  else
    let prevkappa := if maxh < m then (maxh : Int) else pk
    let prevR := if maxh < m then setAt pR maxh (o.abs (s.fp.R maxh maxh)) else pR
    match exchange o (zX o) fuel maxh s with
    | none => none
    | some (s, maxh) => some (.next ⟨s, maxh, diagold, 0, prevkappa, prevR⟩)

/-- The iteration after the dimension test. -/
def zTail (o : FPOps F) (fuel : ℕ) (gamma : F) (target pk : ℤ) (pR : ℕ → F) (s : Fg Int F) :
    Option (DStep Int F) :=
  if target ≤ (s.ldim : Int) then some (.ret 0 s)
  else zTail2 o fuel gamma pk pR
    { s with ub := s.ub || !decide (s.dec < s.d ∧ s.dec < s.n ∧ s.ldim < s.d) }

theorem zStep_eq (fuel : ℕ) (gamma gap : F) (target : ℤ) (t : DSt Int F) :
    zStep o fuel gamma gap target t = zTail o fuel gamma target t.prevkappa t.prevR
      (if o.lt (o.abs (o.div (t.s.fp.R (t.s.d - t.s.ldim - 1) (t.s.d - t.s.ldim - 1)) t.diagold)) gap
        then gapDo t.maxh { t.s with nblov := t.s.nblov + 1
                                     ub := t.s.ub || !decide (t.s.ldim < t.s.d ∧ t.s.d - t.s.ldim - 1 < t.s.n) }
        else { t.s with nblov := t.s.nblov + 1
                        ub := t.s.ub || !decide (t.s.ldim < t.s.d ∧ t.s.d - t.s.ldim - 1 < t.s.n) }) := rfl

theorem zTail2_ag {N fuel : ℕ} {gamma : F} {pk : ℤ} {p1 p2 : ℕ → F} {s t : Fg Int F}
    (h : Ag (· < N) s t) (hN : s.n = N) (hdn : s.d < s.n) (hl : s.ldim + s.dec < s.d)
    (hp : ∀ h : ℕ, pk = h → p2 h = p1 h) :
    SAg N s.d s.dec (zTail2 o fuel gamma pk p1 s) (zTail2 o fuel gamma pk p2 t) := by
  unfold zTail2
  simp only
  rw [h.ldim, h.d, h.dec]
  have hlt : s.dec < s.d - s.ldim := by omega
  have e1 : diagMin o t.fp.R s.dec (s.d - s.ldim - 1) = diagMin o s.fp.R s.dec (s.d - s.ldim - 1) :=
    diagMin_congr (h.fp.R _ (by omega) _ (by omega)) fun i h1 h2 => h.fp.R _ (by omega) _ (by omega)
  have e2 : leftPos o (gpow o gamma) t.fp.R s.dec (s.d - s.ldim) =
      leftPos o (gpow o gamma) s.fp.R s.dec (s.d - s.ldim) :=
    leftPos_congr (h.fp.R _ (by omega) _ (by omega)) fun i h1 h2 => h.fp.R _ (by omega) _ (by omega)
  rw [e1, e2]
  have hk := leftPos_lt (o := o) (gpow o gamma) s.fp.R s.dec (s.d - s.ldim) hlt
  obtain ⟨k, hke⟩ : ∃ k, k = (leftPos o (gpow o gamma) s.fp.R s.dec (s.d - s.ldim)).1 := ⟨_, rfl⟩
  rw [← hke] at hk ⊢
  have e3 : t.fp.R k k = s.fp.R k k := h.fp.R k (by omega) k (by omega)
  rw [e3]
  have hcond : (k < s.d - s.ldim ∧ pk = (k : ℤ) ∧ o.lt (p2 k) (o.abs (s.fp.R k k)) = true) ↔
      (k < s.d - s.ldim ∧ pk = (k : ℤ) ∧ o.lt (p1 k) (o.abs (s.fp.R k k)) = true) := by
    constructor
    · rintro ⟨a, b, c⟩; rw [hp k b] at c; exact ⟨a, b, c⟩
    · rintro ⟨a, b, c⟩; rw [← hp k b] at c; exact ⟨a, b, c⟩
  by_cases hc : k < s.d - s.ldim ∧ pk = (k : ℤ) ∧ o.lt (p1 k) (o.abs (s.fp.R k k)) = true
  · rw [if_pos hc, if_pos (hcond.mpr hc)]
    exact ⟨rfl, h⟩
  · rw [if_neg hc, if_neg (fun x => hc (hcond.mp x)), if_pos hk, if_pos hk, if_pos hk]
    have h2 := exchange_ag (o := o) (zX o) (fuel := fuel) (k := k) (N := N) h hN hk (by omega) hdn
    revert h2
    generalize exchange o (zX o) fuel k s = a
    generalize exchange o (zX o) fuel k t = b
    intro h2
    cases a <;> cases b <;> simp only [EAg] at h2
    · trivial
    · obtain ⟨g1, g2, g3, g4, g5, g6, g7⟩ := h2
      rw [hN] at g1
      refine ⟨g1, g3.trans hN, g2, g5, ?_, ?_, by rw [← hN]; exact g7, g6, rfl, rfl, ?_⟩
      · simp only; rw [g2, g3]; exact hdn
      · simp only; rw [g2, g4, g5]; omega
      · intro j hj
        simp only at hj ⊢
        have : j = k := by omega
        subst this
        simp [setAt]

theorem zTail_ag {N fuel : ℕ} {gamma : F} {target pk : ℤ} {p1 p2 : ℕ → F} {s t : Fg Int F}
    (h : Ag (· < N) s t) (hN : s.n = N) (hdn : s.d < s.n) (hl : s.ldim + s.dec ≤ s.d)
    (htg : target + s.dec ≤ s.d) (hp : ∀ h : ℕ, pk = h → p2 h = p1 h) :
    SAg N s.d s.dec (zTail o fuel gamma target pk p1 s) (zTail o fuel gamma target pk p2 t) := by
  unfold zTail
  by_cases h0 : target ≤ (s.ldim : ℤ)
  · rw [if_pos h0, if_pos (by rw [h.ldim]; exact h0)]; exact ⟨rfl, h⟩
  · rw [if_neg h0, if_neg (by rw [h.ldim]; exact h0)]
    exact zTail2_ag (ub_ag h _ _) hN hdn (by show s.ldim + s.dec < s.d; omega) hp

theorem zStep_ag {N fuel : ℕ} {gamma gap : F} {target : ℤ} {t u : DSt Int F} {D E : ℕ} (h : DAg N D E t u)
    (htg : target + E ≤ D) :
    SAg N D E (zStep o fuel gamma gap target t) (zStep o fuel gamma gap target u) := by
  have hs := h.s
  have hlt := h.lt
  have hdn := h.dn
  have hn := h.n
  have hD := h.d
  have hE := h.dec
  subst hD hE
  rw [zStep_eq, zStep_eq, hs.d, hs.ldim, hs.n, h.maxh, h.diagold, h.prevkappa,
    hs.fp.R (t.s.d - t.s.ldim - 1) (by omega) _ (by omega)]
  split
  · have h1 : Ag (· < N) ({ t.s with nblov := t.s.nblov + 1
                                     ub := t.s.ub || !decide (t.s.ldim < t.s.d ∧ t.s.d - t.s.ldim - 1 < t.s.n) })
        ({ u.s with nblov := u.s.nblov + 1
                    ub := u.s.ub || !decide (t.s.ldim < t.s.d ∧ t.s.d - t.s.ldim - 1 < t.s.n) }) :=
      ⟨hs.d, hs.n, hs.dec, hs.ldim, hs.dpos, hs.M, hs.fp⟩
    have h2 := gapDo_ag (k := t.maxh) h1 (by show _ < t.s.n; rw [hn]; exact h.mh)
    have e : ∀ s : Fg Int F, (gapDo t.maxh s).d = s.d ∧ (gapDo t.maxh s).n = s.n ∧
        (gapDo t.maxh s).dec = s.dec ∧ (gapDo t.maxh s).ldim = s.ldim + 1 := by
      intro s; unfold gapDo; simp only; split <;> exact ⟨rfl, rfl, rfl, rfl⟩
    obtain ⟨e1, e2, e3, e4⟩ := e { t.s with nblov := t.s.nblov + 1
                                            ub := t.s.ub || !decide (t.s.ldim < t.s.d ∧ t.s.d - t.s.ldim - 1 < t.s.n) }
    have h3 := zTail_ag (o := o) (fuel := fuel) (gamma := gamma) (target := target) h2 (e2.trans hn)
      (by rw [e1, e2]; exact hdn) (by rw [e1, e3, e4]; simp only; omega)
      (by rw [e1, e3]; exact htg) h.prevR
    rw [e1, e3] at h3
    convert h3 using 4 <;> first | rfl | (simp only [hs.d, hs.ldim, hs.n, hs.dec])
  · exact zTail_ag ⟨hs.d, hs.n, hs.dec, hs.ldim, hs.dpos, hs.M, hs.fp⟩ hn hdn hlt.le htg h.prevR

theorem zLoop_ag {N D E fuel : ℕ} {gamma gap : F} {target : ℤ} (htg : target + E ≤ D) :
    ∀ (k : ℕ) (t u : DSt Int F), DAg N D E t u →
    (zLoop o fuel gamma gap target k t = none ↔ zLoop o fuel gamma gap target k u = none) := by
  intro k
  induction k with
  | zero => intro t u _; simp [zLoop]
  | succ k ih =>
    intro t u h
    have h1 := zStep_ag (o := o) (fuel := fuel) (gamma := gamma) (gap := gap) (target := target) h htg
    unfold zLoop
    revert h1
    generalize zStep o fuel gamma gap target t = a
    generalize zStep o fuel gamma gap target u = b
    intro h1
    match a, b, h1 with
    | none, none, _ => rfl
    | some (.ret a s), some (.ret b t), _ => simp
    | some (.next t), some (.next u), h1 => exact ih t u h1

/-- Whether the decomposition ends does not depend on the uninitialised storage. -/
theorem zDecomp_none_congr {junk junk' gamma gap : F} {fuel : ℕ} {target : ℤ} {s t : Fg Int F}
    (h : Ag (fun _ => False) s t) (hdn : s.d < s.n) (hl : s.ldim + s.dec < s.d)
    (htg : target + s.dec ≤ s.d) :
    zDecomp o junk fuel gamma gap target s = none ↔ zDecomp o junk' fuel gamma gap target t = none := by
  unfold zDecomp
  simp only
  obtain ⟨x, hx⟩ : ∃ x : Fg Int F, x = { s with ub := s.ub || !decide (0 < s.d ∧ s.dec < s.d ∧ s.d ≤ s.n) } := ⟨_, rfl⟩
  obtain ⟨y, hy⟩ : ∃ y : Fg Int F, y = { t with ub := t.ub || !decide (0 < t.d ∧ t.dec < t.d ∧ t.d ≤ t.n) } := ⟨_, rfl⟩
  have hxy : Ag (fun _ => False) x y := by rw [hx, hy]; exact ub_ag h _ _
  have ed : x.d = s.d := by rw [hx]
  have en : x.n = s.n := by rw [hx]
  have el : x.ldim = s.ldim := by rw [hx]
  have ee : x.dec = s.dec := by rw [hx]
  rw [← hx, ← hy, h.n]
  clear hx hy
  have h1 := hsizeRange_ag (o := o) (fuel := fuel) (zX o) s.n 0 _ x y hxy (by omega) (by omega)
    (fun c hc => by omega)
  have h2 := hsizeRange_dec (o := o) (zX o) (fuel := fuel) s.n 0 x
  revert h1 h2
  generalize Fg.hsizeRange o (zX o) fuel 0 s.n x = u
  generalize Fg.hsizeRange o (zX o) fuel 0 s.n y = v
  intro h1 h2
  cases u <;> cases v <;> simp only [OAg] at h1
  · simp
  · rename_i u v
    obtain ⟨h1, e1, e2, e3⟩ := h1
    have e4 := h2 u rfl
    have h1 := h1.weaken (Q := (· < s.n)) fun c hc => Or.inr (by omega)
    simp only
    refine zLoop_ag (N := s.n) (D := s.d) (E := s.dec) htg fuel _ _
      ⟨h1, e2.trans en, e1.trans ed, e4.trans ee, ?_, ?_, ?_, h1.dec, ?_, rfl, ?_⟩
    · simp only; omega
    · simp only; omega
    · simp only; omega
    · simp only
      rw [h1.d, h1.dec]
      exact diagMin_congr (h1.fp.R _ (by omega) _ (by omega)) fun i h3 h4 => h1.fp.R _ (by omega) _ (by omega)
    · intro j hj
      simp only at hj
      omega

/-! ### More fuel -/

theorem sizeLoop_mono {X : Type} (q : XOps X F) {κ : ℕ} : ∀ (f : ℕ) (s s' : Fg X F) (g : ℕ), f ≤ g →
    Fg.sizeLoop o q κ f s = some s' → Fg.sizeLoop o q κ g s = some s' := by
  intro f
  induction f with
  | zero => intro s s' g _ h; simp [Fg.sizeLoop] at h
  | succ f ih =>
    intro s s' g hg h
    obtain ⟨g, rfl⟩ : ∃ k, g = k + 1 := ⟨g - 1, by omega⟩
    unfold Fg.sizeLoop at h ⊢
    simp only at h ⊢
    split at h
    · rename_i hb
      rw [if_pos hb]
      split at h
      · rename_i hl
        rw [if_pos hl]
        exact ih _ _ g (by omega) h
      · rename_i hl
        rw [if_neg hl]; exact h
    · rename_i hb
      rw [if_neg hb]; exact h

theorem hsizeRange_mono {X : Type} (q : XOps X F) {f g : ℕ} (hg : f ≤ g) : ∀ (len a : ℕ) (s s' : Fg X F),
    Fg.hsizeRange o q f a len s = some s' → Fg.hsizeRange o q g a len s = some s' := by
  intro len
  induction len with
  | zero => intro a s s' h; exact h
  | succ len ih =>
    intro a s s' h
    unfold Fg.hsizeRange at h ⊢
    split at h
    · cases h
    · rename_i u hu
      have : Fg.hsizereduce o q g a s = some u := sizeLoop_mono q _ _ _ _ hg hu
      rw [this]
      exact ih _ _ _ h

theorem exchange_mono {X : Type} (q : XOps X F) {f g k : ℕ} (hg : f ≤ g) {s : Fg X F} {r : Fg X F × ℕ}
    (h : exchange o q f k s = some r) : exchange o q g k s = some r := by
  unfold exchange at h ⊢
  simp only at h ⊢
  by_cases hk : k < s.d - s.ldim - 1
  · rw [if_pos hk] at h ⊢
    split at h
    · cases h
    · rename_i u hu
      rw [hsizeRange_mono q hg _ _ _ _ hu]; exact h
  · rw [if_neg hk] at h ⊢
    split at h
    · cases h
    · rename_i u hu
      rw [hsizeRange_mono q hg _ _ _ _ hu]
      simp only at h ⊢
      split at h
      · cases h
      · rename_i v hv
        have : Fg.hsizereduce o q g _ _ = some v := sizeLoop_mono q _ _ _ _ hg hv
        rw [this]; exact h

theorem zStep_mono {f g : ℕ} {gamma gap : F} {target : ℤ} {t : DSt Int F} {r : DStep Int F} (hg : f ≤ g)
    (h : zStep o f gamma gap target t = some r) : zStep o g gamma gap target t = some r := by
  rw [zStep_eq] at h ⊢
  revert h
  generalize (if o.lt (o.abs (o.div (t.s.fp.R (t.s.d - t.s.ldim - 1) (t.s.d - t.s.ldim - 1)) t.diagold)) gap
        then gapDo t.maxh { t.s with nblov := t.s.nblov + 1
                                     ub := t.s.ub || !decide (t.s.ldim < t.s.d ∧ t.s.d - t.s.ldim - 1 < t.s.n) }
        else { t.s with nblov := t.s.nblov + 1
                        ub := t.s.ub || !decide (t.s.ldim < t.s.d ∧ t.s.d - t.s.ldim - 1 < t.s.n) }) = x
  intro h
  unfold zTail at h ⊢
  split at h
  · rename_i h1; rw [if_pos h1]; exact h
  · rename_i h1; rw [if_neg h1]
    unfold zTail2 at h ⊢
    simp only at h ⊢
    split at h
    · rename_i h2; rw [if_pos h2]; exact h
    · rename_i h2; rw [if_neg h2]
      split at h
      · cases h
      · rename_i r hr
        rw [exchange_mono (zX o) hg hr]; exact h

/-- A loop that comes back to a state it has seen never ends. -/
theorem zLoop_cycle {N D E f0 : ℕ} {gamma gap : F} {target : ℤ} (htg : target + E ≤ D) {t t1 t2 : DSt Int F}
    (h1 : zStep o f0 gamma gap target t = some (.next t1))
    (h2 : zStep o f0 gamma gap target t1 = some (.next t2)) (hA : DAg N D E t t2) (fuel : ℕ) (hf : f0 ≤ fuel) :
    ∀ k, zLoop o fuel gamma gap target k t = none := by
  intro k
  induction k using Nat.strong_induction_on with
  | _ k ih =>
    match k with
    | 0 => rfl
    | 1 => unfold zLoop; rw [zStep_mono hf h1]; rfl
    | k + 2 =>
      unfold zLoop; rw [zStep_mono hf h1]
      simp only
      unfold zLoop; rw [zStep_mono hf h2]
      simp only
      exact (zLoop_ag htg k t t2 hA).mp (ih k (by omega))

end Agr
end HPLLL
