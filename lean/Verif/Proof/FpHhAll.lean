import Verif.Proof.FpMain
import Verif.Model.Householder
/-! `householder()` in an arbitrary arithmetic, and uniqueness of the factorisation. -/

namespace HPLLL
open Spec

namespace Fl

variable {F : Type} {o : FPOps F}

/-- Frame of the work on column `κ` of `householder()`. -/
structure HaFrame (κ : Nat) (p p' : FPart F) : Prop where
  V : ∀ c, c ≠ κ → p'.V c = p.V c
  R : ∀ c, c ≠ κ → p'.R c = p.R c

theorem hhAllApply_spec {n κ k : Nat} (hk : k < n) (p : FPart F) (x : Nat → F)
    (h : ∀ i < n, p.R κ i = fapp o n p.V k x i) :
    (∀ i < n, (hhAllApply o n κ k p).R κ i = fapp o n p.V (k + 1) x i) ∧
    (hhAllApply o n κ k p).V = p.V ∧ (∀ c, c ≠ κ → (hhAllApply o n κ k p).R c = p.R c) ∧
    (hhAllApply o n κ k p).nmaxkappa = p.nmaxkappa := by
  have hdot : scalarprod o (getcol p.V k k) (getcol p.R κ k) (n - k) =
      fdot o n k (p.V k) (fapp o n p.V k x) :=
    scalarprod_eq (p.V k) _ _ hk (fun i hi => h _ hi)
  refine ⟨?_, rfl, ?_, rfl⟩
  · intro i hi
    simp only [hhAllApply, hdot, fmasub, setCol_same, fapp]
    split
    · rename_i h1
      rw [if_pos (by omega)]
      simp only [getcol]
      rw [show k + (i - k) = i by omega, h i hi]
    · rename_i h1
      rw [if_neg (by omega), h i hi]
  · intro c hc
    simp only [hhAllApply, fmasub]
    rw [setCol_ne _ _ hc]

theorem hhAllApplies_spec {n κ : Nat} (x : Nat → F) : ∀ (m : Nat), m ≤ n → ∀ (p : FPart F),
    (∀ i < n, p.R κ i = x i) →
    let q := (List.range m).foldl (fun p k => hhAllApply o n κ k p) p
    (∀ i < n, q.R κ i = fapp o n p.V m x i) ∧ q.V = p.V ∧ (∀ c, c ≠ κ → q.R c = p.R c) := by
  intro m
  induction m with
  | zero => intro _ p h; exact ⟨h, rfl, fun _ _ => rfl⟩
  | succ m ih =>
    intro hm p h
    rw [List.range_succ, List.foldl_append]
    obtain ⟨a, b, c⟩ := ih (by omega) p h
    simp only [List.foldl_cons, List.foldl_nil]
    set q := (List.range m).foldl (fun p k => hhAllApply o n κ k p) p
    obtain ⟨a', b', c', _⟩ := hhAllApply_spec (o := o) (by omega : m < n) q x (by rw [b]; exact a)
    refine ⟨?_, b'.trans b, fun j hj => (c' j hj).trans (c j hj)⟩
    rw [b] at a'
    exact a'

theorem hhAllCol_spec (hz : ZeroLaws o) {n d κ : Nat} (hκ : κ < n) (B : Mat Int) (p : FPart F) :
    HaFrame κ p (hhAllCol o n d B κ p) ∧
    HvCol o n n κ (fapp o n p.V κ (fvec o n B κ)) ((hhAllCol o n d B κ p).V κ)
      ((hhAllCol o n d B κ p).R κ) := by
  unfold hhAllCol
  simp only []
  set p0 : FPart F := { p with R := fsetcolZ o p.R κ (B κ) n } with hp0
  obtain ⟨a, b, c⟩ := hhAllApplies_spec (o := o) (κ := κ) (fvec o n B κ) κ hκ.le p0 (by
    intro i hi
    simp only [hp0, fsetcolZ, setCol_same, fvec, if_pos hi])
  set q := (List.range κ).foldl (fun p k => hhAllApply o n κ k p) p0 with hq
  obtain ⟨vf, hv⟩ := householderV_spec hz (n := n) (κ := κ) { q with nmaxkappa := n }
    (fapp o n p0.V κ (fvec o n B κ)) hκ (le_refl n) a (fun r h1 h2 => absurd h2 (Nat.not_lt.mpr h1))
  have hV0 : p0.V = p.V := rfl
  refine ⟨⟨?_, ?_⟩, ?_⟩
  · intro c hc
    show (householderV o n κ { q with nmaxkappa := n }).V c = _
    rw [vf.V c hc]
    show q.V c = _
    rw [b]
  · intro j hj
    simp only []
    rw [setCol_ne _ _ hj, vf.R j hj]
    show q.R j = _
    rw [c j hj]
    simp only [hp0, fsetcolZ]
    rw [setCol_ne _ _ hj]
  · simp only [setCol_same]
    refine ⟨?_, ?_, hv.vdiag, hv.vlow, hv.vzero⟩
    · intro i hi
      rw [if_neg (by omega)]
      exact hv.up i hi
    · rw [if_neg (by omega)]
      exact hv.diag

theorem householder_spec (hz : ZeroLaws o) (s : Lat F) (hdn : s.d ≤ s.n) :
    IsFpQR o s.n s.d (fvec o s.n s.B) (s.householder o).fp.V (s.householder o).fp.R := by
  have key : ∀ m ≤ s.d, ∀ k < m,
      HvCol o s.n s.n k (fapp o s.n ((List.range m).foldl
          (fun p κ => hhAllCol o s.n s.d s.B κ p) s.fp).V k (fvec o s.n s.B k))
        (((List.range m).foldl (fun p κ => hhAllCol o s.n s.d s.B κ p) s.fp).V k)
        (((List.range m).foldl (fun p κ => hhAllCol o s.n s.d s.B κ p) s.fp).R k) := by
    intro m
    induction m with
    | zero => intro _ k hk; omega
    | succ m ih =>
      intro hm k hk
      rw [List.range_succ, List.foldl_append]
      simp only [List.foldl_cons, List.foldl_nil]
      set q := (List.range m).foldl (fun p κ => hhAllCol o s.n s.d s.B κ p) s.fp with hq
      obtain ⟨f, h⟩ := hhAllCol_spec hz (n := s.n) (d := s.d) (κ := m) (by omega) s.B q
      rw [fapp_congrV s.n q.V _ k (fun j hj => f.V j (by omega))]
      by_cases hkm : k = m
      · subst hkm; exact h
      · rw [f.V k hkm, f.R k hkm]; exact ih (by omega) k (by omega)
  have := key s.d (le_refl _)
  exact ⟨fun k hk => (this k hk).up, fun k hk => (this k hk).diag, fun k hk => (this k hk).vdiag,
    fun k hk r h1 h2 _ => (this k hk).vlow r h1 h2⟩

theorem fdot_congr3 {n a : Nat} {x x' y y' : Nat → F} (ha : a < n)
    (h : ∀ r, a ≤ r → r < n → x r = x' r) (h2 : ∀ r, a ≤ r → r < n → y r = y' r) :
    fdot o n a x y = fdot o n a x' y' := by
  unfold fdot
  rw [h (a + 0) (by omega) (by omega), h2 (a + 0) (by omega) (by omega)]
  have : ∀ (l : List Nat) (z : F), (∀ i ∈ l, a + (i + 1) < n) →
      l.foldl (fun acc i => o.addmul acc (x (a + (i + 1))) (y (a + (i + 1)))) z =
      l.foldl (fun acc i => o.addmul acc (x' (a + (i + 1))) (y' (a + (i + 1)))) z := by
    intro l
    induction l with
    | nil => intros; rfl
    | cons b l ih =>
      intro z hz
      rw [List.foldl_cons, List.foldl_cons, h _ (by omega) (hz b (by simp)),
        h2 _ (by omega) (hz b (by simp))]
      exact ih _ (fun i hi => hz i (by simp [hi]))
  apply this
  intro i hi
  have := List.mem_range.mp hi
  omega

theorem fapp_congr3 (n : Nat) (V V' : Nat → Nat → F) (k : Nat) (hk : k ≤ n)
    (h : ∀ j < k, ∀ r, j ≤ r → r < n → V' j r = V j r) (x : Nat → F) (r : Nat) (hr : r < n) :
    fapp o n V' k x r = fapp o n V k x r := by
  induction k generalizing r with
  | zero => rfl
  | succ k ih =>
    have ih' := fun r hr => ih (by omega) (fun j hj => h j (by omega)) r hr
    simp only [fapp]
    split
    · rename_i h1
      rw [ih' r hr, h k (by omega) r h1.1 hr,
        fdot_congr3 (by omega) (h k (by omega)) (fun r _ hr => ih' r hr)]
    · exact ih' r hr

/-- The factorisation is determined by the columns (as long as no division by zero occurs). -/
theorem isFpQR_unique {n d : Nat} (hdn : d ≤ n) {b V V' R R' : Nat → Nat → F}
    (h : IsFpQR o n d b V R) (h' : IsFpQR o n d b V' R')
    (hnz : ∀ k < d, o.isZero (fscal o n k (fapp o n V k (b k))) = false) :
    ∀ k < d, ∀ i ≤ k, R' k i = R k i := by
  have hV : ∀ m ≤ d, ∀ k < m, ∀ r, k ≤ r → r < n → V' k r = V k r := by
    intro m
    induction m with
    | zero => intro _ k hk; omega
    | succ m ih =>
      intro hm k hk r hkr hr
      by_cases hkm : k = m
      · subst hkm
        have ha : ∀ r < n, fapp o n V' k (b k) r = fapp o n V k (b k) r :=
          fapp_congr3 n V V' k (by omega) (fun j hj => ih (by omega) j hj) (b k)
        have hn : fnorm o n k (fapp o n V' k (b k)) = fnorm o n k (fapp o n V k (b k)) := by
          unfold fnorm
          rw [fdot_congr3 (by omega) (fun r _ hr => ha r hr) (fun r _ hr => ha r hr)]
        have hs : fsig o n k (fapp o n V' k (b k)) = fsig o n k (fapp o n V k (b k)) := by
          unfold fsig; rw [hn, ha k (by omega)]
        have hc : fscal o n k (fapp o n V' k (b k)) = fscal o n k (fapp o n V k (b k)) := by
          unfold fscal; rw [hs, ha k (by omega)]
        by_cases hrk : r = k
        · subst hrk
          rw [h.vdiag r (by omega), h'.vdiag r (by omega), hs, hc, ha r (by omega)]
        · rw [h.vlow k (by omega) r (by omega) hr (hnz k (by omega)),
            h'.vlow k (by omega) r (by omega) hr (by rw [hc]; exact hnz k (by omega)), hc, ha r hr]
      · exact ih (by omega) k (by omega) r hkr hr
  intro k hk i hi
  have ha : ∀ r < n, fapp o n V' k (b k) r = fapp o n V k (b k) r :=
    fapp_congr3 n V V' k (by omega) (fun j hj => hV k hk.le j hj) (b k)
  have hn : fnorm o n k (fapp o n V' k (b k)) = fnorm o n k (fapp o n V k (b k)) := by
    unfold fnorm
    rw [fdot_congr3 (by omega) (fun r _ hr => ha r hr) (fun r _ hr => ha r hr)]
  by_cases hik : i = k
  · subst hik
    rw [h.diag i hk, h'.diag i hk, hn, ha i (by omega)]
  · rw [h.up k hk i (by omega), h'.up k hk i (by omega), ha i (by omega)]

end Fl
end HPLLL
