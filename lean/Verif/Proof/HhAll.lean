import Verif.Proof.ExactExit
import Verif.Model.Householder
/-! `householder()` in exact arithmetic. -/

namespace HPLLL
open Spec Finset

variable {o : FPOps ℝ}

theorem hhAllApply_spec (ho : Exact o) {n κ k : ℕ} (hk : k < n) (p : FPart ℝ) (x : ℕ → ℝ)
    (h : ∀ i < n, p.R κ i = Ex.app n p.V k x i) :
    (∀ i < n, (hhAllApply o n κ k p).R κ i = Ex.app n p.V (k + 1) x i) ∧
    (hhAllApply o n κ k p).V = p.V ∧ (∀ c, c ≠ κ → (hhAllApply o n κ k p).R c = p.R c) := by
  refine ⟨?_, rfl, ?_⟩
  · intro i hi
    have hv := vprod_eq (nm := n) (m := k) p.V x hk.le (le_refl n) (fun r h1 h2 => by omega)
    have hs : scalarprod o (getcol p.V k k) (getcol p.R κ k) (n - k) = vprod n p.V k x := by
      rw [scalarprod_exact ho _ _ _ (by omega), hv]
      refine sum_congr rfl fun r hr => ?_
      have := mem_range.mp hr
      simp only [getcol]; rw [h _ (by omega)]
    simp only [hhAllApply, fmasub, setCol_same, hs]
    split
    · rename_i hc
      simp only [getcol, ho.submul]
      rw [show k + (i - k) = i by omega, h i hi]
      simp only [Ex.app, Ex.refl, vprod]
      have : Ex.vv n p.V k i = p.V k i := by simp only [Ex.vv]; rw [if_pos (by omega)]
      rw [this]; ring
    · rw [h i hi, Ex.app_succ_lt _ _ _ _ _ (by omega)]
  · intro c hc; simp only [hhAllApply, fmasub]; rw [setCol_ne _ _ hc]

theorem hhAllFold_spec (ho : Exact o) {n κ : ℕ} (x : ℕ → ℝ) (m : ℕ) (hm : m ≤ n) (p : FPart ℝ)
    (h : ∀ i < n, p.R κ i = x i) :
    let q := (List.range m).foldl (fun p k => hhAllApply o n κ k p) p
    (∀ i < n, q.R κ i = Ex.app n p.V m x i) ∧ q.V = p.V ∧ (∀ c, c ≠ κ → q.R c = p.R c) := by
  induction m with
  | zero => exact ⟨h, rfl, fun _ _ => rfl⟩
  | succ m ih =>
    simp only [List.range_succ, List.foldl_append, List.foldl_cons, List.foldl_nil] at ih ⊢
    obtain ⟨a, b, c⟩ := ih (by omega)
    set q := (List.range m).foldl (fun p k => hhAllApply o n κ k p) p
    obtain ⟨a', b', c'⟩ := hhAllApply_spec ho (n := n) (κ := κ) (k := m) (by omega) q x (by rw [b]; exact a)
    rw [b] at a'
    exact ⟨a', b'.trans b, fun e he => (c' e he).trans (c e he)⟩

theorem hhAllCol_spec (ho : Exact o) {n d κ : ℕ} (hκ : κ < n) (B : Mat Int) (p : FPart ℝ)
    (hq : QRv n (fun _ => (n : ℤ) - 1) B p.V p.R κ)
    (hpos : 0 < gd n B κ) (hpos' : 0 < gd n B (κ + 1)) :
    QRv n (fun _ => (n : ℤ) - 1) B (hhAllCol o n d B κ p).V (hhAllCol o n d B κ p).R (κ + 1) := by
  have hnm : ∀ k, nmaxOf (fun _ => (n : ℤ) - 1) k = n := by intro k; simp [nmaxOf]
  set p1 : FPart ℝ := { p with R := fsetcolZ o p.R κ (B κ) n } with hp1
  have h1 : ∀ i < n, p1.R κ i = bv n B κ i := by
    intro i hi; simp only [hp1, fsetcolZ, setCol_same, bv, if_pos hi, ho.ofZ]
  have h1' : ∀ c, c ≠ κ → p1.R c = p.R c := by
    intro c hc; simp only [hp1, fsetcolZ]; rw [setCol_ne _ _ hc]
  obtain ⟨a, b, c⟩ := hhAllFold_spec ho (bv n B κ) κ hκ.le p1 h1
  set p2 := (List.range κ).foldl (fun p k => hhAllApply o n κ k p) p1 with hp2
  have hV2 : p2.V = p.V := b
  have hq2 : QRv n (fun _ => (n : ℤ) - 1) B p2.V p2.R κ :=
    hq.congr (fun _ _ => rfl) (fun _ _ => rfl) (fun k _ => by rw [hV2])
      (fun k hk => by rw [c k (by omega), h1' k (by omega)])
  set p3 : FPart ℝ := { p2 with nmaxkappa := n } with hp3
  have hT : Ex.tail n κ (Ex.app n p3.V κ (bv n B κ)) ≠ 0 := by
    have e := hq2.gd_tail hκ
    intro h0
    rw [show Ex.tail n κ (Ex.app n p2.V κ (bv n B κ)) = 0 from h0, mul_zero] at e
    have : (gd n B (κ + 1)) = 0 := by exact_mod_cast e
    omega
  obtain ⟨e1, e2, e3⟩ := QRv.extend ho (p := p3) (κ := κ) hq2 (by rw [hnm]; exact hκ)
    (by rw [hnm]) (fun k _ => by rw [hnm, hnm]) (fun r hr hrn => by rw [hnm] at hr; omega)
    (by rw [hnm]) (fun i hi => by
      rw [hnm] at hi
      show p2.R κ i = Ex.app n p2.V κ (bv n B κ) i
      rw [hV2]; exact a i hi) hT
  -- zeroing below the diagonal does not matter
  have hR : ∀ k, k < κ + 1 → ∀ i ≤ k, (hhAllCol o n d B κ p).R k i = (householderV o n κ p3).R k i := by
    intro k hk i hi
    show setCol (householderV o n κ p3).R κ _ k i = _
    by_cases hkκ : k = κ
    · subst hkκ; rw [setCol_same, if_neg (by omega)]
    · rw [setCol_ne _ _ hkκ]
  have hV : (hhAllCol o n d B κ p).V = (householderV o n κ p3).V := rfl
  constructor
  · rw [hV]; exact e1.vnorm
  · rw [hV]; exact e1.vsupp
  · intro k hk i hi; rw [hR k hk i hi, hV]; exact e1.rdef k hk i hi
  · rw [hV]; exact e1.rzero
  · intro k hk; rw [hR k hk k (le_refl k)]; exact e1.rdiag k hk

theorem hhAll_spec (ho : Exact o) {n d : ℕ} (B : Mat Int) (p : FPart ℝ)
    (hA : FullColumnRank (toMatrix n d B)) (hdn : d ≤ n) (m : ℕ) (hm : m ≤ d) :
    let q := (List.range m).foldl (fun p κ => hhAllCol o n d B κ p) p
    QRv n (fun _ => (n : ℤ) - 1) B q.V q.R m := by
  induction m with
  | zero => exact ⟨fun k hk => by omega, fun k hk => by omega, fun k hk => by omega,
      fun k hk => by omega, fun k hk => by omega⟩
  | succ m ih =>
    simp only [List.range_succ, List.foldl_append, List.foldl_cons, List.foldl_nil] at ih ⊢
    exact hhAllCol_spec ho (by omega) B _ (ih (by omega)) (gd_pos (by omega) hA)
      (gd_pos (by omega) hA)

end HPLLL
