import Verif.Proof.Decomp
import Verif.Spec.Decomp
/-! FGAS decompositions: the transformation and its inverse transpose. -/

namespace HPLLL
open Spec Matrix

namespace Dec

variable {X F : Type} {o : FPOps F} {q : XOps X F}

theorem combine_U (κ i : Nat) (x : F) (s : Fg X F) :
    (s.combine o q κ i x).U = if s.trU then axpy s.U κ i (-(o.toZ x)) s.n else s.U := by
  unfold Fg.combine axpy
  simp only
  by_cases h : o.toZ x = -1
  · simp only [h, if_true, addcol]
    split
    · congr 1; funext r; split <;> ring
    · rfl
  · rw [if_neg h]
    by_cases h' : o.toZ x = 1
    · simp only [h', if_true, subcol]
      split
      · congr 1; funext r; split <;> ring
      · rfl
    · simp only [h', if_false, submulcol]
      split
      · congr 1; funext r; split <;> ring
      · rfl

theorem combine_W (κ i : Nat) (x : F) (s : Fg X F) :
    (s.combine o q κ i x).W = if s.trW then axpy s.W i κ (o.toZ x) s.n else s.W := by
  unfold Fg.combine axpy
  simp only
  by_cases h : o.toZ x = -1
  · simp only [h, if_true, subcol]
    split
    · congr 1; funext r; split <;> ring
    · rfl
  · rw [if_neg h]
    by_cases h' : o.toZ x = 1
    · simp only [h', if_true, addcol]
      split
      · congr 1; funext r; split <;> ring
      · rfl
    · simp only [h', if_false, addmulcol]

theorem combine_ok {κ i : Nat} {x : F} {s : Fg X F} (h : (s.combine o q κ i x).ub = false) :
    s.ub = false ∧ κ < s.n ∧ i < s.n := by
  unfold Fg.combine at h
  simp only at h
  split at h
  · simp at h; tauto
  · split at h <;> · simp at h; tauto

/-- `T` is the transformation applied so far, `W` its inverse transpose. -/
structure Alg (n lo : Nat) (T W : Matrix (Fin n) (Fin n) ℤ) (s : Fg X F) : Prop where
  hn : s.n = n
  inv : Wᵀ * T = 1
  u : s.trU = true → toMatrix n n s.U = T
  w : s.trW = true → toMatrix n n s.W = W
  t0 : ∀ i j : Fin n, lo ≤ i.1 → j.1 < lo → T i j = 0
  w0 : ∀ i j : Fin n, i.1 < lo → lo ≤ j.1 → W i j = 0

theorem Alg.comb {n lo : Nat} {T W : Matrix (Fin n) (Fin n) ℤ} {s : Fg X F} (h : Alg n lo T W s)
    (κ i : Fin n) (hi : i < κ) (x : F) :
    Alg n lo (T * transvection i κ (-(o.toZ x))) (W * transvection κ i (o.toZ x))
      (s.combine o q κ i x) := by
  obtain ⟨e1, e2, e3, e4, e5, e6, e7, -⟩ := (Mv.comb (o := o) (q := q) (lo := 0) s κ i x hi).le
  have hne : i ≠ κ := ne_of_lt hi
  have hlt : i.1 < κ.1 := hi
  refine ⟨e2.trans h.hn, ?_, ?_, ?_, ?_, ?_⟩
  · rw [Matrix.transpose_mul, show (transvection κ i (o.toZ x))ᵀ = transvection i κ (o.toZ x) by
      simp [transvection, Matrix.transpose_add]]
    rw [Matrix.mul_assoc, ← Matrix.mul_assoc Wᵀ, h.inv, Matrix.one_mul,
      transvection_mul_transvection_same _ _ hne]
    simp
  · intro ht
    rw [e5] at ht
    rw [combine_U, if_pos ht, h.hn, toMatrix_axpy _ _ _ _ _ hne _ _ (fun r a b => by omega), h.u ht]
  · intro ht
    rw [e6] at ht
    rw [combine_W, if_pos ht, h.hn, toMatrix_axpy _ _ _ _ _ hne.symm _ _ (fun r a b => by omega),
      h.w ht]
  · intro a b ha hb
    by_cases hj : b = κ
    · subst hj
      rw [mul_transvection_apply_same, h.t0 a b ha hb, h.t0 a i ha (by omega)]; simp
    · rw [mul_transvection_apply_of_ne _ _ _ _ hj, h.t0 a b ha hb]
  · intro a b ha hb
    by_cases hj : b = i
    · subst hj
      rw [mul_transvection_apply_same, h.w0 a b ha hb, h.w0 a κ ha (by omega)]; simp
    · rw [mul_transvection_apply_of_ne _ _ _ _ hj, h.w0 a b ha hb]

theorem mul_perm_apply {R : Type} [CommRing R] {m n : Nat} (T : Matrix (Fin m) (Fin n) R) (a b : Fin n)
    (i : Fin m) (j : Fin n) :
    (T * (Equiv.swap a b).permMatrix R) i j = T i (Equiv.swap a b j) := by
  rw [Equiv.Perm.permMatrix, PEquiv.mul_toMatrix_toPEquiv]
  simp

theorem perm_orth {n : Nat} (a b : Fin n) :
    ((Equiv.swap a b).permMatrix ℤ)ᵀ * (Equiv.swap a b).permMatrix ℤ = 1 := by
  ext i j
  rw [mul_perm_apply, Matrix.transpose_apply]
  have := mul_perm_apply (1 : Matrix (Fin n) (Fin n) ℤ) a b (Equiv.swap a b j) i
  rw [Matrix.one_mul] at this
  rw [this, Matrix.one_apply, Matrix.one_apply]
  simp [eq_comm]

theorem swap_lt {n lo : Nat} {a b : Fin n} (ha : lo ≤ a.1) (hb : lo ≤ b.1) (j : Fin n) :
    (j.1 < lo → Equiv.swap a b j = j) ∧ (lo ≤ j.1 → lo ≤ (Equiv.swap a b j).1) := by
  constructor
  · intro h
    exact Equiv.swap_apply_of_ne_of_ne (fun e => by subst e; omega) (fun e => by subst e; omega)
  · intro h
    rw [Equiv.swap_apply_def]
    split
    · exact hb
    · split
      · exact ha
      · exact h

theorem Alg.swap {n lo : Nat} {T W : Matrix (Fin n) (Fin n) ℤ} {s : Fg X F} (h : Alg n lo T W s)
    (a b : Fin n) (ha : lo ≤ a.1) (hb : lo ≤ b.1) :
    Alg n lo (T * (Equiv.swap a b).permMatrix ℤ) (W * (Equiv.swap a b).permMatrix ℤ) (s.swap a b) := by
  refine ⟨h.hn, ?_, ?_, ?_, ?_, ?_⟩
  · rw [Matrix.transpose_mul, Matrix.mul_assoc, ← Matrix.mul_assoc Wᵀ, h.inv, Matrix.one_mul, perm_orth]
  · intro ht
    have ht' : s.trU = true := ht
    simp only [Fg.swap, ht', if_true]
    rw [toMatrix_colswap, h.u ht']
  · intro ht
    have ht' : s.trW = true := ht
    simp only [Fg.swap, ht', if_true]
    rw [toMatrix_colswap, h.w ht']
  · intro i j hi hj
    rw [mul_perm_apply, (swap_lt ha hb j).1 hj]
    exact h.t0 i j hi hj
  · intro i j hi hj
    rw [mul_perm_apply]
    exact h.w0 i _ hi ((swap_lt ha hb j).2 hj)

theorem swap_ok {a b : Nat} {s : Fg X F} (h : (s.swap a b).ub = false) :
    s.ub = false ∧ a < s.n ∧ b < s.n ∧
      (s.trY = true → s.dec ≤ a ∧ s.dec ≤ b ∧ a - s.dec < s.d ∧ b - s.dec < s.d) := by
  simp [Fg.swap] at h
  refine ⟨h.1, h.2.1.1, h.2.1.2, fun ht => ?_⟩
  have := h.2.2
  simp [ht] at this
  exact this

/-- A property carried along with the transformation. -/
structure Carried (P : ∀ n : Nat, Matrix (Fin n) (Fin n) ℤ → Matrix (Fin n) (Fin n) ℤ → Fg X F → Prop)
    (o : FPOps F) (q : XOps X F) (lo : Nat) : Prop where
  comb : ∀ (n : Nat) (T W : Matrix (Fin n) (Fin n) ℤ) (s : Fg X F) (κ i : Fin n) (x : F), i < κ →
    Alg n lo T W s → (s.combine o q κ i x).ub = false → P n T W s →
    P n (T * transvection i κ (-(o.toZ x))) (W * transvection κ i (o.toZ x)) (s.combine o q κ i x)
  swap : ∀ (n : Nat) (T W : Matrix (Fin n) (Fin n) ℤ) (s : Fg X F) (a b : Fin n), lo ≤ a.1 → lo ≤ b.1 →
    Alg n lo T W s → (s.swap a b).ub = false → P n T W s →
    P n (T * (Equiv.swap a b).permMatrix ℤ) (W * (Equiv.swap a b).permMatrix ℤ) (s.swap a b)
  fp : ∀ (n : Nat) (T W : Matrix (Fin n) (Fin n) ℤ) (s : Fg X F) (p : FPart F) (l k : Nat) (b : Bool),
    P n T W s → P n T W { s with fp := p, ldim := l, nblov := k, ub := b }

theorem Carried.mvs {P : ∀ n : Nat, Matrix (Fin n) (Fin n) ℤ → Matrix (Fin n) (Fin n) ℤ → Fg X F → Prop}
    {lo : Nat} (hP : Carried P o q lo) {n : Nat} {s s' : Fg X F} (h : Mvs o q lo s s')
    (h0 : ∃ T W, Alg n lo T W s ∧ P n T W s) (hub : s'.ub = false) :
    ∃ T W, Alg n lo T W s' ∧ P n T W s' := by
  induction h with
  | refl => exact h0
  | tail a b ih =>
    rename_i s1 s2
    obtain ⟨T, W, hA, hp⟩ := ih (b.le.2.2.2.2.2.2.2 hub)
    cases b with
    | fp p => exact ⟨T, W, ⟨hA.hn, hA.inv, hA.u, hA.w, hA.t0, hA.w0⟩, hP.fp n T W s1 p s1.ldim s1.nblov s1.ub hp⟩
    | comb κ i x hi =>
      obtain ⟨-, h1, h2⟩ := combine_ok hub
      rw [hA.hn] at h1 h2
      exact ⟨_, _, hA.comb ⟨κ, h1⟩ ⟨i, h2⟩ hi x, hP.comb n T W s1 ⟨κ, h1⟩ ⟨i, h2⟩ x hi hA hub hp⟩
    | swap a b ha hb =>
      obtain ⟨-, h1, h2, -⟩ := swap_ok hub
      rw [hA.hn] at h1 h2
      exact ⟨_, _, hA.swap ⟨a, h1⟩ ⟨b, h2⟩ ha hb, hP.swap n T W s1 ⟨a, h1⟩ ⟨b, h2⟩ ha hb hA hub hp⟩
    | ctr l k =>
      exact ⟨T, W, ⟨hA.hn, hA.inv, hA.u, hA.w, hA.t0, hA.w0⟩, hP.fp n T W s1 s1.fp l k s1.ub hp⟩
    | chk b =>
      exact ⟨T, W, ⟨hA.hn, hA.inv, hA.u, hA.w, hA.t0, hA.w0⟩,
        hP.fp n T W s1 s1.fp s1.ldim s1.nblov (s1.ub || b) hp⟩

theorem Alg.mvs {lo n : Nat} {s s' : Fg X F} (h : Mvs o q lo s s') (h0 : ∃ T W, Alg n lo T W s)
    (hub : s'.ub = false) : ∃ T W, Alg n lo T W s' := by
  obtain ⟨T, W, hA⟩ := h0
  obtain ⟨T', W', hA', -⟩ := Carried.mvs (P := fun _ _ _ _ => True) (o := o) (q := q) (lo := lo)
    ⟨fun _ _ _ _ _ _ _ _ _ _ _ => trivial, fun _ _ _ _ _ _ _ _ _ _ _ => trivial,
      fun _ _ _ _ _ _ _ _ _ => trivial⟩ h ⟨T, W, hA, trivial⟩ hub
  exact ⟨T', W', hA'⟩

theorem toMatrix_idMat (n : Nat) : toMatrix n n idMat = 1 := by
  ext i j
  simp only [toMatrix, of_apply, idMat, Matrix.one_apply]
  by_cases h : i = j
  · subst h; simp
  · rw [if_neg h, if_neg (fun e => h (Fin.ext e))]

theorem Alg.init {n lo : Nat} {s : Fg X F} (hn : s.n = n) (hU : s.U = idMat) (hW : s.W = idMat) :
    Alg n lo 1 1 s := by
  refine ⟨hn, by simp, fun _ => by rw [hU, toMatrix_idMat], fun _ => by rw [hW, toMatrix_idMat], ?_, ?_⟩
  · intro i j h1 h2
    exact Matrix.one_apply_ne (fun e => by subst e; omega)
  · intro i j h1 h2
    exact Matrix.one_apply_ne (fun e => by subst e; omega)

theorem Alg.unitT {n lo : Nat} {T W : Matrix (Fin n) (Fin n) ℤ} {s : Fg X F} (h : Alg n lo T W s) :
    IsUnit T.det ∧ IsUnit W.det := by
  have := congrArg Matrix.det h.inv
  rw [Matrix.det_mul, Matrix.det_transpose, Matrix.det_one] at this
  exact ⟨IsUnit.of_mul_eq_one_right _ this, IsUnit.of_mul_eq_one _ this⟩

/-! ## The matrix that is decomposed, and the residue, in exact arithmetic -/

theorem zX_ring (o : FPOps F) : ExactEntries (X := Int) (zX o) :=
  ⟨fun _ _ => rfl, fun _ _ => rfl, fun _ _ _ => rfl, fun _ _ _ => rfl, fun z => by simp [zX]⟩

variable [CommRing X]

theorem combine_M (hq : ExactEntries q) (κ i : Nat) (x : F) (s : Fg X F) :
    (s.combine o q κ i x).M = setCol s.M κ fun r =>
      if r < s.d then s.M κ r - ((o.toZ x : ℤ) : X) * s.M i r else s.M κ r := by
  unfold Fg.combine xcol
  simp only
  by_cases h : o.toZ x = -1
  · simp only [h, if_true, hq.add]
    congr 1; funext r; split
    · push_cast; ring
    · rfl
  · rw [if_neg h]
    by_cases h' : o.toZ x = 1
    · simp only [h', if_true, hq.sub]
      congr 1; funext r; split
      · push_cast; ring
      · rfl
    · simp only [h', if_false, hq.submul, hq.ofZ]

theorem combine_Y (hq : ExactEntries q) (κ i : Nat) (x : F) (s : Fg X F) :
    (s.combine o q κ i x).Y = if s.trY = true ∧ s.dec ≤ i then fun c => if c < s.dec then
      setAt (s.Y c) (i - s.dec) (s.Y c (i - s.dec) + ((o.toZ x : ℤ) : X) * s.Y c (κ - s.dec)) else s.Y c
      else s.Y := by
  unfold Fg.combine xrow
  simp only [Bool.and_eq_true, decide_eq_true_eq]
  by_cases h : o.toZ x = -1
  · simp only [h, if_true, hq.sub]
    split
    · funext c; split
      · congr 1; push_cast; ring
      · rfl
    · rfl
  · rw [if_neg h]
    by_cases h' : o.toZ x = 1
    · simp only [h', if_true, hq.add]
      split
      · funext c; split
        · congr 1; push_cast; ring
        · rfl
      · rfl
    · simp only [h', if_false, hq.addmul, hq.ofZ]
      split
      · funext c; split
        · congr 1; ring
        · rfl
      · rfl

/-- `F = F_input * T`. -/
def MEq (d : Nat) (A : Mat X) (n : Nat) (T _W : Matrix (Fin n) (Fin n) ℤ) (s : Fg X F) : Prop :=
  s.d = d ∧ ∀ (r : Nat), r < d → ∀ j : Fin n, s.M j r = ∑ k : Fin n, A k r * ((T k j : ℤ) : X)

/-- The residue is `W^T` times the initial residue. -/
def YEq (dec : Nat) (Y0 : Mat X) (n : Nat) (_T W : Matrix (Fin n) (Fin n) ℤ) (s : Fg X F) : Prop :=
  s.dec = dec ∧ (s.trY = true → ∀ c, c < dec → ∀ j : Fin n, dec ≤ j.1 →
    s.Y c (j - dec) = ∑ k : Fin n, if dec ≤ k.1 then ((W k j : ℤ) : X) * Y0 c (k - dec) else 0)

theorem sum_trans {n : Nat} (T : Matrix (Fin n) (Fin n) ℤ) (a : Fin n → X) (i κ j : Fin n) (c : ℤ) :
    ∑ k, a k * (((T * transvection i κ c) k j : ℤ) : X) =
      if j = κ then ∑ k, a k * ((T k κ : ℤ) : X) + (c : X) * ∑ k, a k * ((T k i : ℤ) : X)
      else ∑ k, a k * ((T k j : ℤ) : X) := by
  split
  · rename_i h
    subst h
    rw [Finset.mul_sum, ← Finset.sum_add_distrib]
    refine Finset.sum_congr rfl fun k _ => ?_
    rw [mul_transvection_apply_same]; push_cast; ring
  · rename_i h
    refine Finset.sum_congr rfl fun k _ => ?_
    rw [mul_transvection_apply_of_ne _ _ _ _ h]

theorem MEq.carried (hq : ExactEntries q) (d lo : Nat) (A : Mat X) :
    Carried (MEq (X := X) (F := F) d A) o q lo := by
  refine ⟨?_, ?_, ?_⟩
  · intro n T W s κ i x hi hA hub hp
    obtain ⟨e1, -⟩ := (Mv.comb (o := o) (q := q) (lo := 0) s κ i x hi).le
    refine ⟨e1.trans hp.1, ?_⟩
    intro r hr j
    rw [combine_M hq, sum_trans T (fun k => A k r)]
    by_cases hj : j = κ
    · subst hj
      rw [setCol_same, if_pos rfl, if_pos (by rw [hp.1]; exact hr), hp.2 r hr, hp.2 r hr]
      push_cast; ring
    · rw [setCol_ne _ _ (fun e => hj (Fin.ext e)), if_neg hj, hp.2 r hr]
  · intro n T W s a b ha hb hA hub hp
    refine ⟨hp.1, ?_⟩
    intro r hr j
    have : (s.swap a b).M j = s.M (Equiv.swap a b j) := by
      simp only [Fg.swap, colswap]
      by_cases h1 : j = a
      · subst h1; simp
      · by_cases h2 : j = b
        · subst h2
          rw [if_neg (fun e => h1 (Fin.ext e)), if_pos rfl]; simp
        · rw [Equiv.swap_apply_of_ne_of_ne h1 h2, if_neg (fun e => h1 (Fin.ext e)),
            if_neg (fun e => h2 (Fin.ext e))]
    rw [this, hp.2 r hr]
    refine Finset.sum_congr rfl fun k _ => ?_
    rw [mul_perm_apply]
  · intro n T W s p l k b hp
    exact hp

theorem YEq.carried (hq : ExactEntries q) (dec lo : Nat) (Y0 : Mat X) :
    Carried (YEq (X := X) (F := F) dec Y0) o q lo := by
  refine ⟨?_, ?_, ?_⟩
  · intro n T W s κ i x hi hA hub hp
    obtain ⟨-, -, e3, -, -, -, e7, -⟩ := (Mv.comb (o := o) (q := q) (lo := 0) s κ i x hi).le
    refine ⟨e3.trans hp.1, ?_⟩
    intro ht c hc j hj
    rw [e7] at ht
    have hlt : i.1 < κ.1 := hi
    have hs : ∑ k : Fin n, (if dec ≤ k.1 then
          (((W * transvection κ i (o.toZ x)) k j : ℤ) : X) * Y0 c (k - dec) else 0) =
        ∑ k : Fin n, (if dec ≤ k.1 then Y0 c (k - dec) else 0) *
          (((W * transvection κ i (o.toZ x)) k j : ℤ) : X) := by
      refine Finset.sum_congr rfl fun k _ => ?_
      split <;> ring
    have hs' : ∀ j : Fin n, ∑ k : Fin n, (if dec ≤ k.1 then ((W k j : ℤ) : X) * Y0 c (k - dec) else 0) =
        ∑ k : Fin n, (if dec ≤ k.1 then Y0 c (k - dec) else 0) * ((W k j : ℤ) : X) := by
      intro j
      refine Finset.sum_congr rfl fun k _ => ?_
      split <;> ring
    rw [hs, sum_trans, combine_Y hq, hp.1]
    by_cases hdi : dec ≤ i.1
    · rw [if_pos ⟨ht, hdi⟩, if_pos hc]
      by_cases hji : j = i
      · subst hji
        rw [if_pos rfl, setAt_same, hp.2 ht c hc j hj, hp.2 ht c hc κ (by omega), hs', hs']
      · rw [if_neg hji, setAt_ne _ _ (fun e => hji (Fin.ext (by omega))), hp.2 ht c hc j hj, hs']
    · rw [if_neg (fun e => hdi e.2), if_neg (fun e => by subst e; exact hdi hj), hp.2 ht c hc j hj, hs']
  · intro n T W s a b ha hb hA hub hp
    refine ⟨hp.1, ?_⟩
    intro ht c hc j hj
    have ht' : s.trY = true := ht
    obtain ⟨-, -, -, hY⟩ := swap_ok hub
    obtain ⟨h1, h2, -, -⟩ := hY ht'
    rw [hp.1] at h1 h2
    have : (s.swap a b).Y c (j - dec) = s.Y c ((Equiv.swap a b j) - dec) := by
      simp only [Fg.swap, ht', if_true, xrowswap, hp.1, if_pos hc]
      by_cases e1 : j = a
      · subst e1; simp
      · by_cases e2 : j = b
        · subst e2
          have e1' : ¬ j.1 = a.1 := fun e => e1 (Fin.ext e)
          rw [if_neg (by omega), if_pos rfl]; simp
        · have e1' : ¬ j.1 = a.1 := fun e => e1 (Fin.ext e)
          have e2' : ¬ j.1 = b.1 := fun e => e2 (Fin.ext e)
          rw [Equiv.swap_apply_of_ne_of_ne e1 e2, if_neg (by omega), if_neg (by omega)]
    rw [this, hp.2 ht' c hc _ ((swap_lt h1 h2 j).2 hj)]
    refine Finset.sum_congr rfl fun k _ => ?_
    rw [mul_perm_apply]
  · intro n T W s p l k b hp
    exact hp

end Dec
end HPLLL
