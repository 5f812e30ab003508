import Verif.Proof.Cont
import Verif.Proof.ExactInv
/-! The run over a lawful matrix class follows the run of the plain model. -/

namespace HPLLL

variable {F M W G : Type}

/-- The integer members of the plain model. -/
def Lat.z (s : Lat F) : ZPart :=
  { n := s.n, d := s.d, transf := s.transf, B := s.B, U := s.U, kappaMax := s.kappaMax
    nblovMax := s.nblovMax, str := s.str, nblov := s.nblov, nbswaps := s.nbswaps, numS := s.numS
    parThr := s.parThr, seysenFlag := s.seysenFlag, fastLong := s.fastLong
    verboseDepth := s.verboseDepth, ub := s.ub }

/-- Profile facts, for any arithmetic. -/
structure Geom (n d : Nat) (str : Nat → Int) : Prop where
  le : ∀ j < d, nmaxOf str j ≤ n
  mono : ∀ i j, i ≤ j → j < d → nmaxOf str i ≤ nmaxOf str j
  diag : ∀ j < d, j < nmaxOf str j

open Spec in
theorem LInv.geom {n d : ℕ} {A : Mat Int} {track : Prop} {s : Lat F} (h : LInv n d A track s)
    (hA : FullColumnRank (toMatrix n d A)) : Geom n d s.str := by
  have hB : FullColumnRank (toMatrix n d s.B) := by
    obtain ⟨W, hW, e, _⟩ := h.uni
    rw [e]; exact fcr_mul_unit hW hA
  constructor
  · intro j hj; have := h.lt j hj; unfold nmaxOf; omega
  · intro i j hij hj; have := h.mono i j hij hj; unfold nmaxOf; omega
  · intro j hj
    have := structure_ge_diag n d s.B hB s.str h.mono h.lt h.supp j hj
    unfold nmaxOf; omega

namespace Sim

variable {o : FPOps F} {c : Cont F M W G} {n : Nat} {E : Bool → F → F → Prop}

/-- Everything that is not about column `κ`. -/
structure Oth (c : Cont F M W G) (E : Bool → F → F → Prop) (n d : Nat) (str : Nat → Int) (P : FPartG F M)
    (p : FPart F) (κ : Nat) : Prop where
  v : ∀ k < κ, ∀ r, k ≤ r → r < n → c.get P.V k r = p.V k r
  r : ∀ k < κ, ∀ i ≤ k, c.get P.R k i = p.R k i
  bz : ∀ j < d, ∀ r, nmaxOf str j ≤ r → r < n → E true (c.get P.Bfp j r) (p.Bfp j r)
  be : ∀ j < d, ∀ r < n, E false (c.get P.Bfp j r) (p.Bfp j r)
  ck : ∀ j < d, P.colKept j = p.colKept j
  kb : ∀ j < d, j ≠ κ → p.colKept j = true → (∀ r < n, c.get P.Bfp j r = p.Bfp j r) ∧
    P.normB2 j = p.normB2 j ∧ P.kappamin j = p.kappamin j ∧ 0 ≤ p.kappamin j
  lo : ∀ j < κ, p.colKept j = true ∧ p.kappamin j = j ∧ ∀ k < j, P.VR j k = p.VR j k
  hi : ∀ j, κ < j → j < d → p.colKept j = true → p.kappamin j ≤ κ ∧
    ∀ k : ℕ, (k : ℤ) < p.kappamin j → P.VR j k = p.VR j k
  de : ∀ j < d, P.descendu j = p.descendu j
  de0 : ∀ j, κ < j → j < d → p.descendu j = 0

theorem Oth.congr {d κ : Nat} {str : Nat → Int} {P P' : FPartG F M} {p p' : FPart F}
    (h : Oth c E n d str P p κ) (f : Frm c κ P P' p p')
    (hz : κ < d → ∀ r, nmaxOf str κ ≤ r → r < n → E true (c.get P'.Bfp κ r) (p'.Bfp κ r))
    (he : κ < d → ∀ r < n, E false (c.get P'.Bfp κ r) (p'.Bfp κ r))
    (hk : κ < d → P'.colKept κ = p'.colKept κ) : Oth c E n d str P' p' κ := by
  constructor
  · rw [f.V, f.pV]; exact h.v
  · intro k hk i hi
    rw [f.R k (by omega), f.pR k (by omega)]; exact h.r k hk i hi
  · intro j hj r h1 h2
    by_cases hjκ : j = κ
    · subst hjκ; exact hz hj r h1 h2
    · rw [f.Bfp j hjκ, f.pBfp j hjκ]; exact h.bz j hj r h1 h2
  · intro j hj r h2
    by_cases hjκ : j = κ
    · subst hjκ; exact he hj r h2
    · rw [f.Bfp j hjκ, f.pBfp j hjκ]; exact h.be j hj r h2
  · intro j hj
    by_cases hjκ : j = κ
    · subst hjκ; exact hk hj
    · rw [f.colKept j hjκ, f.pcolKept j hjκ]; exact h.ck j hj
  · intro j hj hjκ
    rw [f.pcolKept j hjκ, f.pBfp j hjκ, f.normB2 j hjκ, f.pnormB2 j hjκ, f.kappamin j hjκ,
      f.pkappamin j hjκ]
    intro h1
    obtain ⟨a, b⟩ := h.kb j hj hjκ h1
    exact ⟨fun r hr => by rw [f.Bfp j hjκ]; exact a r hr, b⟩
  · intro j hj
    have hjκ : j ≠ κ := by omega
    rw [f.pcolKept j hjκ, f.pkappamin j hjκ, f.VR j hjκ, f.pVR j hjκ]; exact h.lo j hj
  · intro j hj
    have hjκ : j ≠ κ := by omega
    rw [f.pcolKept j hjκ, f.pkappamin j hjκ, f.VR j hjκ, f.pVR j hjκ]; exact h.hi j hj
  · rw [f.descendu, f.pdescendu]; exact h.de
  · rw [f.pdescendu]; exact h.de0

/-- Same integer members, and same member `x` when it is used (Seysen reduction without the fast
integer code). -/
structure Same (S : LatG F M) (s : Lat F) : Prop where
  z : S.z = s.z
  x : ¬ s.seysenFlag < 1 → s.fastLong = false → S.fp.x = s.fp.x

/-- Before `householder_r(κ)`. -/
structure Mid (c : Cont F M W G) (E : Bool → F → F → Prop) (n d κ : Nat) (S : LatG F M) (s : Lat F) : Prop where
  same : Same S s
  oth : Oth c E n d s.str S.fp s.fp κ
  pre : s.fp.colKept κ = true → ColPre c n (nmaxOf s.str κ) κ S.fp s.fp

/-- After `householder_r(κ)`. -/
structure Post (c : Cont F M W G) (E : Bool → F → F → Prop) (n d κ : Nat) (S : LatG F M) (s : Lat F) : Prop where
  same : Same S s
  oth : Oth c E n d s.str S.fp s.fp κ
  post : ColPost c n (nmaxOf s.str κ) κ S.fp s.fp

theorem Mid.hhR (hc : c.Lawful o n E) {d κ : Nat} {S : LatG F M} {s : Lat F} (hκ : 0 < κ)
    (hκd : κ < d) (hg : Geom n d s.str) (h : Mid c E n d κ S s) :
    Post c E n d κ (Gen.hhR c κ S) (s.hhR o κ) := by
  obtain ⟨⟨hz, hx⟩, ho, hp⟩ := h
  obtain ⟨a, f, b, e, x1, x2⟩ := householderR_sim hc s.str s.B hκ (hg.diag κ hκd) (hg.le κ hκd) ho.v
    (ho.bz κ hκd) (ho.ck κ hκd) (ho.de κ hκd) hp
  have hz' : (Gen.hhR c κ S).fp = Gen.householderR c s.str s.B κ S.fp := by
    show Gen.householderR c S.z.str S.z.B κ S.fp = _
    rw [hz]; rfl
  have hidx : Gen.hhRIdx S.z.n S.z.d S.z.str κ S.fp = hhRIdx s.n s.d s.str κ s.fp := by
    rw [hz]
    unfold Gen.hhRIdx hhRIdx
    rw [ho.ck κ hκd]
    by_cases hk : s.fp.colKept κ = true
    · rw [(hp hk).kmin]; rfl
    · have hk' : s.fp.colKept κ = false := by simpa using hk
      rw [hk']; simp only [Bool.not_false, Bool.or_true, Bool.true_or]; rfl
  refine ⟨⟨?_, ?_⟩, ?_, ?_⟩
  · simp only [Gen.hhR, Lat.hhR, Lat.z]
    rw [hidx, hz]; rfl
  · rw [hz']
    intro h1 h2
    rw [x1]; exact (hx h1 h2).trans x2.symm
  · rw [hz']
    exact ho.congr f (fun _ => b) (fun _ r hr => by rw [a.bfp r hr]; exact hc.e_refl _) (fun _ => e)
  · rw [hz']; exact a

/-! ### Size reduction -/

/-- Only `R` (column `κ`) and `x` change. -/
structure RX (c : Cont F M W G) (κ : Nat) (S S' : LatG F M) (s s' : Lat F) (b b' : Bool) : Prop where
  g : ∃ R x, S'.fp = { S.fp with R := R, x := x } ∧ ∀ j, j ≠ κ → ∀ i, c.get R j i = c.get S.fp.R j i
  p : ∃ R x, s'.fp = { s.fp with R := R, x := x } ∧ ∀ j, j ≠ κ → R j = s.fp.R j
  x : S.fp.x = s.fp.x → S'.fp.x = s'.fp.x
  nc : b' = false → b = false ∧ S'.fp.R = S.fp.R ∧ s'.fp.R = s.fp.R
  same : S.z = s.z → S'.z = s'.z
  str : s'.str = s.str

theorem RX.rfl' (κ : Nat) (S : LatG F M) (s : Lat F) (b : Bool) : RX c κ S S s s b b :=
  ⟨⟨_, _, rfl, fun _ _ _ => rfl⟩, ⟨_, _, rfl, fun _ _ => rfl⟩, id, fun h => ⟨h, rfl, rfl⟩, id, rfl⟩

theorem RX.trans' {κ : Nat} {S T V : LatG F M} {s t v : Lat F} {a b d : Bool}
    (h1 : RX c κ S T s t a b) (h2 : RX c κ T V t v b d) : RX c κ S V s v a d := by
  obtain ⟨R1, x1, e1, f1⟩ := h1.g
  obtain ⟨R2, x2, e2, f2⟩ := h2.g
  obtain ⟨R3, x3, e3, f3⟩ := h1.p
  obtain ⟨R4, x4, e4, f4⟩ := h2.p
  refine ⟨⟨R2, x2, by rw [e2, e1], fun j hj i => ?_⟩, ⟨R4, x4, by rw [e4, e3], fun j hj => ?_⟩,
    fun h => h2.x (h1.x h), fun h => ?_, fun h => h2.same (h1.same h), h2.str.trans h1.str⟩
  · rw [f2 j hj i, e1]; exact f1 j hj i
  · rw [f4 j hj, e3]; exact f3 j hj
  · obtain ⟨a1, a2, a3⟩ := h2.nc h
    obtain ⟨b1, b2, b3⟩ := h1.nc a1
    exact ⟨b1, a2.trans b2, a3.trans b3⟩

theorem redR_sim (hc : c.Lawful o n E) {κ i len : Nat} (hi : κ ≠ i) (x : F) {R : M} {r : Mat F}
    (h1 : ∀ k < len, c.get R κ k = r κ k) (h2 : ∀ k < len, c.get R i k = r i k) :
    ∀ k < len, c.get (Gen.redR o c κ i len x R) κ k = redR o κ i len x r κ k := by
  intro k hk
  unfold Gen.redR redR
  simp only [faddcol, fsubcol, fsubmulcol]
  split
  · split
    · rw [hc.subcol_in _ _ _ _ _ hi hk, setCol_same, if_pos hk, h1 k hk, h2 k hk]
    · split
      · rw [hc.addcol_in _ _ _ _ _ hi hk, setCol_same, if_pos hk, h1 k hk, h2 k hk]
      · rw [hc.submulcol_in _ _ _ _ _ _ hi hk, setCol_same, if_pos hk, h1 k hk, h2 k hk]
  · rw [hc.submulcol_in _ _ _ _ _ _ hi hk, setCol_same, if_pos hk, h1 k hk, h2 k hk]

theorem redR_col (hc : c.Lawful o n E) {κ i len : Nat} (x : F) (R : M) {j : Nat} (hj : j ≠ κ)
    (k : Nat) : c.get (Gen.redR o c κ i len x R) j k = c.get R j k := by
  unfold Gen.redR
  simp only []
  split
  · split
    · exact hc.subcol_col _ _ _ _ _ _ hj
    · split
      · exact hc.addcol_col _ _ _ _ _ _ hj
      · exact hc.submulcol_col _ _ _ _ _ _ _ hj
  · exact hc.submulcol_col _ _ _ _ _ _ _ hj

theorem redR_pcol {κ i len : Nat} (x : F) (R : Mat F) {j : Nat} (hj : j ≠ κ) :
    redR o κ i len x R j = R j := by
  unfold redR
  simp only [faddcol, fsubcol, fsubmulcol]
  split
  · split
    · exact setCol_ne _ _ hj
    · split
      · exact setCol_ne _ _ hj
      · exact setCol_ne _ _ hj
  · exact setCol_ne _ _ hj

theorem sizeUpdateStep_sim (hc : c.Lawful o n E) {κ i : Nat} (hi : i < κ) (S : LatG F M) (s : Lat F)
    (b : Bool) (hz : S.z = s.z) (h1 : ∀ k ≤ i, c.get S.fp.R κ k = s.fp.R κ k)
    (h2 : ∀ k ≤ i, c.get S.fp.R i k = s.fp.R i k) :
    (Gen.sizeUpdateStep o c κ i (S, b)).2 = (sizeUpdateStep o κ i (s, b)).2 ∧
    RX c κ S (Gen.sizeUpdateStep o c κ i (S, b)).1 s (sizeUpdateStep o κ i (s, b)).1 b
      (sizeUpdateStep o κ i (s, b)).2 ∧
    ∀ k ≤ i, c.get (Gen.sizeUpdateStep o c κ i (S, b)).1.fp.R κ k =
      (sizeUpdateStep o κ i (s, b)).1.fp.R κ k := by
  unfold Gen.sizeUpdateStep sizeUpdateStep
  simp only []
  rw [h1 i (le_refl _), h2 i (le_refl _)]
  split
  · exact ⟨rfl, ⟨⟨_, _, rfl, fun _ _ _ => rfl⟩, ⟨_, _, rfl, fun _ _ => rfl⟩, fun _ => rfl,
      fun h => ⟨h, rfl, rfl⟩, fun h => h, rfl⟩, h1⟩
  · refine ⟨rfl, ⟨⟨_, _, rfl, fun j hj k => redR_col hc _ _ hj k⟩,
      ⟨_, _, rfl, fun j hj => redR_pcol _ _ hj⟩, fun _ => rfl, fun h => by simp at h, fun _ => ?_, rfl⟩, ?_⟩
    · simp only [Lat.z, hz]
    · intro k hk
      exact redR_sim hc (by omega) _ (fun k hk => h1 k (by omega)) (fun k hk => h2 k (by omega)) k
        (by omega)

theorem RX.col {κ : Nat} {S S' : LatG F M} {s s' : Lat F} {b b' : Bool}
    (h : RX c κ S S' s s' b b') {i : Nat} (hi : i ≠ κ) {k : Nat}
    (h2 : c.get S.fp.R i k = s.fp.R i k) : c.get S'.fp.R i k = s'.fp.R i k := by
  obtain ⟨R1, x1, e1, f1⟩ := h.g
  obtain ⟨R3, x3, e3, f3⟩ := h.p
  rw [e1, e3]
  show c.get R1 i k = R3 i k
  rw [f1 i hi, f3 i hi]; exact h2

theorem sizeUpdateLoop_sim (hc : c.Lawful o n E) {κ : Nat} (m : Nat) (hm : m ≤ κ) :
    ∀ (S : LatG F M) (s : Lat F) (b : Bool), S.z = s.z →
    (∀ k < m, c.get S.fp.R κ k = s.fp.R κ k) →
    (∀ i < κ, ∀ k ≤ i, c.get S.fp.R i k = s.fp.R i k) →
    (Gen.sizeUpdateLoop o c κ m (S, b)).2 = (sizeUpdateLoop o κ m (s, b)).2 ∧
    RX c κ S (Gen.sizeUpdateLoop o c κ m (S, b)).1 s (sizeUpdateLoop o κ m (s, b)).1 b
      (sizeUpdateLoop o κ m (s, b)).2 := by
  induction m with
  | zero => intro S s b _ _ _; exact ⟨rfl, .rfl' κ S s b⟩
  | succ m ih =>
    intro S s b hz h1 h2
    obtain ⟨a1, a2, a3⟩ := sizeUpdateStep_sim hc (i := m) (by omega) S s b hz
      (fun k hk => h1 k (by omega)) (h2 m (by omega))
    simp only [Gen.sizeUpdateLoop, sizeUpdateLoop]
    obtain ⟨b1, b2⟩ := ih (by omega) (Gen.sizeUpdateStep o c κ m (S, b)).1
      (sizeUpdateStep o κ m (s, b)).1 (sizeUpdateStep o κ m (s, b)).2 (a2.same hz)
      (fun k hk => a3 k (by omega)) (fun i hi k hk => a2.col (by omega) (h2 i hi k hk))
    have e : (Gen.sizeUpdateStep o c κ m (S, b)) =
      ((Gen.sizeUpdateStep o c κ m (S, b)).1, (sizeUpdateStep o κ m (s, b)).2) := by rw [← a1]
    rw [e]
    exact ⟨b1, a2.trans' b2⟩

theorem sizeUpdateRStep_sim (hc : c.Lawful o n E) {κ i : Nat} (hi : i < κ) (S : LatG F M) (s : Lat F)
    (vx : Nat → F) (b : Bool) (hz : S.z = s.z) (h1 : ∀ k ≤ i, c.get S.fp.R κ k = s.fp.R κ k)
    (h2 : ∀ k ≤ i, c.get S.fp.R i k = s.fp.R i k) :
    (Gen.sizeUpdateRStep o c κ i (S, vx, b)).2 = (sizeUpdateRStep o κ i (s, vx, b)).2 ∧
    RX c κ S (Gen.sizeUpdateRStep o c κ i (S, vx, b)).1 s (sizeUpdateRStep o κ i (s, vx, b)).1 b
      (sizeUpdateRStep o κ i (s, vx, b)).2.2 ∧
    ∀ k ≤ i, c.get (Gen.sizeUpdateRStep o c κ i (S, vx, b)).1.fp.R κ k =
      (sizeUpdateRStep o κ i (s, vx, b)).1.fp.R κ k := by
  unfold Gen.sizeUpdateRStep sizeUpdateRStep
  simp only []
  rw [h1 i (le_refl _), h2 i (le_refl _)]
  split
  · exact ⟨rfl, ⟨⟨_, _, rfl, fun _ _ _ => rfl⟩, ⟨_, _, rfl, fun _ _ => rfl⟩, fun _ => rfl,
      fun h => ⟨h, rfl, rfl⟩, fun h => h, rfl⟩, h1⟩
  · refine ⟨rfl, ⟨⟨_, _, rfl, fun j hj k => redR_col hc _ _ hj k⟩,
      ⟨_, _, rfl, fun j hj => redR_pcol _ _ hj⟩, fun _ => rfl, fun h => by simp at h, fun _ => ?_, rfl⟩, ?_⟩
    · simp only [Lat.z, hz]
    · intro k hk
      exact redR_sim hc (by omega) _ (fun k hk => h1 k (by omega)) (fun k hk => h2 k (by omega)) k
        (by omega)

theorem sizeUpdateRLoop_sim (hc : c.Lawful o n E) {κ : Nat} (m : Nat) (hm : m ≤ κ) :
    ∀ (S : LatG F M) (s : Lat F) (vx : Nat → F) (b : Bool), S.z = s.z →
    (∀ k < m, c.get S.fp.R κ k = s.fp.R κ k) →
    (∀ i < κ, ∀ k ≤ i, c.get S.fp.R i k = s.fp.R i k) →
    (Gen.sizeUpdateRLoop o c κ m (S, vx, b)).2 = (sizeUpdateRLoop o κ m (s, vx, b)).2 ∧
    RX c κ S (Gen.sizeUpdateRLoop o c κ m (S, vx, b)).1 s (sizeUpdateRLoop o κ m (s, vx, b)).1 b
      (sizeUpdateRLoop o κ m (s, vx, b)).2.2 := by
  induction m with
  | zero => intro S s vx b _ _ _; exact ⟨rfl, .rfl' κ S s b⟩
  | succ m ih =>
    intro S s vx b hz h1 h2
    obtain ⟨a1, a2, a3⟩ := sizeUpdateRStep_sim hc (i := m) (by omega) S s vx b hz
      (fun k hk => h1 k (by omega)) (h2 m (by omega))
    simp only [Gen.sizeUpdateRLoop, sizeUpdateRLoop]
    obtain ⟨b1, b2⟩ := ih (by omega) (Gen.sizeUpdateRStep o c κ m (S, vx, b)).1
      (sizeUpdateRStep o κ m (s, vx, b)).1 (sizeUpdateRStep o κ m (s, vx, b)).2.1
      (sizeUpdateRStep o κ m (s, vx, b)).2.2 (a2.same hz)
      (fun k hk => a3 k (by omega)) (fun i hi k hk => a2.col (by omega) (h2 i hi k hk))
    have e : (Gen.sizeUpdateRStep o c κ m (S, vx, b)) =
      ((Gen.sizeUpdateRStep o c κ m (S, vx, b)).1, (sizeUpdateRStep o κ m (s, vx, b)).2) := by rw [← a1]
    rw [e]
    exact ⟨b1, a2.trans' b2⟩

theorem hsizePass_sim (hc : c.Lawful o n E) {κ m : Nat} (hm : m ≤ κ) (S : LatG F M) (s : Lat F)
    (hz : S.z = s.z) (h1 : ∀ k < m, c.get S.fp.R κ k = s.fp.R κ k)
    (h2 : ∀ i < κ, ∀ k ≤ i, c.get S.fp.R i k = s.fp.R i k) :
    (Gen.hsizePass o c κ m S).2 = (hsizePass o κ m s).2 ∧
    RX c κ S (Gen.hsizePass o c κ m S).1 s (hsizePass o κ m s).1 false (hsizePass o κ m s).2 := by
  unfold Gen.hsizePass hsizePass
  have hcond : (S.z.numS = 1 ∨ (κ : Int) - 1 < S.z.parThr) = (s.numS = 1 ∨ (κ : Int) - 1 < s.parThr) := by
    rw [hz]; rfl
  simp only [hcond]
  split
  · exact sizeUpdateLoop_sim hc m hm S s false hz h1 h2
  · obtain ⟨a1, a2⟩ := sizeUpdateRLoop_sim hc m hm S s (fun _ => o.zero) false hz h1 h2
    refine ⟨by rw [a1], a2.g, a2.p, a2.x, a2.nc, fun _ => ?_, a2.str⟩
    have hz' := a2.same hz
    simp only [Lat.z] at hz' ⊢
    rw [hz', a1]

theorem sizeAnomaly_sim {d κ : Nat} {S : LatG F M} {s : Lat F} (hκ : κ ≤ nmaxOf s.str κ)
    (h : Post c E n d κ S s) : Gen.sizeAnomaly o c κ S.fp = sizeAnomaly o κ s.fp := by
  unfold Gen.sizeAnomaly sizeAnomaly
  simp only []
  rw [h.post.nrm]
  rw [Bool.eq_iff_iff, List.any_eq_true, List.any_eq_true]
  constructor
  · rintro ⟨i, hi, h1⟩
    have := List.mem_range.mp hi
    refine ⟨i, hi, ?_⟩
    rw [h.oth.r i this i (le_refl _), h.post.r i (by omega)] at h1; exact h1
  · rintro ⟨i, hi, h1⟩
    have := List.mem_range.mp hi
    refine ⟨i, hi, ?_⟩
    rw [h.oth.r i this i (le_refl _), h.post.r i (by omega)]; exact h1

/-- Related results. -/
def ORel (R : LatG F M → Lat F → Prop) : Option (Int × LatG F M) → Option (Int × Lat F) → Prop
  | none, none => True
  | some (a, S), some (b, s) => a = b ∧ R S s
  | _, _ => False

/-- The cached column is dropped after an update of column `κ`. -/
theorem Post.drop {d κ : Nat} {S S' : LatG F M} {s s' : Lat F} {b : Bool} (h : Post c E n d κ S s)
    (hr : RX c κ S S' s s' false b) (hκd : κ < d) (hcfg : s'.seysenFlag = s.seysenFlag)
    (hfl : s'.fastLong = s.fastLong) :
    Mid c E n d κ { S' with fp := { S'.fp with colKept := setAt S'.fp.colKept κ false } }
      { s' with fp := { s'.fp with colKept := setAt s'.fp.colKept κ false } } := by
  obtain ⟨R1, x1, e1, f1⟩ := hr.g
  obtain ⟨R3, x3, e3, f3⟩ := hr.p
  have hx := hr.x
  rw [e1, e3] at hx ⊢
  refine ⟨⟨hr.same h.same.z, ?_⟩, ?_, ?_⟩
  · intro h1 h2
    exact hx (h.same.x (by rw [← hcfg]; exact h1) (by rw [← hfl]; exact h2))
  · show Oth c E n d s'.str _ _ κ
    rw [hr.str]
    refine h.oth.congr ⟨rfl, rfl, f1, f3, fun _ _ _ => rfl, fun _ _ => rfl, fun _ _ => rfl,
      fun _ _ => rfl, ?_, ?_, fun _ _ => rfl, fun _ _ => rfl, fun _ _ => rfl, fun _ _ => rfl, rfl,
      rfl⟩ ?_ (fun _ => h.oth.be κ hκd) ?_
    · intro j hj; exact setAt_ne _ _ hj
    · intro j hj; exact setAt_ne _ _ hj
    · intro _; exact h.oth.bz κ hκd
    · intro _; simp only [setAt_same]
  · intro hk
    simp only [setAt_same] at hk
    simp at hk

/-- Nothing was updated. -/
theorem Post.keep {d κ : Nat} {S S' : LatG F M} {s s' : Lat F} {b : Bool} (h : Post c E n d κ S s)
    (hr : RX c κ S S' s s' false b) (hb : b = false) (hcfg : s'.seysenFlag = s.seysenFlag)
    (hfl : s'.fastLong = s.fastLong) : Post c E n d κ S' s' := by
  obtain ⟨R1, x1, e1, f1⟩ := hr.g
  obtain ⟨R3, x3, e3, f3⟩ := hr.p
  have hx := hr.x
  obtain ⟨_, n1, n2⟩ := hr.nc hb
  rw [e1] at n1
  rw [e3] at n2
  simp only [] at n1 n2
  subst n1 n2
  refine ⟨⟨hr.same h.same.z, ?_⟩, ?_, ?_⟩
  · intro h1 h2
    exact hx (h.same.x (by rw [← hcfg]; exact h1) (by rw [← hfl]; exact h2))
  · rw [hr.str, e1, e3]
    exact ⟨h.oth.v, h.oth.r, h.oth.bz, h.oth.be, h.oth.ck, h.oth.kb, h.oth.lo, h.oth.hi, h.oth.de, h.oth.de0⟩
  · rw [hr.str, e1, e3]
    exact ⟨h.post.nP, h.post.np, h.post.kept, h.post.bfp, h.post.nrm, h.post.kmin, h.post.kminκ,
      ⟨h.post.col.rk, h.post.col.vr⟩, h.post.r⟩

end Sim
end HPLLL
