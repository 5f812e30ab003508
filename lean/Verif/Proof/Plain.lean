import Verif.Proof.ContHlll
import Verif.Proof.Fuel
/-! `matrix<FP_NR<FT>>` as an argument of the template: two runs of the plain model. -/

namespace HPLLL

variable {F : Type}

/-- `matrix<FP_NR<FT>>` (mat.h:94-518) as a matrix class. -/
def plain (o : FPOps F) : Cont F (Mat F) (Nat → F) F where
  get m j i := m j i
  getcol m j i := getcol m j i
  getRaw m j i := m j i
  set m j i x := setEntry m i j x
  setcolZ m j b l := fsetcolZ o m j b l
  setcolW m j w l := fsetcol m j w l
  setcolV m j v l := fsetcol m j v l
  fmasub m j k w z a l := fmasub o m j k w z a l
  div m j k w a l := fdivcol o m j k w a l
  colswap m j k := colswap m j k
  addcol m j k l := faddcol o m j k l
  subcol m j k l := fsubcol o m j k l
  submulcol m j k a l := fsubmulcol o m j k a l
  normSq w l _ := fpNormSq o w l
  norm w l _ := fpNorm o w l
  scalarprod v w l _ := scalarprod o v w l

/-- It is lawful, for every arithmetic. -/
def plain_lawful (o : FPOps F) (n : Nat) (E : Bool → F → F → Prop)
    (e_eq : ∀ a b, E true a b → a = b) (e_weak : ∀ a b, E true a b → E false a b)
    (e_refl : ∀ a, E false a a) : (plain o).Lawful o n E where
  e_eq := e_eq
  e_weak := e_weak
  e_refl := e_refl
  wv := id
  gv := id
  getcol := fun _ _ _ _ => rfl
  getRaw := fun _ _ _ => rfl
  set_same := fun m j i x _ => by simp [plain, setEntry, setCol, setAt]
  set_row := fun m j i x r _ h => by simp [plain, setEntry, setCol, setAt, h]
  set_col := fun m j i x j' r h => by simp [plain, setEntry, setCol, h]
  setcolZ_in := fun m j b l i hi => by simp [plain, fsetcolZ, setCol, hi]
  setcolZ_out := fun m j b l i x hi h => by
    have : ¬ i < l := by omega
    simpa [plain, fsetcolZ, setCol, this] using h
  setcolZ_col := fun m j b l j' r h => by simp [plain, fsetcolZ, setCol, h]
  setcolW_in := fun m j w l i hi => by simp [plain, fsetcol, setCol, hi]
  setcolW_col := fun m j w l j' r h => by simp [plain, fsetcol, setCol, h]
  setcolV_in := fun m j w l i hi => by simp [plain, fsetcol, setCol, hi]
  setcolV_col := fun m j w l j' r h => by simp [plain, fsetcol, setCol, h]
  fmasub_in := fun m j k w z a l i h hi => by simp [plain, fmasub, setCol, h, hi]
  fmasub_col := fun m j k w z a l j' r h => by simp [plain, fmasub, setCol, h]
  div_in := fun m j k w a l i h hi => by simp [plain, fdivcol, setCol, h, hi]
  div_col := fun m j k w a l j' r h => by simp [plain, fdivcol, setCol, h]
  colswap := fun m j k j' r => by
    simp only [plain, HPLLL.colswap]
    split
    · rfl
    · split <;> rfl
  addcol_in := fun m j k l i _ hi => by simp [plain, faddcol, setCol, hi]
  addcol_col := fun m j k l j' r h => by simp [plain, faddcol, setCol, h]
  subcol_in := fun m j k l i _ hi => by simp [plain, fsubcol, setCol, hi]
  subcol_col := fun m j k l j' r h => by simp [plain, fsubcol, setCol, h]
  submulcol_in := fun m j k a l i _ hi => by simp [plain, fsubmulcol, setCol, hi]
  submulcol_col := fun m j k a l j' r h => by simp [plain, fsubmulcol, setCol, h]
  normSq := fun _ _ _ _ => rfl
  norm := fun _ _ _ _ => rfl
  scalarprod := fun _ _ _ _ _ => rfl

/-- The same object seen as an instance of the template. -/
def Lat.gen (s : Lat F) : LatG F (Mat F) :=
  { z := s.z
    fp := { R := s.fp.R, Rkept := s.fp.Rkept, V := s.fp.V, Bfp := s.fp.Bfp, VR := s.fp.VR
            normB2 := s.fp.normB2, x := s.fp.x, nmaxkappa := s.fp.nmaxkappa
            colKept := s.fp.colKept, kappamin := s.fp.kappamin, descendu := s.fp.descendu } }

/-- Two objects which differ only in floating point storage that `hlll` does not use. -/
structure Agree (E : Bool → F → F → Prop) (n d : Nat) (s t : Lat F) : Prop where
  z : s.z = t.z
  x : ¬ t.seysenFlag < 1 → t.fastLong = false → s.fp.x = t.fp.x
  bz : ∀ j < d, ∀ r, nmaxOf t.str j ≤ r → r < n → E true (s.fp.Bfp j r) (t.fp.Bfp j r)
  be : ∀ j < d, ∀ r < n, E false (s.fp.Bfp j r) (t.fp.Bfp j r)

/-- Same outcome and related objects. -/
def OAgree (R : Lat F → Lat F → Prop) : Option (Int × Lat F) → Option (Int × Lat F) → Prop
  | none, none => True
  | some (a, s), some (b, t) => a = b ∧ R s t
  | _, _ => False

theorem oagree_of {M : Type} {R1 R2 : LatG F M → Lat F → Prop} {R : Lat F → Lat F → Prop}
    (hR : ∀ S s t, R1 S s → R2 S t → R s t) {X : Option (Int × LatG F M)}
    {x y : Option (Int × Lat F)} (h1 : Sim.ORel R1 X x) (h2 : Sim.ORel R2 X y) : OAgree R x y := by
  cases X with
  | none => cases x with
    | none => cases y with
      | none => trivial
      | some y => exact h2.elim
    | some x => exact h1.elim
  | some X => cases x with
    | none => exact h1.elim
    | some x => cases y with
      | none => exact h2.elim
      | some y => exact ⟨h1.1.symm.trans h2.1, hR _ _ _ h1.2 h2.2⟩

theorem agree_of (o : FPOps F) {E : Bool → F → F → Prop} {n d : Nat} (S : LatG F (Mat F))
    (s t : Lat F) (r1 : Sim.Rel (plain o) (fun _ a b => a = b) n d S s)
    (r2 : Sim.Rel (plain o) E n d S t) : Agree E n d s t := by
  have hz : s.z = t.z := r1.same.z.symm.trans r2.same.z
  refine ⟨hz, fun h1 h2 => ?_, ?_, ?_⟩
  · have hf : s.seysenFlag = t.seysenFlag := congrArg ZPart.seysenFlag hz
    have hl : s.fastLong = t.fastLong := congrArg ZPart.fastLong hz
    rw [← r1.same.x (by rw [hf]; exact h1) (by rw [hl]; exact h2)]
    exact r2.same.x h1 h2
  · intro j hj r hn hr
    have hB : (plain o).get S.fp.Bfp j r = s.fp.Bfp j r := r1.be j hj r hr
    rw [← hB]; exact r2.bz j hj r hn hr
  · intro j hj r hr
    have hB : (plain o).get S.fp.Bfp j r = s.fp.Bfp j r := r1.be j hj r hr
    rw [← hB]; exact r2.be j hj r hr

/-- `hlll` on two such objects. -/
theorem Agree.hlll (o : FPOps F) {E : Bool → F → F → Prop}
    (e_eq : ∀ a b, E true a b → a = b) (e_weak : ∀ a b, E true a b → E false a b)
    (e_refl : ∀ a, E false a a) {n d : Nat} {A : Mat Int} {track : Prop}
    (hA : Spec.FullColumnRank (Spec.toMatrix n d A)) (fuel : Nat) (δ : F) (v : Bool) {s t : Lat F}
    (hkm : t.kappaMax ≤ d) (hI : LInv n d A track t) (hIs : LInv n d A track s)
    (h : Agree E n d s t) :
    OAgree (Agree E n d) (HPLLL.hlll o fuel δ v s) (HPLLL.hlll o fuel δ v t) := by
  have hks : s.kappaMax ≤ d := by
    have : s.kappaMax = t.kappaMax := congrArg ZPart.kappaMax h.z
    rw [this]; exact hkm
  have h1 := Sim.hlll_sim (plain_lawful o n (fun _ a b => a = b) (fun _ _ h => h) (fun _ _ h => h)
    (fun _ => rfl)) hA fuel δ v s.gen s hks hIs
    ⟨⟨rfl, fun _ _ => rfl⟩, fun _ _ _ _ _ => rfl, fun _ _ _ _ => rfl⟩
  have h2 := Sim.hlll_sim (plain_lawful o n E e_eq e_weak e_refl) hA fuel δ v s.gen t hkm hI
    ⟨⟨h.z, h.x⟩, h.bz, h.be⟩
  exact oagree_of (agree_of o) h1 h2

end HPLLL
