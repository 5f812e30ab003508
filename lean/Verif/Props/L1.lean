import Verif.Proof.L1
/-!
# Recursive L1 reduction (C42), `put` (C52)
-/

namespace HPLLL.Props
open HPLLL Spec Matrix Finset

variable {F : Type}

/-- **C42.** When `l1` returns, the matrix is the input times a unimodular matrix: a basis of the same lattice, at
every recursion depth, for every truncation and every floating point behaviour.  (HLLL, on a basis with independent
columns; or FPLLL with an external reducer that returns unimodular matrices.) -/
theorem C42_l1 (e : L1Env F) (junk : F) (depth n d : ℕ) (hd : 0 < d) (A B : Mat Int) (leafbits lllmethod : ℤ)
    (hA : FullColumnRank (toMatrix n d A))
    (hm : lllmethod = methodHLLL ∨ (lllmethod = methodFPLLL ∧ ∀ T, Unimodular (toMatrix d d (e.fplll T))))
    (h : l1 e junk depth n d A leafbits lllmethod = some B) :
    (∃ U : Matrix (Fin d) (Fin d) ℤ, Unimodular U ∧ toMatrix n d B = toMatrix n d A * U) ∧
    lattice (toMatrix n d B) = lattice (toMatrix n d A) := by
  unfold l1 at h
  split at h
  · simp at h
  rename_i U L hr
  simp only [Option.some.injEq] at h
  subst h
  have h0 := newLattice_hist e.o junk n d A true 0 true 0
  obtain ⟨-, hU⟩ := l1Rec_inv hd hm depth _ A _ _ 0 U L ⟨h0.uinv rfl hA, h0.km⟩ hr
  rw [(C46_products n d d hd A U fun _ _ => 0).1]
  exact ⟨⟨_, unimodular_of_isUnit hU, rfl⟩, lattice_mul_unit _ _ hU⟩

/-- **C42, recursion.** For `leafbits < 0` the recursion never ends. -/
theorem C42_never_returns (e : L1Env F) (junk : F) (depth n d : ℕ) (A : Mat Int) (leafbits lllmethod : ℤ)
    (hl : leafbits < 0) : l1 e junk depth n d A leafbits lllmethod = none := by
  have key : ∀ (depth : ℕ) (U B : Mat Int) (L : Lat F) (l level : ℤ), 0 ≤ l →
      l1Rec e n d leafbits lllmethod depth U B L l level = none := by
    intro depth
    induction depth with
    | zero => intros; rfl
    | succ depth ih =>
      intro U B L l level h
      unfold l1Rec
      rw [if_neg (by omega)]
      simp only []
      rw [ih _ _ _ _ _ (Int.tdiv_nonneg h (by norm_num))]
  unfold l1
  rw [key _ _ _ _ _ _ (by positivity)]

/-- The object of the recursion: built on `A`, then used by `put` and `hlll`. -/
inductive L1Object (e : L1Env F) (junk : F) (n d : ℕ) (A : Mat Int) : Lat F → Prop
  | new : L1Object e junk n d A (newLattice e.o junk n d A true 0 true 0)
  | reduce {s s' : Lat F} {st : ℤ} (T : Mat Int) (f : ℕ) : L1Object e junk n d A s →
      hlll e.o f e.d99 true (s.put T) = some (st, s') → L1Object e junk n d A s'

/-- **C42, termination.** For `leafbits ≥ 0` the recursion returns if the reductions at the leaves do; its depth is at
most one more than the bit size of the input. -/
theorem C42_returns (e : L1Env F) (junk : F) (n d : ℕ) (A : Mat Int) (leafbits lllmethod : ℤ) (hl : 0 ≤ leafbits)
    (hred : lllmethod = methodHLLL → ∀ T L, L1Object e junk n d A L →
      ∃ f, (hlll e.o f e.d99 true (L.put T)).isSome = true) :
    ∃ f0, ∀ f ≥ f0, (l1 { e with fuel := f } junk (maxbitsize n d A + 1) n d A leafbits lllmethod).isSome = true := by
  have key : ∀ (depth : ℕ) (U B : Mat Int) (L : Lat F) (l level : ℤ), L1Object e junk n d A L → l < depth →
      0 < depth → ∃ f0 U' L', L1Object e junk n d A L' ∧ ∀ f ≥ f0,
        l1Rec { e with fuel := f } n d leafbits lllmethod depth U B L l level = some (U', L') := by
    intro depth
    induction depth with
    | zero => intro U B L l level _ _ h; omega
    | succ depth ih =>
      intro U B L l level hO h1 _
      by_cases hleaf : l ≤ leafbits
      · by_cases hm : lllmethod = methodHLLL
        · obtain ⟨f0, hf0⟩ := hred hm (trunc e.ex B 1 d n 0 0 L.B) L hO
          obtain ⟨⟨st, L'⟩, hL'⟩ := Option.isSome_iff_exists.1 hf0
          refine ⟨f0, L'.getU.M, L', .reduce _ f0 hO hL', fun f hf => ?_⟩
          obtain ⟨k, rfl⟩ : ∃ k, f = f0 + k := ⟨f - f0, by omega⟩
          unfold l1Rec
          simp only [hleaf, hm, if_true, hlll_mono e.o f0 k e.d99 true _ _ hL']
        · by_cases hm' : lllmethod = methodFPLLL
          · refine ⟨0, transposeTo d d (e.fplll (transposeTo n d B fun _ _ => 0)) U, L, hO, fun f _ => ?_⟩
            unfold l1Rec
            simp only [hleaf, if_true, if_neg hm, if_pos hm']
          · refine ⟨0, U, L, hO, fun f _ => ?_⟩
            unfold l1Rec
            simp only [hleaf, if_true, if_neg hm, if_neg hm']
      · have hl2 : l.tdiv 2 < depth ∧ 0 < depth := by
          have : l.tdiv 2 = l / 2 := Int.tdiv_eq_ediv_of_nonneg (by omega)
          push_cast at h1
          omega
        obtain ⟨f1, U1, L1, hO1, hf1⟩ := ih U (trunc e.ex B 1 d n (l.tdiv 2 + d + 2 * (level + 1)) (l.tdiv 2)
          fun _ _ => 0) L (l.tdiv 2) (level + 1) hO hl2.1 hl2.2
        obtain ⟨f2, U2, L2, hO2, hf2⟩ := ih (fun _ _ => 0) (trunc e.ex (matprod n d d B U1
          (trunc e.ex B 1 d n (l.tdiv 2 + d + 2 * (level + 1)) (l.tdiv 2) fun _ _ => 0)) 1 d n
          (l.tdiv 2 + d + 2 * (level + 1)) 0 fun _ _ => 0) L1 (l.tdiv 2) (level + 1) hO1 hl2.1 hl2.2
        refine ⟨max f1 f2, (matprodRows d d U2 (U1, fun _ _ => 0)).1, L2, hO2, fun f hf => ?_⟩
        unfold l1Rec
        simp only [hleaf, if_false, hf1 f (le_trans (le_max_left _ _) hf), hf2 f (le_trans (le_max_right _ _) hf)]
  obtain ⟨f0, U', L', -, hf⟩ := key (maxbitsize n d A + 1) (fun _ _ => 0) A _ (maxbitsize n d A) 0 .new
    (by push_cast; omega) (by omega)
  refine ⟨f0, fun f hff => ?_⟩
  have hf' : l1Rec { e with fuel := f } n d leafbits lllmethod (maxbitsize n d A + 1) (fun _ _ => 0) A
      (newLattice e.o junk n d A true 0 true 0) (maxbitsize n d A) 0 = some (U', L') := hf f hff
  unfold l1
  simp only [hf', Option.isSome_some]

/-! ## `put` -/

/-- Objects of size `n × d` with a transformation, after any returned calls, including `put`.  The matrices given to the
constructor and to `assign` have independent columns; those given to `put` are arbitrary. -/
inductive PutHistory (n d : ℕ) : Lat F → Prop
  | new (o : FPOps F) (junk : F) (A : Mat Int) (method : ℤ) (longFlag : Bool) (vd : ℤ)
      (hA : FullColumnRank (toMatrix n d A)) : PutHistory n d (newLattice o junk n d A true method longFlag vd)
  | hlll {s s' : Lat F} (o : FPOps F) (δ : F) (v : Bool) (fuel : ℕ) (st : ℤ) : PutHistory n d s →
      HPLLL.hlll o fuel δ v s = some (st, s') → PutHistory n d s'
  | assign {s : Lat F} (A : Mat Int) (hA : FullColumnRank (toMatrix n d A)) : PutHistory n d s →
      PutHistory n d (s.assign A)
  | put {s : Lat F} (T : Mat Int) : PutHistory n d s → PutHistory n d (s.put T)
  | setNumS {s : Lat F} (S : ℕ) (thr : ℤ) : PutHistory n d s → PutHistory n d (s.setNumS S thr)
  | setprec {s : Lat F} (o : FPOps F) (junk : F) : PutHistory n d s → PutHistory n d (s.setprec o junk)
  | setNblovMax {s : Lat F} (nb : ℕ) : PutHistory n d s → PutHistory n d (s.setNblovMax nb)

theorem PutHistory.inv {n d : ℕ} {s : Lat F} (h : PutHistory n d s) : L1Inv d s ∧ s.n = n := by
  induction h with
  | new o junk A method longFlag vd hA =>
    have h0 := newLattice_hist o junk n d A true method longFlag vd
    exact ⟨⟨h0.uinv rfl hA, h0.km⟩, rfl⟩
  | hlll o δ v fuel st _ hl ih =>
    rename_i s s' _
    refine ⟨⟨UInv.hlll o δ fuel v s s' st (le_of_eq ih.1.km) ih.1.u hl,
      hlll_kappaMax o δ fuel v s s' st ih.1.km hl⟩, ?_⟩
    refine hlll_induct o (fun t => t.n = n) d (fun κ _ s s' h1 h2 => ?_) (fun κ _ _ s h => h)
      (fun s k h => h) (fun s p b h => h) (fun s k h => h) δ fuel v s s' st (le_of_eq ih.1.km) ih.2 hl
    rw [h1.frame.n]; exact h2
  | assign A hA _ ih =>
    refine ⟨⟨UInv.of_basis (n := n) A _ ih.1.u.hd ?_ ih.1.u.tr ?_ hA, ih.1.km⟩, ih.2⟩
    · simp only [Lat.assign]; rw [ih.2]
    · simp only [Lat.assign, ih.1.u.tr, if_true]
  | put T _ ih => exact ⟨⟨ih.1.u.put T, ih.1.km⟩, ih.2⟩
  | setNumS S thr _ ih => exact ⟨⟨ih.1.u.congr rfl rfl rfl rfl, ih.1.km⟩, ih.2⟩
  | setprec o junk _ ih => exact ⟨⟨ih.1.u.congr rfl rfl rfl rfl, ih.1.km⟩, ih.2⟩
  | setNblovMax nb _ ih => exact ⟨⟨ih.1.u.congr rfl rfl rfl rfl, ih.1.km⟩, ih.2⟩

theorem PutHistory.safe {n d : ℕ} {s : Lat F} (h : PutHistory n d s) :
    Rng n d s ∧ (d ≤ n → s.ub = false) := by
  induction h with
  | new o junk A method longFlag vd hA =>
    have h0 := newLattice_hist o junk n d A true method longFlag vd
    exact ⟨h0.inv.rng, h0.ub⟩
  | hlll o δ v fuel st hh hl ih =>
    have km := le_of_eq hh.inv.1.km
    exact ⟨hlll_rng o fuel δ v _ _ st ih.1 km hl,
      fun hdn => hlll_safe_rng o hdn fuel δ v _ _ st ih.1 km (ih.2 hdn) hl⟩
  | assign A hA _ ih =>
    refine ⟨⟨ih.1.hn, ih.1.hd, fun j hj => ?_⟩, ih.2⟩
    simp only [Lat.assign]
    rw [ih.1.hn]
    exact matrixStructure_lt n A j
  | put T _ ih => exact ⟨⟨ih.1.hn, ih.1.hd, ih.1.lt⟩, ih.2⟩
  | setNumS S thr _ ih => exact ⟨⟨ih.1.hn, ih.1.hd, ih.1.lt⟩, ih.2⟩
  | setprec o junk _ ih => exact ⟨⟨ih.1.hn, ih.1.hd, ih.1.lt⟩, ih.2⟩
  | setNblovMax nb _ ih => exact ⟨⟨ih.1.hn, ih.1.hd, ih.1.lt⟩, ih.2⟩

/-- **C18, histories with `put`.** No index was out of range, whatever the matrices given to `put`. -/
theorem C18_put_safety (n d : ℕ) (hdn : d ≤ n) (s : Lat F) (h : PutHistory n d s) : s.ub = false :=
  h.safe.2 hdn

/-- **C52.** In every history of calls, including `put` of arbitrary matrices, the transformation read by `getU` is
unimodular. -/
theorem C52_put_unimodular (n d : ℕ) (s : Lat F) (h : PutHistory n d s) :
    Unimodular (toMatrix d d s.getU.M) := by
  have := h.inv.1.u
  simp only [Lat.getU, this.tr, if_true]
  exact unimodular_of_isUnit this.uni

/-- **C52, when the lattice is preserved.** `put(T)` keeps the profile of the previous basis `A`.  If the columns of `T` do not
reach below that profile, `put(T)` then `hlll` behaves as on a fresh object on `T`: the basis is `T` times the
transformation, and generates the lattice of `T`. -/
theorem C52_put_lattice (o : FPOps F) (junk : F) (n d : ℕ) (A T : Mat Int) (method : ℤ) (longFlag : Bool) (vd : ℤ)
    (hA : FullColumnRank (toMatrix n d A))
    (hT : ∀ j < d, ∀ r < n, matrixStructure n A j < r → T j r = 0)
    (fuel : ℕ) (δ : F) (v : Bool) (st : ℤ) (s' : Lat F)
    (h : hlll o fuel δ v ((newLattice o junk n d A true method longFlag vd).put T) = some (st, s')) :
    toMatrix n d s'.getbase.M = toMatrix n d T * toMatrix d d s'.getU.M ∧
    lattice (toMatrix n d s'.getbase.M) = lattice (toMatrix n d T) := by
  have h0 := newLattice_hist o junk n d A true method longFlag vd
  have hu := (h0.uinv rfl hA).put T
  have hI : LInv n d T True ((newLattice o junk n d A true method longFlag vd).put T) := by
    refine ⟨rfl, rfl, h0.inv.lt, h0.inv.mono, fun j hj r hr hs => ?_, fun _ => Or.inl rfl,
      fun _ => hu.usupp, fun _ => rfl, 1, by simp, ?_, fun _ => ?_⟩
    · have hb : ((newLattice o junk n d A true method longFlag vd).put T).B j r = T j r := by
        simp only [Lat.put, newLattice, hj, hr, and_self, if_true]
      rw [hb]
      exact hT j hj r hr hs
    · rw [Matrix.mul_one]
      ext i j
      simp only [toMatrix, of_apply, Lat.put, newLattice, i.2, j.2, and_self, if_true]
    · ext i j
      simp only [toMatrix, of_apply, Lat.put, newLattice, if_true, idMat, Matrix.one_apply, Fin.ext_iff]
  have hE := hlll_exit o fuel δ v _ s' st hI (by exact le_of_eq h0.km) h
  obtain ⟨W, hW, hB, hU⟩ := hE.inv.uni
  have ht : s'.transf = true := hE.inv.tr trivial
  have e1 : toMatrix n d s'.getbase.M = toMatrix n d T * W := hB
  refine ⟨?_, ?_⟩
  · rw [e1]
    simp only [Lat.getU, ht, if_true]
    rw [hU trivial]
  · rw [e1]; exact lattice_mul_unit _ _ hW

/-- **C52, defect.** Without that condition the basis after `put(T)` and `hlll` is not `T` times the transformation: the
operations are done above the old profile only.  Here `T` has columns (1,0,1) and (5,1,0); `hlll` returns 0 with the
basis (1,0,1), (0,1,0), which generates another lattice. -/
theorem C52_put_loses_lattice :
    ∃ s', hlll toyOps 20 toy99 true ((newLattice toyOps 0 3 2 (ofCols [[1, 0, 0], [0, 1, 0]]) true 0 true 0).put
        (ofCols [[1, 0, 1], [5, 1, 0]])) = some (0, s') ∧
      toCols 3 2 s'.getbase.M = [[1, 0, 1], [0, 1, 0]] ∧ toCols 2 2 s'.getU.M = [[1, 0], [-5, 1]] ∧
      toMatrix 3 2 s'.getbase.M ≠ toMatrix 3 2 (ofCols [[1, 0, 1], [5, 1, 0]]) * toMatrix 2 2 s'.getU.M ∧
      lattice (toMatrix 3 2 s'.getbase.M) ≠ lattice (toMatrix 3 2 (ofCols [[1, 0, 1], [5, 1, 0]])) := by
  have h : (((hlll toyOps 20 toy99 true ((newLattice toyOps 0 3 2 (ofCols [[1, 0, 0], [0, 1, 0]]) true 0 true 0).put
        (ofCols [[1, 0, 1], [5, 1, 0]]))).map fun r => (r.1, toCols 3 2 r.2.getbase.M, toCols 2 2 r.2.getU.M)) ==
      some (0, [[1, 0, 1], [0, 1, 0]], [[1, 0], [-5, 1]])) = true := by decide +kernel
  rw [beq_iff_eq, Option.map_eq_some_iff] at h
  obtain ⟨⟨st, s'⟩, h1, h2⟩ := h
  simp only [Prod.mk.injEq] at h2
  obtain ⟨rfl, h3, h4⟩ := h2
  refine ⟨s', h1, h3, h4, ?_, ?_⟩
  · intro hc
    have := congrFun (congrFun hc 2) 1
    simp only [Matrix.mul_apply, Fin.sum_univ_two, toMatrix, of_apply] at this
    simp only [toCols, List.range, List.range.loop, List.map_cons, List.map_nil, List.cons.injEq, and_true] at h3 h4
    simp [h3, h4, ofCols] at this
  · intro hc
    have hmem : (fun i => toMatrix 3 2 s'.getbase.M i 1) ∈ lattice (toMatrix 3 2 s'.getbase.M) :=
      Submodule.subset_span ⟨1, rfl⟩
    rw [hc] at hmem
    unfold lattice at hmem
    rw [Submodule.mem_span_range_iff_exists_fun] at hmem
    obtain ⟨c, hc⟩ := hmem
    have e0 := congrFun hc 0
    have e1 := congrFun hc 1
    have e2 := congrFun hc 2
    simp only [toCols, List.range, List.range.loop, List.map_cons, List.map_nil, List.cons.injEq, and_true] at h3
    simp [Fin.sum_univ_two, toMatrix, ofCols, h3] at e0 e1 e2
    omega

/-! ## Concrete runs -/

def toyL1 : L1Env Int := { o := toyOps, d99 := toy99, fuel := 60, fplll := fun _ => idMat, ex := fun x => (x * 3 / 10).toNat }

/-- A recursion with one level: `maxbitsize` is 5, the leaves are called with `l = 2`. -/
example : (l1 toyL1 0 10 3 2 (ofCols [[10, 1, 0], [16, 0, 1]]) 3 methodHLLL).map (toCols 3 2) =
    some [[2, -3, 2], [-4, -2, 1]] := by decide +kernel

example : FullColumnRank (toMatrix 3 2 (ofCols [[10, 1, 0], [16, 0, 1]])) :=
  fullColumnRank_of_lower (d := 2) (W := !![1, 0; 0, 1]) (by simp)
    (by intro j i; fin_cases j <;> fin_cases i <;> rfl)

/-- `put` of a matrix inside the profile. -/
example : (∀ j < 2, ∀ r < 3, matrixStructure 3 (ofCols [[10, 1, 0], [16, 0, 1]]) j < (r : ℕ) →
      ofCols [[7, 1, 0], [9, 0, 1]] j r = 0) ∧
    ((hlll toyOps 20 toy99 true ((newLattice toyOps 0 3 2 (ofCols [[10, 1, 0], [16, 0, 1]]) true 0 true 0).put
      (ofCols [[7, 1, 0], [9, 0, 1]]))).map fun r => (r.1, toCols 3 2 r.2.getbase.M)) =
      some (0, [[2, -1, 1], [3, 3, -2]]) := by decide +kernel

end HPLLL.Props
