import Verif.Model.Block
import Verif.Props.History
import Verif.Proof.Gen
import Verif.Model.Near
/-!
# C79: blockwise reduction `blevel`
-/

namespace HPLLL.Props
open HPLLL Spec

variable {F : Type}

/-- The lattice of a matrix is generated by the lattices of its blocks. -/
theorem lattice_blocks (n bs m : ℕ) (M : Mat Int) :
    lattice (toMatrix n (m * bs) M) = ⨆ k : Fin m, lattice (toMatrix n bs (blockOf bs k M)) := by
  refine le_antisymm ?_ (iSup_le fun k => ?_)
  · refine Submodule.span_le.2 ?_
    rintro _ ⟨j, rfl⟩
    have hbs : 0 < bs := Nat.pos_of_ne_zero fun h => by
      have := j.2; simp [h] at this
    have hk : (j : ℕ) / bs < m := (Nat.div_lt_iff_lt_mul hbs).2 j.2
    refine Submodule.mem_iSup_of_mem ⟨j / bs, hk⟩ (Submodule.subset_span ⟨⟨j % bs, Nat.mod_lt _ hbs⟩, ?_⟩)
    funext i
    simp only [toMatrix, blockOf, Matrix.of_apply]
    rw [Nat.div_add_mod']
  · refine Submodule.span_le.2 ?_
    rintro _ ⟨j, rfl⟩
    refine Submodule.subset_span ⟨⟨k * bs + j, ?_⟩, rfl⟩
    calc (k : ℕ) * bs + j < k * bs + bs := Nat.add_lt_add_left j.2 _
      _ = (k + 1) * bs := by ring
      _ ≤ m * bs := Nat.mul_le_mul_right _ k.2

theorem blockOf_write_same (n bs k : ℕ) (A B : Mat Int) (j i : ℕ) (hj : j < bs) (hi : i < n) :
    blockOf bs k (blockWrite n bs k A B) j i = A j i := by
  unfold blockOf blockWrite
  rw [if_pos ⟨by omega, by omega, hi⟩]
  congr 1
  omega

theorem blockWrite_ne (n bs k : ℕ) (A B : Mat Int) (j : ℕ) (h : j < k * bs ∨ k * bs + bs ≤ j) :
    blockWrite n bs k A B j = B j := by
  funext i
  unfold blockWrite
  rw [if_neg (by omega)]

theorem toMatrix_congr' {n d : ℕ} {M N : Mat Int} (h : ∀ j < d, ∀ i < n, M j i = N j i) :
    toMatrix n d M = toMatrix n d N := by
  ext i j
  exact h j j.2 i i.2

/-- What is known of a block of the output. -/
structure BlockOk (n bs : ℕ) (dec : ℤ) (Ain B : Mat Int) (k : ℕ) : Prop where
  lat : lattice (toMatrix n bs (blockOf bs k B)) = lattice (toMatrix n bs (blockOf bs k Ain))
  skip : (k : ℤ) < dec → ∀ j < bs, ∀ i < n, blockOf bs k B j i = blockOf bs k Ain j i

theorem BlockOk.congr {n bs : ℕ} {dec : ℤ} {Ain B B' : Mat Int} {k : ℕ} (h : BlockOk n bs dec Ain B k)
    (e : ∀ j < bs, B' (k * bs + j) = B (k * bs + j)) : BlockOk n bs dec Ain B' k := by
  have e' : ∀ j < bs, ∀ i < n, blockOf bs k B' j i = blockOf bs k B j i := fun j hj i _ => by
    unfold blockOf; rw [e j hj]
  refine ⟨by rw [toMatrix_congr' e']; exact h.lat, fun hk j hj i hi => ?_⟩
  rw [e' j hj i hi]; exact h.skip hk j hj i hi

theorem blockLoop_ok {o : FPOps F} {fuel : ℕ} {delta : F} {n bs : ℕ} {dec : ℤ} {Ain : Mat Int} :
    ∀ (m k : ℕ) (s s' : BlockState F), s.L.n = n → s.L.d = bs → s.L.kappaMax = bs →
    blockLoop o fuel delta n bs dec Ain m k s = some s' →
    (∀ k', k ≤ k' → k' < k + m → BlockOk n bs dec Ain s'.B k') ∧
    (∀ j, j < k * bs ∨ (k + m) * bs ≤ j → s'.B j = s.B j) := by
  intro m
  induction m with
  | zero =>
    intro k s s' _ _ _ h
    simp only [blockLoop, Option.some.injEq] at h
    subst h
    exact ⟨fun k' h1 h2 => by omega, fun _ _ => rfl⟩
  | succ m ih =>
    intro k s s' hn hd hkm h
    unfold blockLoop at h
    split at h
    · simp at h
    rename_i s1 hs
    have key : s1.L.n = n ∧ s1.L.d = bs ∧ s1.L.kappaMax = bs ∧ BlockOk n bs dec Ain s1.B k ∧
        ∀ j, j < k * bs ∨ k * bs + bs ≤ j → s1.B j = s.B j := by
      unfold blockStep at hs
      split at hs
      · rename_i hdec
        split at hs
        · simp at hs
        rename_i st L hL
        simp only [Option.some.injEq] at hs
        subst hs
        have hE := hlll_exit o fuel delta true _ L st (LInv.of_basis (n := n) (d := bs) (blockOf bs k Ain) False
          (s.L.assign (blockOf bs k Ain)) hn hd rfl (by show matrixStructure s.L.n _ = _; rw [hn]) (fun h => h.elim)) (le_of_eq hkm) hL
        refine ⟨hE.inv.hn, hE.inv.hd, by rw [hE.cfg.kappaMax]; exact hkm, ⟨?_, fun h => by omega⟩,
          fun j hj => blockWrite_ne n bs k _ _ j hj⟩
        obtain ⟨W, hW, hB, -⟩ := hE.inv.uni
        rw [toMatrix_congr' (fun j hj i hi => blockOf_write_same n bs k _ _ j i hj hi)]
        simp only [Lat.getbase]
        rw [hB, lattice_mul_unit _ _ hW]
      · simp only [Option.some.injEq] at hs
        subst hs
        refine ⟨hn, hd, hkm, ⟨?_, fun _ j hj i hi => blockOf_write_same n bs k _ _ j i hj hi⟩,
          fun j hj => blockWrite_ne n bs k _ _ j hj⟩
        rw [toMatrix_congr' (fun j hj i hi => blockOf_write_same n bs k _ _ j i hj hi)]
    obtain ⟨a1, a2, a3, a4, a5⟩ := key
    obtain ⟨b1, b2⟩ := ih (k + 1) s1 s' a1 a2 a3 h
    have e1 : (k + 1) * bs = k * bs + bs := by ring
    have e2 : (k + 1 + m) * bs = (k + (m + 1)) * bs := by ring
    refine ⟨fun k' h1 h2 => ?_, fun j hj => ?_⟩
    · by_cases hk : k' = k
      · subst hk
        exact a4.congr fun j hj => b2 _ (Or.inl (by omega))
      · exact b1 k' (by omega) (by omega)
    · have hmono : (k + 1) * bs ≤ (k + (m + 1)) * bs := Nat.mul_le_mul_right _ (by omega)
      rw [b2 j (by omega), a5 j (by omega)]

/-- **C79.** In any arithmetic, when `blevel` returns, every block of `bs` columns of the output generates the lattice
of the same block of the input, the blocks before `dec` are copied, and (DEFECT) the last `d mod bs` columns of the
output are not written.  When `bs` divides `d` the output generates the lattice of the input. -/
theorem C79_blocks (o : FPOps F) (junk : F) (vd : ℤ) (fuel : ℕ) (delta : F) (n d bs : ℕ) (dec : ℤ)
    (Ain B : Mat Int) (s : BlockState F) (h : blevel o junk vd fuel delta n d bs dec Ain B = .done s) :
    (∀ k < d / bs, lattice (toMatrix n bs (fun j => s.B (k * bs + j))) =
        lattice (toMatrix n bs (fun j => Ain (k * bs + j))) ∧
      ((k : ℤ) < dec → ∀ j < bs, ∀ i < n, s.B (k * bs + j) i = Ain (k * bs + j) i)) ∧
    (∀ j, d - d % bs ≤ j → s.B j = B j) ∧
    (bs ∣ d → lattice (toMatrix n d s.B) = lattice (toMatrix n d Ain)) := by
  unfold blevel at h
  split at h
  · simp at h
  split at h
  · simp at h
  rename_i s' hl
  simp only [BlockOut.done.injEq] at h
  subst h
  obtain ⟨h1, h2⟩ := blockLoop_ok (n := n) (bs := bs) (d / bs) 0 (blockStart o junk vd n bs B) _ rfl rfl rfl hl
  refine ⟨fun k hk => ⟨(h1 k (Nat.zero_le _) (by rw [Nat.zero_add]; exact hk)).lat,
    (h1 k (Nat.zero_le _) (by rw [Nat.zero_add]; exact hk)).skip⟩, ?_, ?_⟩
  · intro j hj
    refine h2 j (Or.inr ?_)
    rw [Nat.zero_add, Nat.eq_sub_of_add_eq (Nat.div_add_mod' d bs)]
    exact hj
  · intro hdvd
    obtain ⟨m, hm⟩ : ∃ m, m * bs = d := ⟨d / bs, Nat.div_mul_cancel hdvd⟩
    have hm' : d / bs = m := by rw [← hm]; exact Nat.mul_div_cancel m (by omega)
    rw [← hm, lattice_blocks, lattice_blocks]
    refine iSup_congr fun k => (h1 k (Nat.zero_le _) (by have := k.2; omega)).lat

/-! ## Exact arithmetic -/

/-- The profile condition: the first column of every reduced block reaches at least as low as all columns of the
reduced block before it. -/
def BlockProfiles (n d bs : ℕ) (dec : ℤ) (Ain : Mat Int) : Prop :=
  ∀ k : ℕ, dec ≤ k → k + 1 < d / bs →
    matrixStructure n (blockOf bs k Ain) (bs - 1) ≤ matrixStructure n (blockOf bs (k + 1) Ain) 0

/-- State of the object before block `k`: fresh, or used on the block before. -/
def BlockReady (n bs : ℕ) (dec : ℤ) (Ain : Mat Int) (k : ℕ) (L : Lat ℝ) : Prop :=
  L.n = n ∧ L.d = bs ∧ L.kappaMax = bs ∧ 0 < L.numS ∧ L.seysenFlag = 0 ∧ L.nblovMax = 4294967295 ∧
  ((k : ℤ) ≤ dec ∨ k = 0 → ∀ c < bs, ∀ r, L.fp.Bfp c r = 0) ∧
  (dec < k → 0 < k → (∀ c < bs, ∀ r, nmaxOf L.str c ≤ r → r < n → L.fp.Bfp c r = 0) ∧
    ∀ c < bs, L.str c ≤ matrixStructure n (blockOf bs (k - 1) Ain) (bs - 1))

theorem BlockReady.assign {n d bs : ℕ} {dec : ℤ} {Ain : Mat Int} {k : ℕ} {L : Lat ℝ}
    (hp : BlockProfiles n d bs dec Ain) (hk : k < d / bs) (h : BlockReady n bs dec Ain k L) :
    ExReady n bs (blockOf bs k Ain) (L.assign (blockOf bs k Ain)) := by
  obtain ⟨h1, h2, h3, h4, -, -, h5, h6⟩ := h
  refine ⟨LInv.of_basis _ _ _ h1 h2 rfl (by show matrixStructure L.n _ = _; rw [h1]) (fun h => h.elim), h4, ?_, h3⟩
  intro c hc r hr hrn
  have hr : nmaxOf (matrixStructure L.n (blockOf bs k Ain)) c ≤ r := hr
  show L.fp.Bfp c r = 0
  by_cases hc0 : (k : ℤ) ≤ dec ∨ k = 0
  · exact h5 hc0 c hc r
  · obtain ⟨g1, g2⟩ := h6 (by omega) (by omega)
    refine g1 c hc r ?_ hrn
    have a := g2 c hc
    have b := hp (k - 1) (by omega) (by omega)
    rw [show k - 1 + 1 = k by omega] at b
    have e := matrixStructure_mono n (blockOf bs k Ain) (Nat.zero_le c)
    rw [h1] at hr
    unfold nmaxOf at *
    omega

theorem blockReady_start {o : FPOps ℝ} (ho : Exact o) (junk : ℝ) (vd : ℤ) (n bs : ℕ) (dec : ℤ) (Ain B : Mat Int) :
    BlockReady n bs dec Ain 0 (blockStart o junk vd n bs B).L :=
  ⟨rfl, rfl, rfl, Nat.one_pos, rfl, rfl, fun _ _ _ _ => ho.zero, fun _ h => absurd h (by omega)⟩

theorem BlockReady.skip {n bs : ℕ} {dec : ℤ} {Ain : Mat Int} {k : ℕ} {L : Lat ℝ}
    (h : BlockReady n bs dec Ain k L) (hk : (k : ℤ) < dec) : BlockReady n bs dec Ain (k + 1) L := by
  obtain ⟨h1, h2, h3, h4, h5, h6, h7, -⟩ := h
  exact ⟨h1, h2, h3, h4, h5, h6, fun _ => h7 (Or.inl (by omega)), fun h => by push_cast at h; omega⟩

theorem BlockReady.reduce {o : FPOps ℝ} (ho : Exact o) {n d bs : ℕ} {dec : ℤ} {Ain : Mat Int} {k : ℕ}
    {L L' : Lat ℝ} (hp : BlockProfiles n d bs dec Ain) (hk : k < d / bs) (hdec : dec ≤ k)
    (hA : FullColumnRank (toMatrix n bs (blockOf bs k Ain)))
    (h : BlockReady n bs dec Ain k L) {fuel : ℕ} {δ : ℝ} (hδ : δ ≤ 1) {st : ℤ}
    (hr : hlll o fuel δ true (L.assign (blockOf bs k Ain)) = some (st, L')) :
    BlockReady n bs dec Ain (k + 1) L' ∧
      (L'.nblov < 4294967295 → LLLReduced δ (toMatrix n bs L'.getbase.M)) := by
  have hE := h.assign hp hk
  obtain ⟨h1, h2, h3, h4, h5, h6, -, -⟩ := h
  obtain ⟨-, e2, e3⟩ := hE.hlll ho hA hδ hr
  have hX := hlll_exit o fuel δ true _ L' st hE.inv (le_of_eq hE.km) hr
  have hs : L'.seysenFlag = 0 := by rw [hX.cfg.seysenFlag]; exact h5
  have hb : L'.nblovMax = 4294967295 := by rw [hX.cfg.nblovMax]; exact h6
  refine ⟨⟨e2.inv.hn, e2.inv.hd, e2.km, e2.numS, hs, hb, fun h => ?_, fun _ _ => ⟨e2.bz, ?_⟩⟩, fun hn => ?_⟩
  · rcases h with h | h
    · push_cast at h; omega
    · omega
  · rw [Nat.add_sub_cancel]
    refine hlll_str_bound o _ δ fuel true _ L' st (le_of_eq hE.km) (fun c hc => ?_) hr
    show matrixStructure L.n _ c ≤ _
    rw [h1]
    exact matrixStructure_mono n _ (by omega)
  · obtain ⟨l1, l2⟩ := e3 (by rw [hb]; exact hn)
    exact ⟨l2 (by rw [hs]; norm_num), l1⟩

theorem blockLoop_reduced {o : FPOps ℝ} (ho : Exact o) {n d bs : ℕ} {dec : ℤ} {Ain : Mat Int}
    (hp : BlockProfiles n d bs dec Ain)
    (hA : ∀ k : ℕ, dec ≤ k → k < d / bs → FullColumnRank (toMatrix n bs (blockOf bs k Ain)))
    {fuel : ℕ} {δ : ℝ} (hδ : δ ≤ 1) :
    ∀ (m k : ℕ) (s s' : BlockState ℝ), k + m = d / bs → BlockReady n bs dec Ain k s.L →
    blockLoop o fuel δ n bs dec Ain m k s = some s' →
    (∃ l, s'.tests = s.tests ++ l) ∧ ((∀ t ∈ s'.tests, t < 4294967295) →
      ∀ k' : ℕ, k ≤ k' → dec ≤ k' → k' < d / bs → LLLReduced δ (toMatrix n bs (blockOf bs k' s'.B))) := by
  intro m
  induction m with
  | zero =>
    intro k s s' hk _ h
    simp only [blockLoop, Option.some.injEq] at h
    subst h
    exact ⟨⟨[], by simp⟩, fun _ k' h1 _ h2 => by omega⟩
  | succ m ih =>
    intro k s s' hk hR h
    have h' := h
    unfold blockLoop at h
    split at h
    · simp at h
    rename_i s1 hs
    have hkm : k < d / bs := by omega
    unfold blockStep at hs
    split at hs
    · rename_i hdec
      split at hs
      · simp at hs
      rename_i st L hL
      simp only [Option.some.injEq] at hs
      subst hs
      obtain ⟨r1, r2⟩ := hR.reduce ho hp hkm hdec (hA k hdec hkm) hδ hL
      obtain ⟨⟨l, hl⟩, i2⟩ := ih (k + 1) _ s' (by omega) r1 h
      refine ⟨⟨L.nblov :: l, by rw [hl]; simp⟩, fun ht k' a b c => ?_⟩
      by_cases hkk : k' = k
      · subst hkk
        have hw := (blockLoop_ok m (k' + 1) ⟨L, blockWrite n bs k' L.getbase.M s.B, s.tests ++ [L.nblov]⟩ s' r1.1 r1.2.1
          r1.2.2.1 h).2
        have e : toMatrix n bs (blockOf bs k' s'.B) = toMatrix n bs L.getbase.M := by
          refine toMatrix_congr' fun j hj i hi => ?_
          rw [← blockOf_write_same n bs k' L.getbase.M s.B j i hj hi]
          unfold blockOf
          rw [hw _ (Or.inl (by have : (k' + 1) * bs = k' * bs + bs := by ring
                               omega))]
        rw [e]
        exact r2 (ht _ (by rw [hl]; simp))
      · exact i2 ht k' (by omega) b c
    · rename_i hdec
      simp only [Option.some.injEq] at hs
      subst hs
      obtain ⟨i1, i2⟩ := ih (k + 1) { s with B := blockWrite n bs k (blockOf bs k Ain) s.B } s' (by omega)
        (hR.skip (by omega)) h
      exact ⟨i1, fun ht k' a b c => i2 ht k' (by omega) b c⟩

/-- **C79, exact arithmetic.** Under the profile condition, every block from `dec` on is LLL-reduced in the output,
provided its columns are independent and the reductions stay within the default number of tests. -/
theorem C79_reduced {o : FPOps ℝ} (ho : Exact o) (junk : ℝ) (vd : ℤ) (fuel : ℕ) (δ : ℝ) (hδ : δ ≤ 1)
    (n d bs : ℕ) (dec : ℤ) (Ain B : Mat Int) (hp : BlockProfiles n d bs dec Ain)
    (hA : ∀ k : ℕ, dec ≤ k → k < d / bs → FullColumnRank (toMatrix n bs (blockOf bs k Ain)))
    (s : BlockState ℝ) (h : blevel o junk vd fuel δ n d bs dec Ain B = .done s)
    (ht : ∀ t ∈ s.tests, t < 4294967295) :
    ∀ k : ℕ, dec ≤ k → k < d / bs → LLLReduced δ (toMatrix n bs (fun j => s.B (k * bs + j))) := by
  unfold blevel at h
  split at h
  · simp at h
  split at h
  · simp at h
  rename_i s' hl
  simp only [BlockOut.done.injEq] at h
  subst h
  intro k h1 h2
  exact (blockLoop_reduced ho hp hA hδ (d / bs) 0 _ _ (by omega) (blockReady_start ho junk vd n bs dec Ain B) hl).2
    ht k (Nat.zero_le _) h1 h2

/-- **C79, termination (exact arithmetic, ties towards zero).** -/
theorem C79_terminates {o : FPOps ℝ} (ho : ExactTies o) (junk : ℝ) (vd : ℤ) (δ : ℝ) (hδ : δ ≤ 1)
    (n d bs : ℕ) (hbs : 0 < bs) (dec : ℤ) (Ain B : Mat Int) (hp : BlockProfiles n d bs dec Ain)
    (hA : ∀ k : ℕ, dec ≤ k → k < d / bs → FullColumnRank (toMatrix n bs (blockOf bs k Ain))) :
    ∃ f0, ∀ fuel ≥ f0, ∃ s, blevel o junk vd fuel δ n d bs dec Ain B = .done s := by
  have key : ∀ (m k : ℕ) (s : BlockState ℝ), k + m = d / bs → BlockReady n bs dec Ain k s.L →
      ∃ f0 s', ∀ fuel ≥ f0, blockLoop o fuel δ n bs dec Ain m k s = some s' := by
    intro m
    induction m with
    | zero => intro k s _ _; exact ⟨0, s, fun _ _ => rfl⟩
    | succ m ih =>
      intro k s hk hR
      have hkm : k < d / bs := by omega
      by_cases hdec : dec ≤ k
      · have hE := hR.assign hp hkm
        obtain ⟨f1, L, hL⟩ := hE.terminates ho (hA k hdec hkm) hδ
          (by show s.L.seysenFlag < 1; rw [hR.2.2.2.2.1]; norm_num) true
        obtain ⟨r1, -⟩ := hR.reduce ho.toExact hp hkm hdec (hA k hdec hkm) hδ hL
        obtain ⟨f2, s', h2⟩ := ih (k + 1) ⟨L, blockWrite n bs k L.getbase.M s.B, s.tests ++ [L.nblov]⟩
          (by omega) r1
        refine ⟨max f1 f2, s', fun fuel hf => ?_⟩
        obtain ⟨e, rfl⟩ : ∃ e, fuel = f1 + e := ⟨fuel - f1, by have := le_max_left f1 f2; omega⟩
        unfold blockLoop blockStep
        simp only [hdec, if_true, hlll_mono o f1 e δ true _ _ hL]
        exact h2 _ (le_trans (le_max_right _ _) hf)
      · obtain ⟨f2, s', h2⟩ := ih (k + 1) { s with B := blockWrite n bs k (blockOf bs k Ain) s.B }
          (by omega) (hR.skip (by omega))
        refine ⟨f2, s', fun fuel hf => ?_⟩
        unfold blockLoop blockStep
        simp only [hdec, if_false]
        exact h2 _ hf
  obtain ⟨f0, s', h⟩ := key (d / bs) 0 _ (by omega) (blockReady_start ho.toExact junk vd n bs dec Ain B)
  refine ⟨f0, fun fuel hf => ⟨s', ?_⟩⟩
  unfold blevel
  rw [if_neg (by omega), h fuel hf]

/-- **C79, defect.** The object is built on a matrix of ones "for forcing dense structure", but `assign` computes the
profile again, and does not clear the floating point copy (C19).  In 53 bit arithmetic, on the columns (3,5), (5,-3),
(4,0), (3,1) with `bs = 2`, the second block of the output is (-1,1), (4,0): it is not size-reduced.  Alone, the same
block gives (-1,1), (2,2). -/
theorem C79_not_reduced :
    (match blevel (nearOps 53) 0 0 30 (99 / 100) 2 4 2 0 (ofCols [[3, 5], [5, -3], [4, 0], [3, 1]]) (fun _ _ => 0) with
      | .done s => toCols 2 4 s.B
      | _ => []) = [[3, 5], [5, -3], [-1, 1], [4, 0]] ∧
    ¬ 2 * |(-1 : ℤ) * 4 + 1 * 0| ≤ (-1) ^ 2 + 1 ^ 2 ∧
    (match blevel (nearOps 53) 0 0 30 (99 / 100) 2 2 2 0 (ofCols [[4, 0], [3, 1]]) (fun _ _ => 0) with
      | .done s => toCols 2 2 s.B
      | _ => []) = [[-1, 1], [2, 2]] ∧
    2 * |(-1 : ℤ) * 2 + 1 * 2| ≤ (-1) ^ 2 + 1 ^ 2 := by
  refine ⟨?_, by norm_num, ?_, by norm_num⟩ <;> decide +kernel

/-- The hypotheses of `C79_reduced` and `C79_terminates` hold for two dense blocks of two columns. -/
example : BlockProfiles 2 4 2 0 (ofCols [[3, 5], [5, -3], [4, 1], [3, 2]]) ∧
    ∀ k : ℕ, (0 : ℤ) ≤ k → k < 4 / 2 →
      FullColumnRank (toMatrix 2 2 (blockOf 2 k (ofCols [[3, 5], [5, -3], [4, 1], [3, 2]]))) := by
  constructor
  · intro k _ hk
    obtain rfl : k = 0 := by omega
    decide
  · intro k _ hk
    refine (fcr_iff_det _).2 ?_
    rcases Nat.lt_or_ge k 1 with h | h
    · obtain rfl : k = 0 := by omega
      simp [toMatrix, blockOf, ofCols, Matrix.det_fin_two]
    · obtain rfl : k = 1 := by omega
      simp [toMatrix, blockOf, ofCols, Matrix.det_fin_two]

/-- A run with a column outside the blocks: the fifth column of the output keeps its contents. -/
example : (match blevel toyOps 0 0 30 toy99 2 5 2 1 (ofCols [[9, 5], [4, 3], [4, 1], [3, 2], [1, 1]]) (fun _ _ => 7)
      with
      | .done s => toCols 2 5 s.B
      | _ => []) = [[9, 5], [4, 3], [-1, 1], [2, 3], [7, 7]] := by
  decide +kernel

end HPLLL.Props
