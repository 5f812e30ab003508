import Verif.Proof.Maple

/-!
# C93: what is printed in Maple's format is the matrix
-/

namespace HPLLL
namespace Props
open Spec

/-- `printcol`: columns `beg .. beg+k` of the `n` rows, entry by entry. -/
theorem C93_printcol {e : Nat → Nat → List Char} (he : ∀ i j, Plain (e i j)) (n beg k : Nat) :
    readMaple (printcol e n beg k) =
      some ((List.range n).map fun i => (List.range (k + 1)).map fun j => strip (e i (beg + j))) := by
  unfold printcol
  rw [List.append_assoc, readMaple_append, List.foldl_append, maple_rows e he n beg k _ _ (Or.inl rfl)]
  by_cases hn : n = 0
  · subst hn; simp [mapleStep]
  · simp [mapleStep, hn]

/-- `print2maple`: the `n x d` matrix, `d >= 1`. -/
theorem C93_print2maple {e : Nat → Nat → List Char} (he : ∀ i j, Plain (e i j)) (n d : Nat) (hd : 1 ≤ d) :
    readMaple (print2maple e n d) =
      some ((List.range n).map fun i => (List.range d).map fun j => strip (e i j)) := by
  unfold print2maple
  rw [C93_printcol he]
  obtain ⟨q, rfl⟩ : ∃ q, d = q + 1 := ⟨d - 1, by omega⟩
  simp

/-- Matrices with different texts of entries are printed differently. -/
theorem C93_injective {e f : Nat → Nat → List Char} (he : ∀ i j, Plain (e i j)) (hf : ∀ i j, Plain (f i j))
    {n d : Nat} (h : print2maple e n d = print2maple f n d) {i j : Nat} (hi : i < n) (hj : j < d) :
    strip (e i j) = strip (f i j) := by
  have h1 := C93_print2maple he n d (by omega)
  rw [h, C93_print2maple hf n d (by omega)] at h1
  have h2 := Option.some.inj h1
  have h3 := (List.map_inj_left.mp h2) i (List.mem_range.mpr hi)
  exact ((List.map_inj_left.mp h3) j (List.mem_range.mpr hj)).symm

/-- Mixed matrices: the first `k` rows, real ones first, when `k` is not the number `d` of real rows. -/
theorem C93_mixed {eR eZ : Nat → Nat → List Char} (hR : ∀ i j, Plain (eR i j)) (hZ : ∀ i j, Plain (eZ i j))
    (d k l : Nat) (hl : 1 ≤ l) (hk : k ≠ d) :
    readMaple (print2mapleRZ d eR eZ k l) =
      some ((List.range k).map fun i => (List.range l).map fun j =>
        strip (if i < d then eR i j else eZ (i - d) j)) := by
  obtain ⟨q, rfl⟩ : ∃ q, l = q + 1 := ⟨l - 1, by omega⟩
  unfold print2mapleRZ
  by_cases h : k < d
  · rw [if_pos h, List.append_assoc, readMaple_append, List.foldl_append,
      maple_rows eR hR k 0 _ _ _ (Or.inl rfl)]
    have e1 : (List.range k).map (fun i => (List.range (q + 1)).map fun j =>
        strip (if i < d then eR i j else eZ (i - d) j)) =
        (List.range k).map (fun i => (List.range (q + 1)).map fun j => strip (eR i j)) := by
      apply List.map_congr_left
      intro i hi
      rw [List.mem_range] at hi
      simp [show i < d by omega]
    rw [e1]
    by_cases hn : k = 0
    · subst hn; simp [mapleStep]
    · simp [mapleStep, hn]
  · rw [if_neg h, List.append_assoc, List.append_assoc, readMaple_append, List.foldl_append,
      maple_commaRows eR hR 0 _ d _ _ (Or.inl rfl), List.foldl_append,
      maple_rows eZ hZ (k - d) 0 _ _ _ (by by_cases h0 : d = 0 <;> simp [h0])]
    obtain ⟨r, rfl⟩ : ∃ r, k = d + r := ⟨k - d, by omega⟩
    have hr : r ≠ 0 := by omega
    have e1 : (List.range (d + r)).map (fun i => (List.range (q + 1)).map fun j =>
        strip (if i < d then eR i j else eZ (i - d) j)) =
        (List.range d).map (fun i => (List.range (q + 1)).map fun j => strip (eR i j)) ++
        (List.range r).map (fun i => (List.range (q + 1)).map fun j => strip (eZ i j)) := by
      rw [List.range_add (n := d) (m := r), List.map_append, List.map_map]
      congr 1
      · apply List.map_congr_left
        intro i hi
        rw [List.mem_range] at hi
        simp [hi]
      · apply List.map_congr_left
        intro i _
        simp [show ¬ d + i < d by omega]
    rw [e1]
    simp [mapleStep, hr]

/-- **Not held** for `k = d`: the last row is followed by a comma, and the text is not a matrix. -/
theorem C93_mixed_comma {eR eZ : Nat → Nat → List Char} (hR : ∀ i j, Plain (eR i j)) (d l : Nat)
    (hd : 1 ≤ d) : readMaple (print2mapleRZ d eR eZ d l) = none := by
  unfold print2mapleRZ
  rw [if_neg (by omega), List.append_assoc, List.append_assoc, readMaple_append, List.foldl_append,
    maple_commaRows eR hR 0 _ d _ _ (Or.inl rfl)]
  simp [mapleStep, mapleRows, show d ≠ 0 by omega]

/-- The decimal text of an integer is plain and has no blank. -/
theorem C93_int_plain (z : Int) : Plain (toString z).toList ∧ strip (toString z).toList = (toString z).toList := by
  have key : ∀ c ∈ (toString z).toList, c = '-' ∨ c.isDigit := by
    intro c hc
    cases z with
    | ofNat n =>
      right
      have h : (toString (Int.ofNat n)).toList = Nat.toDigits 10 n := by
        show (Nat.repr n).toList = _
        simp [Nat.repr]
      rw [h] at hc
      exact Nat.isDigit_of_mem_toDigits (by decide) (by decide) hc
    | negSucc n =>
      have h : (toString (Int.negSucc n)).toList = '-' :: Nat.toDigits 10 (n + 1) := by
        show ("-" ++ Nat.repr (n + 1)).toList = _
        simp [Nat.repr]
      rw [h] at hc
      rcases List.mem_cons.mp hc with h | h
      · exact Or.inl h
      · exact Or.inr (Nat.isDigit_of_mem_toDigits (by decide) (by decide) h)
  have ne : ∀ c ∈ (toString z).toList, c ≠ ',' ∧ c ≠ ']' ∧ c ≠ ' ' ∧ c ≠ '\n' := by
    intro c hc
    have := key c hc
    refine ⟨?_, ?_, ?_, ?_⟩ <;> rintro rfl <;> revert this <;> decide
  refine ⟨fun c hc => ⟨(ne c hc).1, (ne c hc).2.1⟩, ?_⟩
  unfold strip
  rw [List.filter_eq_self]
  intro c hc
  simp [(ne c hc).2.2.1, (ne c hc).2.2.2]

/-- Integer matrices are read back as printed. -/
theorem C93_int (B : Nat → Nat → Int) (n d : Nat) (hd : 1 ≤ d) :
    readMaple (print2maple (fun i j => (toString (B i j)).toList) n d) =
      some ((List.range n).map fun i => (List.range d).map fun j => (toString (B i j)).toList) := by
  rw [C93_print2maple (fun i j => (C93_int_plain (B i j)).1) n d hd]
  congr 1
  apply List.map_congr_left
  intro i _
  apply List.map_congr_left
  intro j _
  exact (C93_int_plain (B i j)).2

/-- `[[1, -2], [30, 4]]`. -/
example : String.ofList (print2maple (fun i j => (toString (if i = 0 then (if j = 0 then (1 : Int) else -2)
    else (if j = 0 then 30 else 4))).toList) 2 2) = "Matrix([[1, -2  ],\n[30, 4  ]\n]);\n" := by decide

/-- One real row, printed alone from a mixed matrix. -/
example : String.ofList (print2mapleRZ 1 (fun _ _ => ['7']) (fun _ _ => ['0']) 1 2) =
    "Matrix([[7, 7  ],\n]);\n" := by decide

end Props
end HPLLL
