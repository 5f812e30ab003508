import Verif.Model.Maple
import Verif.Spec.MapleRead

namespace HPLLL
open Spec

/-- The reader inside a row. -/
theorem maple_tok : ∀ (t : List Char), Plain t → ∀ rows cur tok,
    t.foldl mapleStep ⟨.row, rows, cur, tok⟩ = ⟨.row, rows, cur, tok ++ strip t⟩ := by
  intro t
  induction t with
  | nil => intro _ rows cur tok; simp [strip]
  | cons a t ih =>
    intro h rows cur tok
    have ha := h a (by simp)
    have ht : Plain t := fun c hc => h c (by simp [hc])
    rw [List.foldl_cons]
    by_cases hb : a = ' ' ∨ a = '\n'
    · have : mapleStep ⟨.row, rows, cur, tok⟩ a = ⟨.row, rows, cur, tok⟩ := by
        unfold mapleStep; rw [if_pos hb]
      rw [this, ih ht]
      have : strip (a :: t) = strip t := by
        unfold strip
        rw [List.filter_cons_of_neg]
        rcases hb with h | h <;> simp [h]
      rw [this]
    · have : mapleStep ⟨.row, rows, cur, tok⟩ a = ⟨.row, rows, cur, tok ++ [a]⟩ := by
        unfold mapleStep; rw [if_neg hb]; simp [ha.1, ha.2]
      rw [this, ih ht]
      have : strip (a :: t) = a :: strip t := by
        unfold strip
        rw [List.filter_cons_of_pos]
        simp only [not_or] at hb
        simp [hb.1, hb.2]
      rw [this]; simp

theorem maple_cells (e : Nat → List Char) (he : ∀ j, Plain (e j)) (beg : Nat) (rows) : ∀ k cur,
    ((List.range k).flatMap fun j => e (beg + j) ++ [',', ' ']).foldl mapleStep ⟨.row, rows, cur, []⟩ =
      ⟨.row, rows, cur ++ (List.range k).map (fun j => strip (e (beg + j))), []⟩ := by
  intro k
  induction k with
  | zero => intro cur; simp
  | succ k ih =>
    intro cur
    rw [List.range_succ, List.flatMap_append, List.foldl_append, ih]
    simp only [List.flatMap_cons, List.flatMap_nil, List.append_nil, List.foldl_append]
    rw [maple_tok _ (he _)]
    simp [mapleStep]

/-- A row, up to its closing bracket. -/
theorem maple_row (e : Nat → List Char) (he : ∀ j, Plain (e j)) (beg k : Nat) (rows) :
    (mapleRow e beg k ++ [' ', ' ', ']']).foldl mapleStep ⟨.row, rows, [], []⟩ =
      ⟨.afterRow, rows ++ [(List.range (k + 1)).map (fun j => strip (e (beg + j)))], [], []⟩ := by
  unfold mapleRow
  rw [List.foldl_append, List.foldl_append, maple_cells e he, maple_tok _ (he _)]
  simp [mapleStep, List.range_succ]

/-- Rows which are all followed by a comma. -/
theorem maple_commaRows (e : Nat → Nat → List Char) (he : ∀ i j, Plain (e i j)) (beg k : Nat) :
    ∀ (n : Nat) (m0 : MapleMode) (rows0), (m0 = .start ∨ m0 = .afterComma) →
    ((List.range n).flatMap fun i => '[' :: (mapleRow (e i) beg k ++ [' ', ' ', ']', ',', '\n'])).foldl
        mapleStep ⟨m0, rows0, [], []⟩ =
      ⟨if n = 0 then m0 else .afterComma,
        rows0 ++ (List.range n).map (fun i => (List.range (k + 1)).map fun j => strip (e i (beg + j))), [], []⟩ := by
  intro n
  induction n with
  | zero => intro m0 rows0 _; simp
  | succ n ih =>
    intro m0 rows0 hm
    rw [List.range_succ, List.flatMap_append, List.foldl_append, ih m0 rows0 hm]
    simp only [List.flatMap_cons, List.flatMap_nil, List.append_nil, List.foldl_cons]
    have h1 : ∀ rows, mapleStep ⟨if n = 0 then m0 else .afterComma, rows, [], []⟩ '[' = ⟨.row, rows, [], []⟩ := by
      intro rows
      by_cases hn : n = 0
      · rw [if_pos hn]
        rcases hm with h | h <;> subst h <;> simp [mapleStep]
      · rw [if_neg hn]; simp [mapleStep]
    rw [h1]
    have h2 : mapleRow (e n) beg k ++ [' ', ' ', ']', ',', '\n'] =
        (mapleRow (e n) beg k ++ [' ', ' ', ']']) ++ [',', '\n'] := by simp
    rw [h2, List.foldl_append, maple_row (e n) (he n)]
    simp [mapleStep]

/-- All the rows of one matrix. -/
theorem maple_rows (e : Nat → Nat → List Char) (he : ∀ i j, Plain (e i j)) (n beg k : Nat)
    (m0 : MapleMode) (rows0) (hm : m0 = .start ∨ m0 = .afterComma) :
    (mapleRows e n beg k).foldl mapleStep ⟨m0, rows0, [], []⟩ =
      ⟨if n = 0 then m0 else .afterRow,
        rows0 ++ (List.range n).map (fun i => (List.range (k + 1)).map fun j => strip (e i (beg + j))), [], []⟩ := by
  cases n with
  | zero => simp [mapleRows]
  | succ n =>
    have e1 : mapleRows e (n + 1) beg k =
        ((List.range n).flatMap fun i => '[' :: (mapleRow (e i) beg k ++ [' ', ' ', ']', ',', '\n'])) ++
        ('[' :: ((mapleRow (e n) beg k ++ [' ', ' ', ']']) ++ ['\n'])) := by
      unfold mapleRows
      rw [List.range_succ, List.flatMap_append]
      congr 1
      · rw [List.flatMap_def, List.flatMap_def]
        congr 1
        apply List.map_congr_left
        intro i hi
        rw [List.mem_range] at hi
        rw [if_pos (by omega)]
      · simp
    rw [e1, List.foldl_append, maple_commaRows e he beg k n m0 rows0 hm, List.foldl_cons]
    have h1 : ∀ rows, mapleStep ⟨if n = 0 then m0 else .afterComma, rows, [], []⟩ '[' = ⟨.row, rows, [], []⟩ := by
      intro rows
      by_cases hn : n = 0
      · rw [if_pos hn]
        rcases hm with h | h <;> subst h <;> simp [mapleStep]
      · rw [if_neg hn]; simp [mapleStep]
    rw [h1, List.foldl_append, maple_row (e n) (he n)]
    simp [mapleStep, List.range_succ]

theorem readMaple_append (t : List Char) : readMaple ("Matrix([".toList ++ t) =
    let s := t.foldl mapleStep ⟨.start, [], [], []⟩
    if s.mode = .done then some s.rows else none := by
  unfold readMaple
  have h1 : ("Matrix([".toList ++ t).take 8 = "Matrix([".toList := by simp
  have h2 : ("Matrix([".toList ++ t).drop 8 = t := by simp
  rw [if_pos h1, h2]

end HPLLL
