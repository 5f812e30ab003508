/-!
# Reading a matrix written in Maple's syntax

`Matrix([[a, b], [c, d]]);`: rows between brackets, separated by commas.  Blanks and line ends are skipped.
-/

namespace HPLLL
namespace Spec

/-- Where the reader is, after `Matrix([`. -/
inductive MapleMode
  | start | row | afterRow | afterComma | done | bad
  deriving DecidableEq

/-- The reader: rows read, entries of the current row, characters of the current entry. -/
structure MapleSt where
  mode : MapleMode
  rows : List (List (List Char))
  cur : List (List Char)
  tok : List Char

/-- Reads one character. -/
def mapleStep (s : MapleSt) (ch : Char) : MapleSt :=
  if ch = ' ' ∨ ch = '\n' then s
  else match s.mode with
  | .start => if ch = '[' then { s with mode := .row } else if ch = ']' then { s with mode := .done }
    else { s with mode := .bad }
  | .row =>
    if ch = ',' then { s with cur := s.cur ++ [s.tok], tok := [] }
    else if ch = ']' then ⟨.afterRow, s.rows ++ [s.cur ++ [s.tok]], [], []⟩
    else { s with tok := s.tok ++ [ch] }
  | .afterRow => if ch = ',' then { s with mode := .afterComma } else if ch = ']' then { s with mode := .done }
    else { s with mode := .bad }
  | .afterComma => if ch = '[' then { s with mode := .row } else { s with mode := .bad }
  | .done => if ch = ')' ∨ ch = ';' then s else { s with mode := .bad }
  | .bad => s

/-- The rows of a text, `none` if it is not a matrix. -/
def readMaple (text : List Char) : Option (List (List (List Char))) :=
  if text.take 8 = "Matrix([".toList then
    let s := (text.drop 8).foldl mapleStep ⟨.start, [], [], []⟩
    if s.mode = .done then some s.rows else none
  else none

/-- Text of a number: no comma, no closing bracket. -/
def Plain (t : List Char) : Prop := ∀ c ∈ t, c ≠ ',' ∧ c ≠ ']'

/-- A text without its blanks and line ends. -/
def strip (t : List Char) : List Char := t.filter fun c => c ≠ ' ' ∧ c ≠ '\n'

end Spec
end HPLLL
