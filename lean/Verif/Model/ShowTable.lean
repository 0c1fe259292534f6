import Mathlib.Data.List.Basic
import Mathlib.Data.List.TakeDrop

/-
Printing of database tables (pixell/sqlite.py:32-60).  `none` is an exception.  Fields are given as their texts.
-/
namespace Pixell

/-- The widths of the columns, pixell/sqlite.py:53-56; rows of a query all have as many fields as the first. -/
def colWidths (rows : List (List (List Char))) : List Nat :=
  (List.range (rows.headD []).length).map fun j => (rows.map fun r => (r.getD j []).length).foldl max 0

/-- `"%5s" % s`. Used for pixell/sqlite.py:57. -/
def padLeft (w : Nat) (s : List Char) : List Char := List.replicate (w - s.length) ' ' ++ s

/-- format_result, pixell/sqlite.py:47-60, as a list of lines.  The first row of nothing raises (53). -/
def formatResult (result : List (List (List Char))) (limit : Option Nat) : Option (List (List Char)) :=
  let limit := limit.getD result.length
  if result = [] then some ["<empty>".toList]
  else
    let trunc := decide (limit < result.length)
    let result := if trunc then result.take limit else result
    if result = [] then none
    else
      let widths := colWidths result
      let lines := result.map fun row => List.intercalate [' '] (List.zipWith padLeft widths row)
      some (if trunc then lines ++ ["...".toList] else lines)

/-- show, pixell/sqlite.py:32-45, for a query that would give `rows` and has the given limit clause: the keyword as it is
written, and the number.  A second limit after one that is not recognised is a syntax error. -/
def showTable (rows : List (List (List Char))) (clause : Option (String × Nat)) (limit : Nat) : Option (List (List Char)) :=
  match clause with
  | none => formatResult (rows.take (limit + 1)) (some limit)
  | some (word, k) =>
    if word = "limit" ∨ word = "LIMIT" then formatResult (rows.take k) (some (rows.take k).length) else none

end Pixell
