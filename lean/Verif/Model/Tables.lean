import Verif.Model.Index
import Mathlib.Data.Rat.Floor

/-
Bunches into a bunch of arrays (bunch.py:154-172), tables joined by columns (analysis.py:1065-1075) and flattened views
(utils.py:497-520).  `none` is an exception.
-/
namespace Pixell

/-- A value of a bunch: a whole number, a number or a text. Used for bunch.py:154-172. -/
inductive CellVal
  | int (n : ℤ)
  | num (q : ℚ)
  | text (s : List Char)
  deriving DecidableEq

/-- One element of `new[:] = tmp`, bunch.py:168-170: `new` has the type of the first value (and the width of the first
text), and numbers in `tmp` are whole only if all are.  Texts among numbers are not modelled (`none`). -/
def castLike (first v : CellVal) : Option CellVal :=
  match first, v with
  | .int _, .int n => some (.int n)
  | .int _, .num q => some (.int (if q < 0 then ⌈q⌉ else ⌊q⌋))
  | .num _, .int n => some (.num n)
  | .num _, .num q => some (.num q)
  | .text f, .text s => some (.text (s.take f.length))
  | _, _ => none

/-- concatenate, bunch.py:154-172, for bunches as lists of keys and values. -/
def bunchConcat (bunches : List (List (String × CellVal))) : Option (List (String × List CellVal)) := do
  let first ← bunches.head?
  first.mapM fun kv => do
    let vals ← bunches.mapM fun b => (b.find? fun p => p.1 == kv.1).map Prod.snd
    let f ← vals.head?
    let new ← vals.mapM (castLike f)
    some (kv.1, new)

/-- `res[key] = a[key]` into a column of length n: numpy repeats a single value. Used for analysis.py:1073-1074. -/
def fillColumn {α : Type} (n : Nat) (col : List α) : Option (List α) :=
  if col.length = n then some col
  else match col with
    | [x] => some (List.replicate n x)
    | _ => none

/-- merge_arrays, analysis.py:1065-1075, for tables as lists of named columns: all rows of the first table. Repeated names
are refused by numpy. -/
def mergeTables {α : Type} (tables : List (List (String × List α))) : Option (List (String × List α)) := do
  let first ← tables.head?
  let n := (first.head?.map fun c => c.2.length).getD 0
  let cols := tables.flatten
  if (cols.map Prod.fst).Nodup then cols.mapM fun c => (fillColumn n c.2).map fun v => (c.1, v) else none

/-- Writing values at positions, one after the other: the body of `with flatview(arr) as flat`. See utils.py:497-503. -/
def writeAll {α : Type} (a : List α) (ws : List (Nat × α)) : List α := ws.foldl (fun a w => a.set w.1 w.2) a

/-- flatview, utils.py:497-520: what is in the array after the body has written `ws` to the flattened array.  Element `i`
of the flattened array is element `p[i]` of the array; `view` tells whether numpy can flatten without copying, `contig`
whether the flattened array is contiguous. -/
def flatView {α : Type} (a : List α) (p : List Nat) (view contig : Bool) (mode : List Char) (ws : List (Nat × α)) : List α :=
  if view && (contig || !mode.contains 'c') then writeAll a (ws.filterMap fun w => p[w.1]?.map fun j => (j, w.2))
  else if mode.contains 'w' then writeAll a (p.zip (writeAll (p.filterMap fun j => a[j]?) ws))
  else a

end Pixell
