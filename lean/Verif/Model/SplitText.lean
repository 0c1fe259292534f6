import Verif.Model.Store

/-
Splitting of strings outside groups (pixell/utils.py).
-/
namespace Pixell

/-- `s.find(c)` for one character: its first place, `none` for -1 (utils.py:1941). -/
def strFind (s : List Char) (c : Char) : Option Nat := s.idxOf? c

/-- The state of the loop of split_by_group, utils.py:1930-1953: the finished segments, the last one (characters added with
`res[-1] += c`), whether a new segment is to be started, the kind and the depth of the group. -/
structure GroupSt where
  done : List (List Char)
  last : Option (List Char)
  new : Bool
  ind : Nat
  n : Nat

/-- `res.append("")`, utils.py:1939,1945. -/
def GroupSt.append (s : GroupSt) : GroupSt := { s with done := s.done ++ s.last.toList, last := some [] }

/-- One character, utils.py:1937-1952; `none` is an IndexError, if `end` is shorter than `start`. -/
def groupStep (start stop : List Char) (s : GroupSt) (c : Char) : Option GroupSt := do
  let s := if s.new then { s.append with new := false } else s
  let s ←
    if s.n = 0 then
      match strFind start c with
      | some i => some { s.append with ind := i, n := s.n + 1 }
      | none => some s
    else if start[s.ind]? = some c then some { s with n := s.n + 1 }
    else match stop[s.ind]? with
      | none => none
      | some e =>
        if e = c then
          let n := s.n - 1
          some { s with n := n, new := if n = 0 then true else s.new }
        else some s
  return { s with last := some (s.last.getD [] ++ [c]) }

/-- split_by_group, utils.py:1930-1953. -/
def splitByGroup (start stop : List Char) (a : List Char) : Option (List (List Char)) :=
  (a.foldlM (groupStep start stop) ⟨[], none, true, 0, 0⟩).map fun s => s.done ++ s.last.toList

/-- One segment in split_outside, utils.py:1960-1968; the result so far is non-empty, with the last element kept apart. -/
def outsideStep (start : List Char) (sep : Char) (res : List (List Char) × List Char) (seg : List Char) : List (List Char) × List Char :=
  match seg with
  | [] => res
  | c :: _ =>
    if c ∈ start then (res.1, res.2 ++ seg)
    else
      match pySplit sep seg with
      | [] => res
      | t :: ts => match ts.getLast? with
        | none => (res.1, res.2 ++ t)
        | some z => (res.1 ++ (res.2 ++ t) :: ts.dropLast, z)

/-- split_outside, utils.py:1955-1969, with a separator of one character. -/
def splitOutside (start stop : List Char) (sep : Char) (a : List Char) : Option (List (List Char)) :=
  (splitByGroup start stop a).map fun segs =>
    let r := segs.foldl (outsideStep start sep) ([], [])
    r.1 ++ [r.2]

end Pixell
