import Mathlib.Data.List.Basic

/-
Splitting of file paths (utils.py:2036-2045), with os.path.normpath of POSIX systems.  A path is given by its number of
leading slashes and what is between the slashes after them.
-/
namespace Pixell

/-- One component in `os.path.normpath`; the components kept so far are a stack, newest first. Used for utils.py:2040. -/
def normStep (abs : Bool) (st : List String) (c : String) : List String :=
  if c = "" ∨ c = "." then st
  else if c ≠ ".." ∨ (abs = false ∧ st = []) ∨ st.head? = some ".." then c :: st
  else st.tail

/-- The components of `os.path.normpath(path)`. Used for utils.py:2040. -/
def normComps (abs : Bool) (comps : List String) : List String := (comps.foldl (normStep abs) []).reverse

/-- The leading slashes that normpath keeps: two of exactly two, one of any other number. Used for utils.py:2040. -/
def keptSlashes (slashes : Nat) : Nat := if slashes = 0 then 0 else if slashes = 2 then 2 else 1

/-- pathsplit, utils.py:2036-2045.  Splitting the normal path at its slashes and leaving out the first part gives an empty part for
a second slash, and for nothing after the slashes. -/
def pathSplit (slashes : Nat) (comps : List String) : List String :=
  let k := keptSlashes slashes
  let new := normComps (decide (0 < k)) comps
  if 0 < k then "/" :: (List.replicate (k - 1) "" ++ (if new = [] then [""] else new))
  else if new = [] then ["."] else new

end Pixell
