import Mathlib.Algebra.Order.Ring.Rat
import Mathlib.Data.Rat.Floor

/-
Environment variables, text replacement and fractional offsets (utils.py).  `none` is an exception in `replaceText`.
-/
namespace Pixell

/-- `os.environ`: the value of each variable that is set. See utils.py:3546-3558. -/
abbrev Environ := String → Option String

/-- getenv, utils.py:3546-3549. -/
def getEnv (e : Environ) (name : String) (default : Option String) : Option String :=
  match e name with
  | some v => some v
  | none => default

/-- setenv, utils.py:3551-3558; `none` is the value None. -/
def setEnv (e : Environ) (name : String) (value : Option String) (keep : Bool) : Environ :=
  if (e name).isSome && keep then e
  else if (e name).isSome && value.isNone then fun k => if k = name then none else e k
  else match value with
    | some v => fun k => if k = name then some v else e k
    | none => e

/-- `str.replace` for a pattern that is not empty: from the left, without overlap.  `skip` characters of the last occurrence
are still to be left out. Used for utils.py:3481. -/
def replaceFrom (pat rep : List Char) : List Char → Nat → List Char
  | [], _ => []
  | _ :: s, skip + 1 => replaceFrom pat rep s skip
  | c :: s, 0 => if pat.isPrefixOf (c :: s) then rep ++ replaceFrom pat rep s (pat.length - 1) else c :: replaceFrom pat rep s 0

/-- replace, utils.py:3480-3483. -/
def replaceText (s pat rep : List Char) : Option (List Char) :=
  let o := replaceFrom pat rep s 0
  if o = s then none else some o

/-- hasoff, utils.py:1140-1144; Python's `% 1` is what is left of the floor. -/
def hasOff (val off tol : ℚ) : Bool :=
  let x := val - off + 1 / 2
  decide (|x - ⌊x⌋ - 1 / 2| < tol)

end Pixell
