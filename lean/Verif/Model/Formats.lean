import Mathlib.Data.List.Basic

/-
pixell/utils.py:2664-2716: patterns that match the output of a printf format. Strings are lists of characters; a regular expression
with backtracking is a function from a string to the list of its matches at the start of the string, in the order in which they are
tried, and the first one is the one used. `\w` and `\d` are taken to be ascii.
-/
namespace Pixell

/-- `X*` for a class X of characters: the longest match first. Used for utils.py:2664. -/
def splitsLong (p : Char → Bool) : List Char → List (List Char × List Char)
  | [] => [([], [])]
  | c :: s => if p c then ((splitsLong p s).map fun r => (c :: r.1, r.2)) ++ [([], c :: s)] else [([], c :: s)]

/-- The groups of format_regex, utils.py:2664, except for the size. -/
structure FmtSpec where
  name : List Char
  flags : List Char
  width : List Char
  prec : Option (List Char)
  typ : Char
  deriving DecidableEq

/-- `[ +0#-]`. Used for utils.py:2664. -/
def isFlag (c : Char) : Bool := c == ' ' || c == '+' || c == '0' || c == '#' || c == '-'

/-- `\w`. Used for utils.py:2664. -/
def isWordChar (c : Char) : Bool := c.isAlpha || c.isDigit || c == '_'

/-- The alternative `\([a-zA-Z]\w*\)` after its parenthesis. Used for utils.py:2664. -/
def nameAlt1 : List Char → List (List Char × List Char)
  | [] => []
  | c :: s => if c.isAlpha then (splitsLong isWordChar s).filterMap fun r =>
      match r.2 with
      | ')' :: b => some ('(' :: c :: r.1 ++ [')'], b)
      | _ => none
    else []

/-- The alternative `\(\d+` after its parenthesis. Used for utils.py:2664. -/
def nameAlt2 (s : List Char) : List (List Char × List Char) :=
  (splitsLong Char.isDigit s).filterMap fun r => if r.1 = [] then none else some ('(' :: r.1, r.2)

/-- `(\([a-zA-Z]\w*\)|\(\d+)`. Used for utils.py:2664. -/
def nameAlts : List Char → List (List Char × List Char)
  | '(' :: s => nameAlt1 s ++ nameAlt2 s
  | _ => []

/-- `\)?`. Used for utils.py:2664. -/
def parenAlts : List Char → List (List Char)
  | ')' :: s => [s, ')' :: s]
  | s => [s]

/-- `(\d*|\*)`. Used for utils.py:2664. -/
def widthAlts (s : List Char) : List (List Char × List Char) :=
  splitsLong Char.isDigit s ++ (match s with
    | '*' :: b => [(['*'], b)]
    | _ => [])

/-- `(\.\d+|\.\*)?`. Used for utils.py:2664. -/
def precAlts (s : List Char) : List (Option (List Char) × List Char) :=
  (match s with
    | '.' :: b => ((splitsLong Char.isDigit b).filterMap fun r => if r.1 = [] then none else some (some ('.' :: r.1), r.2)) ++
        (match b with
          | '*' :: b' => [(some ['.', '*'], b')]
          | _ => [])
    | _ => []) ++ [(none, s)]

/-- `(ll|[lhqL])?`. Used for utils.py:2664. -/
def sizeAlts (s : List Char) : List (List Char) :=
  (match s with
    | 'l' :: 'l' :: b => [b]
    | _ => []) ++ (match s with
    | c :: b => if c == 'l' || c == 'h' || c == 'q' || c == 'L' then [b] else []
    | _ => []) ++ [s]

/-- `(.)`. Used for utils.py:2664. -/
def typeAlts : List Char → List (Char × List Char)
  | c :: b => if c == '\n' then [] else [(c, b)]
  | [] => []

/-- All matches of format_regex, utils.py:2664, at the start of a string. -/
def specMatch : List Char → List (FmtSpec × List Char)
  | '%' :: s =>
    (nameAlts s).flatMap fun n => (parenAlts n.2).flatMap fun s => (splitsLong isFlag s).flatMap fun f =>
      (widthAlts f.2).flatMap fun w => (precAlts w.2).flatMap fun p => (sizeAlts p.2).flatMap fun s =>
        (typeAlts s).map fun t => (⟨n.1, f.1, w.1, p.1, t.1⟩, t.2)
  | _ => []

/-- re.sub(format_regex, subfun, format), utils.py:2670-2675; `fuel` is at least the length of the string. -/
def globLoop : Nat → List Char → List Char
  | 0, _ => []
  | _ + 1, [] => []
  | n + 1, c :: s =>
    match (specMatch (c :: s)).head? with
    | some (sp, rest) => (if sp.typ = '%' then ['%'] else ['*']) ++ globLoop n rest
    | none => c :: globLoop n s

/-- pixell/utils.py:2665-2675 (format_to_glob). -/
def formatToGlob (format : List Char) : List Char := globLoop (format.length + 1) format

/-- Regular expressions, by their meaning instead of their text. Used for utils.py:2677-2716. -/
inductive Rx where
  | eps
  | sat (p : Char → Bool)
  | seq (a b : Rx)
  | alt (a b : Rx)
  | star (a : Rx)

/-- The strings matched in full by a regular expression. Used for utils.py:2677-2716. -/
def Rx.lang : Rx → List Char → Prop
  | .eps, w => w = []
  | .sat p, w => ∃ c, w = [c] ∧ p c = true
  | .seq a b, w => ∃ u v, w = u ++ v ∧ a.lang u ∧ b.lang v
  | .alt a b, w => a.lang w ∨ b.lang w
  | .star a, w => ∃ ws : List (List Char), w = ws.flatten ∧ ∀ u ∈ ws, a.lang u

/-- One character. Used for utils.py:2677-2716. -/
def rxc (c : Char) : Rx := .sat fun d => d == c

/-- `.`. Used for utils.py:2690. -/
def rxAny : Rx := .sat fun d => d != '\n'

/-- X+. Used for utils.py:2677-2716. -/
def rxPlus (a : Rx) : Rx := .seq a (.star a)

/-- X?. Used for utils.py:2677-2716. -/
def rxOpt (a : Rx) : Rx := .alt a .eps

/-- `\d`. Used for utils.py:2677-2716. -/
def rxDigit : Rx := .sat Char.isDigit

/-- `\d+\.\d*e[+-]\d+`, with the letter given. Used for utils.py:2709-2712. -/
def rxExp (e : Char) : Rx :=
  .seq (rxPlus rxDigit) (.seq (rxc '.') (.seq (.star rxDigit) (.seq (rxc e) (.seq (.sat fun c => c == '+' || c == '-') (rxPlus rxDigit)))))

/-- The expression for an unsigned number, and whether it is an alternative at the top level of the group: then the sign belongs to
its first branch. `none` is a type without expression. See utils.py:2703-2713. -/
def rxNum (sp : FmtSpec) : Option (Rx × Option Rx) :=
  if sp.typ = 'd' ∨ sp.typ = 'i' ∨ sp.typ = 'u' ∨ ((sp.typ = 'f' ∨ sp.typ = 'F') ∧ sp.prec = some ['0']) then some (rxPlus rxDigit, none)
  else if sp.typ = 'o' then some (rxPlus (.sat fun c => '0' ≤ c && c ≤ '7'), none)
  else if sp.typ = 'x' then some (rxPlus (.sat fun c => c.isDigit || ('a' ≤ c && c ≤ 'f')), none)
  else if sp.typ = 'X' then some (rxPlus (.sat fun c => c.isDigit || ('A' ≤ c && c ≤ 'F')), none)
  else if sp.typ = 'f' then some (.seq (rxPlus rxDigit) (.seq (rxc '.') (.star rxDigit)), none)
  else if sp.typ = 'e' then some (rxExp 'e', none)
  else if sp.typ = 'E' then some (rxExp 'E', none)
  else if sp.typ = 'g' then some (.seq (rxPlus rxDigit) (rxOpt (.seq (rxc '.') (.star rxDigit))), some (rxExp 'e'))
  else if sp.typ = 'G' then some (.seq (rxPlus rxDigit) (rxOpt (.seq (rxc '.') (.star rxDigit))), some (rxExp 'E'))
  else none

/-- pixell/utils.py:2680-2715: what one conversion becomes; `none` is an error, of int(".*"[1:]) or because an object that is not a
string is returned. -/
def rxSpec (sp : FmtSpec) : Option Rx :=
  if sp.prec = some ['.', '*'] then none
  else if sp.typ = '%' then some (rxc '%')
  else if sp.typ = 's' then
    if '-' ∈ sp.flags then some (.seq (.star rxAny) (.star (rxc ' '))) else some (.seq (.star (rxc ' ')) (.star rxAny))
  else
    let omid := if '+' ∈ sp.flags then Rx.sat fun c => c == '+' || c == '-'
      else if ' ' ∈ sp.flags then Rx.sat fun c => c == ' ' || c == '-' else rxOpt (rxc '-')
    let prepad := if '-' ∈ sp.flags then Rx.eps else if '0' ∈ sp.flags then .star (rxc '0') else .star (rxc ' ')
    let postpad := if '-' ∈ sp.flags then Rx.star (rxc ' ') else .eps
    match rxNum sp with
    | none => none
    | some (num, none) => some (.seq prepad (.seq (.seq omid num) postpad))
    | some (num, some other) => some (.seq prepad (.seq (.alt (.seq omid num) other) postpad))

/-- A character copied to the expression without escape; only the period is treated as special. Used for utils.py:2716. -/
def rxRaw (c : Char) : Rx := if c = '.' then rxAny else rxc c

/-- re.sub(ireg, subfun, format), utils.py:2716: the pieces of the expression, one after the other. -/
def regexLoop : Nat → List Char → Option (List Rx)
  | 0, _ => some []
  | _ + 1, [] => some []
  | n + 1, c :: s =>
    let pre := (c :: s).takeWhile (· != '%')
    match (specMatch ((c :: s).dropWhile (· != '%'))).head? with
    | some (sp, rest) => do
      let mid ← rxSpec sp
      let post := rest.takeWhile (· != '%')
      let tl ← regexLoop n (rest.dropWhile (· != '%'))
      some (pre.map rxc ++ [mid] ++ post.map rxc ++ tl)
    | none => do
      let tl ← regexLoop n s
      some (rxRaw c :: tl)

/-- pixell/utils.py:2677-2716 (format_to_regex): the expression, piece by piece. -/
def formatToRegex (format : List Char) : Option Rx :=
  (regexLoop (format.length + 1) format).map fun l => l.foldr Rx.seq Rx.eps

end Pixell
