import Verif.Model.Axes
import Verif.Model.PlotPrep
import Mathlib.Data.Nat.Digits.Defs
import Mathlib.Data.Nat.Log

/-
Which images enplot makes of the given maps, from which components, with which colour ranges and under which names
(enplot.py:90-192, 228-345).  Reading, drawing and writing are not modelled here.
-/
namespace Pixell

/-- `range(comm.rank,len(imaps),comm.size)`: the maps of one rank, enplot.py:128. -/
def plotRanks (nmap size rank : Nat) : List Nat := (List.range nmap).filter fun fi => decide (rank ≤ fi) && (fi - rank) % size = 0

/-- One image: its first component, its components `map[i:i+ngroup]` and the columns `crind:crind+ngroup` of the colour
ranges, enplot.py:147-175. -/
structure PlotImg where
  first : Nat
  comps : List Nat
  ranges : List Nat
  deriving DecidableEq

/-- `np.any(np.sort(I) != I)` is false: the index does not fall. See enplot.py:151-154. -/
def indexRises : List Nat → Bool
  | a :: b :: l => decide (a ≤ b) && indexRises (b :: l)
  | _ => true

/-- The loop over components, enplot.py:149-190: skipped ones do not advance crange_ind, the others advance it by one. -/
def plotGo (g : Nat) (sym : Bool) (N : List Nat) : List Nat → Nat → List PlotImg
  | [], _ => []
  | i :: is, ind =>
    if sym && !indexRises (unravel N i) then plotGo g sym N is ind
    else ⟨i, List.range' i (min g (N.prod - i)), List.range' ind (min g (N.prod - ind))⟩ :: plotGo g sym N is (ind + 1)

/-- All images of a map with the shape `N` before the pixels, enplot.py:143-149: `range(0, ncomp, ngroup)`. -/
def plotImages (rgb sym : Bool) (N : List Nat) : List PlotImg :=
  let g := if rgb then 3 else 1
  plotGo g sym N ((List.range ((N.prod + g - 1) / g)).map fun j => j * g) 0

/-- get_num_digits, enplot.py:651, with the exact logarithm. -/
def numDigits10 (n : Nat) : Nat := Nat.log 10 n + 1

/-- `"%0*d" % (w, n)`. See enplot.py:169. -/
def padDec (w n : Nat) : List Char :=
  let d := (Nat.digits 10 n).reverse.map Nat.digitChar
  List.replicate (w - d.length) '0' ++ d

/-- The "comp" part of a name, enplot.py:169. -/
def compText (N I : List Nat) : List Char :=
  if N = [] then []
  else '_' :: List.intercalate ['_'] (List.zipWith (fun n i => padDec (numDigits10 n) i) N I)

/-- The name of an image in the default format {dir}{pre}{base}{suf}{comp}{layer}.{ext}, enplot.py:159-172 without
layers. -/
def plotName (fname : List Char) (odir : Option (List Char)) (pre suf ext : List Char) (N : List Nat) (i : Nat) : List Char :=
  let s := splitFileName fname
  let dir := odir.getD s.1
  (if dir = ['.'] then [] else dir ++ ['/']) ++ pre ++ s.2.1 ++ suf ++ compText N (unravel N i) ++ ['.'] ++ ext

/-- How an option changes: enplot.py:104-121.  `strings` are the values that the option texts give it, `none` where it is
not mentioned; a keyword comes last. -/
def optValue {α : Type} (default : α) (strings : List (Option α)) (keyword : Option α) : α :=
  keyword.getD (strings.foldl (fun v s => s.getD v) default)

/-- What a text with `k` times a counted option (`action="count"`) gives: parsed without defaults, counting from zero.
See enplot.py:230-239, 314. -/
def countedText (k : Nat) : Option Nat := if k = 0 then none else some k

/-- Whether the grid is drawn, enplot.py:512, for texts with so many `-g` each; the default is 1 (enplot.py:261). -/
def gridShown (ks : List Nat) (keyword : Option Nat) : Bool := optValue 1 (ks.map countedText) keyword % 2 = 1

end Pixell
