import Verif.Model.Angles
import Mathlib.Data.Rat.Floor

/-
Annotations of plots (enplot.draw_annotations, enplot.py:774-841): where they are drawn, and which are skipped.
-/
namespace Pixell

/-- `.astype(int)` of a pixel coordinate, enplot.py:792. -/
def annotPix (q : ℚ) : ℤ := if 0 ≤ q then ⌊q⌋ else ⌈q⌉

/-- skippable, enplot.py:793-796. -/
def skippable (rmax : ℤ) (nx ny : Nat) (x y : ℤ) : Bool :=
  if rmax = 0 then false
  else decide (x ≤ -rmax) || decide (y ≤ -rmax) || decide (x ≥ (nx : ℤ) - 1 + rmax) || decide (y ≥ (ny : ℤ) - 1 + rmax)

/-- The pixels of a turn, enplot.py:815. -/
def turnPixels (cdelt : ℚ) : ℤ := rint |360 / cdelt|

/-- The horizontal ends of a line, enplot.py:816. -/
def lineEnds (nphi : ℤ) (x1 x2 : ℤ) : List ℚ := unwind [(x1 : ℚ), (x2 : ℚ)] nphi ((nphi / 2 : ℤ) : ℚ)

/-- A pixel of the outline of a rectangle as PIL draws it, for enplot.py:826. -/
def onOutline (x1 y1 x2 y2 x y : ℤ) : Bool :=
  decide (x1 ≤ x) && decide (x ≤ x2) && decide (y1 ≤ y) && decide (y ≤ y2) && (x == x1 || x == x2 || y == y1 || y == y2)

/-- The rectangle of an annotation, enplot.py:823-826: the pixels that get its colour.  PIL refuses rectangles whose corners are in
the wrong order (`none`). -/
def drawRect (width : Nat) (x1 y1 x2 y2 : ℤ) : Option (ℤ → ℤ → Bool) :=
  let (x1, x2) := if x2 < x1 then (x2, x1) else (x1, x2)
  let (y1, y2) := if y2 < y1 then (y2, y1) else (y1, y2)
  if (List.range width).all fun i => decide (x1 + i ≤ x2 - i) && decide (y1 + i ≤ y2 - i) then
    some fun x y => (List.range width).any fun i => onOutline (x1 + i) (y1 + i) (x2 - i) (y2 - i) x y
  else none

end Pixell
