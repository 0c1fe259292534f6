import Verif.Model.Sort
import Verif.Model.SysText
import Mathlib.Data.Rat.Floor

/-
pixell/enplot.py and fortran/array_ops.F90: the levels of contours and the pixels they are drawn in.
Pixels are rational numbers, `none` for NaN. float() of a text is a parameter.
-/
namespace Pixell

/-- setup_uniform, pixell/enplot.py:721-732. `none`: division by zero. -/
def uniformLevels (c0 c1 : ℚ) (vals : List ℚ) : Option (List ℚ) :=
  let bs : Option (ℚ × ℚ) := match vals with
    | [] => none
    | [s] => some (0, s)
    | b :: s :: _ => some (b, s)
  match bs with
  | none => none
  | some (base, step) =>
    let step := if step < 0 then (c1 - c0) / (-step) else step
    if step = 0 then none
    else
      let a := ⌈(c0 - base) / step⌉
      let b := ⌊(c1 - base) / step⌋ + 1
      some ((List.range (b - a).toNat).map fun (i : ℕ) => ((a + i : ℤ) : ℚ) * step + base)

/-- pixell/enplot.py:710-747 (calc_contours) for a text, and a range of one component. -/
def calcContours (num : List Char → Option ℚ) (c0 c1 : ℚ) (desc : List Char) : Option (List ℚ) :=
  let vals := strSplit ',' desc
  if 1 < vals.length then (vals.filter fun v => 0 < v.length).mapM num
  else (strSplit ':' desc).mapM num >>= uniformLevels c0 c1

/-- The bin of a value, counted from one. NaN is in the first one. See fortran/array_ops.F90:73-95. -/
def contourBin (vals : List ℚ) : Option ℚ → ℕ
  | none => 1
  | some v =>
    let right : Bool := match vals with
      | [] => true
      | w :: _ => v < w
    if right then 1 else vals.findIdx (fun w => decide (v < w)) + 1

/-- fortran/array_ops.F90:59-109 (find_contours), counted from zero: the number of the level drawn at a pixel, or zero. -/
def findContours (vals : List ℚ) (ny nx : ℕ) (m : ℕ → ℕ → Option ℚ) (y x : ℕ) : ℕ :=
  let w := fun (y x : ℕ) => contourBin vals (m y x)
  if y + 1 < ny ∧ x + 1 < nx then
    if w y x ≠ w (y + 1) x then min (w y x) (w (y + 1) x)
    else if w y x ≠ w y (x + 1) then min (w y x) (w y (x + 1))
    else 0
  else 0

/-- pixell/enplot.py:749-765 (draw_contours) before the colours, with a width of one: the value given a colour, or `none` for transparent. The
order is always undone, which does nothing if there is nothing to undo. -/
def drawContours (contours : List ℚ) (ny nx : ℕ) (m : ℕ → ℕ → Option ℚ) (y x : ℕ) : Option ℚ :=
  let inds := argsort (fun (a b : ℚ) => decide (a ≤ b)) contours
  let c := findContours (inds.filterMap fun (i : ℕ) => contours[i]?) ny nx m y x
  if c = 0 then none
  else match inds[c - 1]? with
    | none => none
    | some i => some (if 1 < contours.length then (i : ℚ) / ((contours.length : ℚ) - 1) else i)

end Pixell
