import Verif.Model.Interpol
import Mathlib.Analysis.SpecialFunctions.Log.Basic
import Mathlib.Analysis.Real.Sqrt

/-!
# The poles of the spline filter

`fortran/interpol.F90:104-115, 129-130`; `pixell/interpol.py:52, 110`.
-/

namespace Pixell

/-- The poles for each order (`fortran/interpol.F90:104-114`). -/
noncomputable def splinePole (order : ℕ) : List ℝ :=
  match order with
  | 2 => [√8 - 3]
  | 3 => [√3 - 2]
  | 4 => [√(664 - √438976) + √304 - 19, √(664 + √438976) - √304 - 19]
  | 5 => [√(67.5 - √4436.25) + √26.25 - 6.5, √(67.5 + √4436.25) - √26.25 - 6.5]
  | _ => []

/-- The number of terms kept, `ceiling(log(tolerance)/log(abs(p)))` (`fortran/interpol.F90:97,130`). -/
noncomputable def poleTerms (p : ℝ) : ℕ := ⌈Real.log 1e-15 / Real.log |p|⌉.toNat

/-- The poles with the number of terms kept. See interpol.F90:89-127. -/
noncomputable def splinePoles (order : ℕ) : List (ℝ × ℕ) :=
  (splinePole order).map fun p => (p, poleTerms p)

/-- The border names `map_coordinates` knows (`pixell/interpol.py:52`). -/
def borderOfName (s : String) : Option Border :=
  if s = "zero" then some .zero else if s = "nearest" then some .nearest
  else if s = "cyclic" then some .cyclic else if s = "mirror" then some .mirror
  else if s = "reflect" then some .mirror else none

/-- The border names `spline_filter` knows (`pixell/interpol.py:110`); `none` is a `KeyError`. -/
def filterBorderOfName (s : String) : Option Border :=
  if s = "zero" then some .zero else if s = "nearest" then some .nearest
  else if s = "cyclic" then some .cyclic else if s = "mirror" then some .mirror else none

/-- `map_coordinates` in spline mode with the prefilter, given the name of the border. See interpol.py:7-98. -/
noncomputable def mapCoordsNamed (order : ℕ) (border : String) (shape : List ℕ) (data : ℕ → ℝ)
    (pos : List ℝ) : Option ℝ := do
  let b ← borderOfName border
  let fb ← filterBorderOfName border
  pure (mapCoords .spline order b shape
    (fun g => filterAll fb (splinePoles order) shape (fun x => data (ravelRev shape x))
      (unravelRev shape g)) pos)

end Pixell
