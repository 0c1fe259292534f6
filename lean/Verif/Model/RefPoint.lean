import Verif.Model.Geometry
import Mathlib.Analysis.SpecialFunctions.Trigonometric.Basic
import Mathlib.Analysis.SpecialFunctions.Sqrt

/-
pixell/wcsutils.py and pixell/enmap.py: moving the reference point of a geometry, matrices in the wcs, and the extent of
the full sky. Rational numbers for the linear part; real numbers for the extent.
-/
namespace Pixell

/-- The part of a wcs used by pixell/wcsutils.py:170-181 and 334-346: the projection and the two axes. -/
structure CylWcs where
  proj : String
  x : Axis
  y : Axis
deriving DecidableEq

/-- pixell/wcsutils.py:170-172. -/
def CylWcs.isCyl (w : CylWcs) : Bool := w.proj ∈ ["cyp", "cea", "car", "mer"]

/-- pixell/wcsutils.py:174-175. -/
def CylWcs.isSep (w : CylWcs) : Bool := w.isCyl && w.y.crval = 0

/-- The mode of pixell/enmap.py:1796-1805. -/
inductive RecenterMode where
  | auto | yes | no
deriving DecidableEq

/-- pixell/enmap.py:1789-1805 (recenter_geo, with recenter_cyl and pixell/wcsutils.py:334-343). `none`: ValueError. -/
def recenterGeo (nx : ℕ) (w : CylWcs) (mode : RecenterMode) : Option CylWcs :=
  let go := match mode with
    | .auto => w.isSep
    | .yes => true
    | .no => false
  if go then (if w.isSep then some { w with x := recenterX w.x (((nx : ℚ) - 1) / 2 + 1) } else none) else some w

/-- A 2×2 matrix (wcs.cd or wcs.pc). Used for wcsutils.py:629-638. -/
structure WcsMat where
  xx : ℚ
  xy : ℚ
  yx : ℚ
  yy : ℚ
deriving DecidableEq

/-- The linear part of a wcs: steps and matrices. Used for wcsutils.py:629-638. -/
structure WcsLin where
  dx : ℚ
  dy : ℚ
  cd : Option WcsMat
  pc : Option WcsMat
deriving DecidableEq

/-- FITS: intermediate coordinates of a pixel offset (px,py). A cd matrix replaces steps and pc; without both the pc matrix
is one. Used for wcsutils.py:629-638. -/
def WcsLin.apply (w : WcsLin) (px py : ℚ) : ℚ × ℚ :=
  match w.cd, w.pc with
  | some m, _ => (m.xx * px + m.xy * py, m.yx * px + m.yy * py)
  | none, some m => (w.dx * (m.xx * px + m.xy * py), w.dy * (m.yx * px + m.yy * py))
  | none, none => (w.dx * px, w.dy * py)

/-- pixell/wcsutils.py:629-638 (fix_cdelt). -/
def fixCdelt (w : WcsLin) : WcsLin :=
  match w.cd, w.pc with
  | some m, _ => ⟨w.dx * m.xx, w.dy * m.yy, none, none⟩
  | none, some m => ⟨w.dx * m.xx, w.dy * m.yy, none, none⟩
  | none, none => w

open Real in
/-- pixell/wcsutils.py:224-245 (default_extent, the extents along x and y in degrees). `none`: ValueError. -/
noncomputable def defaultExtent (sys : String) : Option (ℝ × ℝ) :=
  if sys = "" ∨ sys = "plain" then some (1, 1)
  else if sys = "car" then some (360, 180)
  else if sys = "cea" then some (360, 360 / π)
  else if sys = "mer" then some (360, 360)
  else if sys = "arc" then some (360, 360)
  else if sys = "zea" then some (720 / π, 720 / π)
  else if sys = "sin" then some (360 / π, 360 / π)
  else if sys = "tan" then some (360, 360)
  else if sys = "mol" then some (720 * √2 / π, 360 * √2 / π)
  else if sys = "ait" then some (720 * √2 / π, 360 * √2 / π)
  else none

end Pixell
