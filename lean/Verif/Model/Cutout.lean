import Verif.Model.Num
import Mathlib.Analysis.SpecialFunctions.Trigonometric.Basic

/-
pixell/reproject.py: square cutouts around a position, and the exact areas of the pixels of cylindrical maps.
The position is given by its pixel coordinates, rational numbers; declinations are real numbers, linear in the row.
-/
namespace Pixell

/-- The rows or columns of the slice, fround(iy-npix/2.+0.5):fround(iy+npix/2.+0.5). See pixell/reproject.py:785-786. -/
def cutRange (p : ℚ) (npix : ℤ) : ℤ × ℤ := (rint (p - npix / 2 + 1 / 2), rint (p + npix / 2 + 1 / 2))

/-- The check of the edges along one axis with n pixels, pixell/reproject.py:780-782. -/
def cutRefused (n : ℕ) (npix pad : ℤ) (p : ℚ) : Bool := rint (p - npix / 2) < pad || rint (p + npix / 2) > n - pad

/-- One end of a slice with unit step of an axis with n elements. numpy, for reproject.py:793. -/
def sliceEnd (n : ℕ) (i : ℤ) : ℤ := if i < 0 then max (i + n) 0 else min i n

/-- What cutout is given: a map or the path of one. See reproject.py:768-771. -/
inductive CutArg where
  | map | path
deriving DecidableEq

/-- A window of a map: first pixel and number of pixels along an axis. Used for reproject.py:793. -/
structure CutWin where
  first : ℤ
  count : ℕ
deriving DecidableEq

/-- What cutout returns. Used for reproject.py:783-794. -/
inductive CutRes where
  | nothing
  | slices (y x : ℤ × ℤ)
  | window (y x : CutWin)
  | raised
deriving DecidableEq

/-- The pixels of an axis that a slice selects. numpy, for reproject.py:793. -/
def cutWindow (n : ℕ) (r : ℤ × ℤ) : CutWin := ⟨sliceEnd n r.1, (sliceEnd n r.2 - sliceEnd n r.1).toNat⟩

/-- pixell/reproject.py:766-794 (cutout) for the pixel coordinates (iy,ix) of the position and a number of pixels, without
sindex. A text is sliced with a tuple, which raises. -/
def cutout (arg : CutArg) (ny nx : ℕ) (npix pad : ℤ) (iy ix : ℚ) (returnSlice : Bool) : CutRes :=
  if cutRefused ny npix pad iy || cutRefused nx npix pad ix then .nothing
  else if returnSlice then .slices (cutRange iy npix) (cutRange ix npix)
  else match arg with
    | .path => .raised
    | .map => .window (cutWindow ny (cutRange iy npix)) (cutWindow nx (cutRange ix npix))

/-- The declination of row y, with the declination d0 of row 0 and the step dd. Used for reproject.py:810-815. -/
noncomputable def rowDec (d0 dd y : ℝ) : ℝ := d0 + dd * y

/-- The row of a declination. Used for reproject.py:810-811. -/
noncomputable def decRow (d0 dd dec : ℝ) : ℝ := (dec - d0) / dd

/-- pixell/reproject.py:806-817 (get_pixsize_rect) for row y, with the width cx of the pixels in radians. -/
noncomputable def rectArea (d0 dd cx : ℝ) (y : ℝ) : ℝ :=
  let ymin := decRow d0 dd (-Real.pi / 2)
  let ymax := decRow d0 dd (Real.pi / 2)
  let dec1 := rowDec d0 dd (max ymin (y - 1 / 2))
  let dec2 := rowDec d0 dd (min ymax (y + 1 / 2))
  |(Real.sin dec2 - Real.sin dec1) * cx|

end Pixell
