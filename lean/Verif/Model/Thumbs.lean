import Verif.Model.Apod
import Verif.Model.Neighborhood

/-
pixell/reproject.py:11-123: thumbnails without oversampling and with linear interpolation (order=1), as thumbnails_ivar
uses them; one component without rotation of polarization, cylindrical maps, real numbers. The place in the map that
belongs to a pixel of the thumbnail is an argument.
-/
namespace Pixell
open Real

/-- pixell/reproject.py:72-73 with pixell/enmap.py:786-791: the range of pixels along one axis around the angle a, `half`
on each side (rtot along dec; rtot divided by the smallest cosine along ra). -/
noncomputable def thumbRange (c0 step a half : ℝ) : ℤ × ℤ := nbRange c0 step (a - half) (a + half)

/-- pixell/reproject.py:72: the width of the apodization in pixels. `cmin` is the smaller pixel size of the two axes. -/
noncomputable def thumbApod (apod cmin : ℝ) : ℤ := rintReal (apod / cmin)

/-- scipy.ndimage.map_coordinates of order 1 with mode="constant" and cval=0 in two dimensions. Used for
pixell/reproject.py:104. -/
noncomputable def bilinConst (ny nx : ℕ) (f : ℕ → ℕ → ℝ) (y x : ℝ) : ℝ :=
  if (0 ≤ y ∧ y ≤ (ny : ℝ) - 1) ∧ (0 ≤ x ∧ x ≤ (nx : ℝ) - 1) then
    let i := ⌊y⌋₊
    let j := ⌊x⌋₊
    let u := y - i
    let v := x - j
    (1 - u) * ((1 - v) * f i j + v * f i (j + 1)) + u * ((1 - v) * f (i + 1) j + v * f (i + 1) (j + 1))
  else 0

/-- pixell/reproject.py:81-109: the value of a pixel of the thumbnail. `ext` is the extracted part of the map, `isz` its
pixel sizes, `med` the median after the division, `osz` the size of the thumbnail's pixel, (y,x) its place in the extracted
part. `none`: apod raises an exception. -/
noncomputable def thumbValue (extensive : Bool) (ny nx : ℕ) (w : ℤ) (med : ℝ) (ext isz : ℕ → ℕ → ℝ) (osz y x : ℝ) :
    Option ℝ :=
  let t : ℕ → ℕ → ℝ := fun (i j : ℕ) => if extensive then ext i j / isz i j else ext i j
  (apodMap apodProfileCos .median med ny nx w w t).map fun a =>
    if extensive then bilinConst ny nx a y x * osz else bilinConst ny nx a y x

end Pixell
