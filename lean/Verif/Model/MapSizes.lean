import Verif.Model.MapFilter
import Verif.Model.Geometry

/-
Sizes of pixels and maps, maps in Fourier space, resampling by splines: pixell/enmap.py:905-951,
1057-1100, 1187-1261, 2444-2461, 3096-3104, 3109-3126.
-/
namespace Pixell

/-! ### Fourier space -/

/-- np.fft.fftshift along an axis of n: the element i moves to i + n//2, cyclically. Used for enmap.py:3096-3099. -/
def fftShiftAxis {α : Type} (n : ℕ) (f : ℕ → α) (i : ℕ) : α := f ((i + (n - n / 2)) % n)

/-- np.fft.ifftshift. Used for enmap.py:3101-3104. -/
def ifftShiftAxis {α : Type} (n : ℕ) (f : ℕ → α) (i : ℕ) : α := f ((i + n / 2) % n)

/-- pixell/enmap.py:2456-2461 (lwcs), one axis: cdelt and crpix; crval is 0. `ext` is the signed extent. -/
noncomputable def lwcsCdelt (ext : ℝ) : ℝ := 2 * Real.pi / ext
def lwcsCrpix (n : ℕ) : ℕ := n / 2 + 1

/-- The coordinate of pixel i of the wcs of pixell/enmap.py:2456-2461 (linear, crval=0). -/
noncomputable def lwcsCoord (n : ℕ) (ext : ℝ) (i : ℕ) : ℝ := ((i : ℝ) + 1 - lwcsCrpix n) * lwcsCdelt ext

/-- The number of columns of pixell/enmap.py:1251-1254 (lrmap). -/
def lrmapCols (nx os : ℕ) : ℕ := min (nx * os) (nx / 2 + 1)

/-- pixell/enmap.py:1256-1261 (lpixsize) for signed extents. -/
noncomputable def lpixsize (ey ex : ℝ) : ℝ := (2 * Real.pi / ey) * (2 * Real.pi / ex)

/-! ### sizes -/

/-- pixell/enmap.py:923-928 (extent_subgrid): the wcs with nsub pixels in place of n, one axis. -/
def subgridWcs (w : Axis) (n nsub : ℕ) : Axis :=
  let step : ℚ := n / nsub
  { crval := w.crval, cdelt := w.cdelt * step, crpix := (w.crpix - 1 / 2) / step + 1 / 2 }

/-- pixell/enmap.py:943-950 (extent_subgrid): height and length from the mean ones and the area. -/
noncomputable def subgridExtent (area meanHeight meanLength : ℝ) : ℝ × ℝ :=
  let correction := Real.sqrt (area / (meanLength * meanHeight))
  (meanHeight * correction, meanLength * correction)

/-- pixell/enmap.py:1074-1098 (pixshapemap) for a projection that is not separable, signed=False: height and width of pixel
(i,j) from the coordinates of the corners. `c` is the cosine of the declination, positive at all corners. -/
def pixShapeGeneral (y x c : ℕ → ℕ → ℚ) (i j : ℕ) : ℚ × ℚ :=
  (|y (i + 1) (j + 1) - y i j|, |x (i + 1) (j + 1) - x i j| * (1 / 2 * (c (i + 1) (j + 1) + c i j)))

/-- np.min and np.max of a list. Used for utils.py:2047-2050 (minmax). -/
def listMin (l : List ℚ) : ℚ := l.tail.foldl min (l.headD 0)
def listMax (l : List ℚ) : ℚ := l.tail.foldl max (l.headD 0)

/-- pixell/enmap.py:1187-1195 (pixshapebounds): an array [{min,max},...] as two lists. `heights` and `widths` are those of all
rows or pixels; if not separable minmax has no axis. -/
def pixshapebounds (separable : Bool) (heights widths : List ℚ) : List ℚ × List ℚ :=
  if separable then ([listMin heights, listMin widths], [listMax heights, listMax widths])
  else ([listMin (heights ++ widths)], [listMax (heights ++ widths)])

/-! ### resampling -/

/-- pixell/enmap.py:3116-3124 (resample, method="spline"), one axis: the input pixel of output pixel p, and the wcs. -/
def splineResample (nin nout : ℕ) (off : ℚ) (corner : Bool) (w : Axis) (p : ℚ) : ℚ × Axis :=
  let off := if corner then off - (1 / 2 - 1 / 2 * ((nout : ℚ) / nin)) else off
  ((p - off) * ((nin : ℚ) / nout), scaleWcs w ((nout : ℚ) / nin) corner)

end Pixell
