import Mathlib.Analysis.SpecialFunctions.Trigonometric.Basic
import Mathlib.Algebra.BigOperators.Group.Finset.Basic

/-
Areas and extents of maps and of their pixels: enmap.area_cyl, extent_cyl, pixshapes_cyl, pixsizemap, area_contour and
pixsizemap_contour. Angles are real numbers in radians. In cylindrical maps the declination depends only on the row:
`dec k` is the declination of the edge between the rows k-1 and k, pix2sky at y = k - 1/2, and `none` is NaN. `dra` is
`cdelt[0]` in radians. Not modelled: the general method of pixshapemap, extent_subgrid.
-/
namespace Pixell

/-- `np.sort` of two numbers: NaN goes last. Used in pixell/enmap.py:986. -/
noncomputable def npSort2 : Option ℝ → Option ℝ → Option ℝ × Option ℝ
  | some a, some b => if a ≤ b then (some a, some b) else (some b, some a)
  | none, b => (b, none)
  | a, none => (a, none)

/-- Python's `max(a, b)` with b possibly NaN: a unless b > a. Used in pixell/enmap.py:963 and 987. -/
noncomputable def pyMaxNan (a : ℝ) : Option ℝ → ℝ
  | some b => if b > a then b else a
  | none => a

/-- Python's `min(a, b)` with b possibly NaN. Used in pixell/enmap.py:963 and 987. -/
noncomputable def pyMinNan (a : ℝ) : Option ℝ → ℝ
  | some b => if b < a then b else a
  | none => a

/-- enmap.area_cyl, pixell/enmap.py:984-988. -/
noncomputable def areaCyl (dec : Nat → Option ℝ) (dra : ℝ) (ny nx : Nat) : ℝ :=
  let d := npSort2 (dec 0) (dec ny)
  let dec1 := pyMaxNan (-Real.pi / 2) d.1
  let dec2 := pyMinNan (Real.pi / 2) d.2
  (Real.sin dec2 - Real.sin dec1) * |dra| * nx

/-- `dec1 <= dec2`, false if one of them is NaN. Used in pixell/enmap.py:961. -/
def leNan : Option ℝ → Option ℝ → Prop
  | some a, some b => a ≤ b
  | _, _ => False

open Classical in
/-- enmap.extent_cyl with signed=True, pixell/enmap.py:950-966; `none` where the code divides zero by zero. -/
noncomputable def extentCyl (dec : Nat → Option ℝ) (dra : ℝ) (ny nx : Nat) : Option (ℝ × ℝ) :=
  let up := leNan (dec 0) (dec ny)
  let dec1 := pyMaxNan (-Real.pi / 2) (if up then dec 0 else dec ny)
  let dec2 := pyMinNan (Real.pi / 2) (if up then dec ny else dec 0)
  let ysign : ℝ := if up then 1 else -1
  if dec2 - dec1 = 0 then none else
  let meanCos := (Real.sin dec2 - Real.sin dec1) / (dec2 - dec1)
  some ((dec2 - dec1) * ysign, nx * dra * meanCos)

/-- `np.clip(dec, -pi/2, pi/2)`, pixell/enmap.py:1114. -/
noncomputable def clipDec (d : ℝ) : ℝ := min (max d (-Real.pi / 2)) (Real.pi / 2)

/-- The declinations of the edges of the rows, pixell/enmap.py:1109-1114. NaN is replaced for the first and the last. -/
noncomputable def rowEdge (dec : Nat → Option ℝ) (cdelt1 : ℝ) (ny k : Nat) : Option ℝ :=
  let pole : ℝ := if 0 ≤ cdelt1 then Real.pi / 2 else -Real.pi / 2
  let d := match dec k with
    | some d => some d
    | none => if k = 0 then some (-pole) else if k = ny then some pole else none
  d.map clipDec

/-- enmap.pixshapes_cyl with signed=True for the row k, pixell/enmap.py:1102-1127; `none` is NaN. -/
noncomputable def pixShapeCyl (dec : Nat → Option ℝ) (cdelt1 dra : ℝ) (ny k : Nat) : Option (ℝ × ℝ) := do
  let e0 ← rowEdge dec cdelt1 ny k
  let e1 ← rowEdge dec cdelt1 ny (k + 1)
  let height := e1 - e0
  if height = 0 then none else
  some (height, dra * (Real.sin e1 - Real.sin e0) / height)

/-- enmap.pixsizemap for a cylindrical map in the row k, pixell/enmap.py:1150-1156. -/
noncomputable def pixSizeCyl (dec : Nat → Option ℝ) (cdelt1 dra : ℝ) (ny k : Nat) : Option ℝ :=
  (pixShapeCyl dec cdelt1 dra ny k).map fun s => |s.1| * |s.2|

/-- The difference of two right ascensions between -π and π, pixell/enmap.py:1045. -/
noncomputable def wrapRa (d : ℝ) : ℝ := d + Real.pi - 2 * Real.pi * ⌊(d + Real.pi) / (2 * Real.pi)⌋ - Real.pi

/-- The integral along one side of the boundary, pixell/enmap.py:1037-1046. `dec` and `ra` are functions of the pixel
coordinates y and x. -/
noncomputable def contourSide (dec ra : ℝ → ℝ → ℝ) (nsamp : Nat) (v0 v1 : ℝ × ℝ) : ℝ :=
  let pos (i : Nat) : ℝ × ℝ := ((i : ℝ) / ((nsamp : ℝ) - 1) * (v1.1 - v0.1) + v0.1, (i : ℝ) / ((nsamp : ℝ) - 1) * (v1.2 - v0.2) + v0.2)
  ∑ i ∈ Finset.range (nsamp - 1),
    (1 - Real.sin ((clipDec (dec (pos (i + 1)).1 (pos (i + 1)).2) + clipDec (dec (pos i).1 (pos i).2)) / 2)) *
      wrapRa (ra (pos (i + 1)).1 (pos (i + 1)).2 - ra (pos i).1 (pos i).2)

/-- enmap.area_contour, pixell/enmap.py:990-1047, where the outer edges of the map have coordinates. Vertices are given as
(y,x). -/
noncomputable def areaContour (dec ra : ℝ → ℝ → ℝ) (nsamp ny nx : Nat) : ℝ :=
  let a : ℝ × ℝ := (-1 / 2, -1 / 2)
  let b : ℝ × ℝ := (-1 / 2, nx - 1 / 2)
  let c : ℝ × ℝ := (ny - 1 / 2, nx - 1 / 2)
  let d : ℝ × ℝ := (ny - 1 / 2, -1 / 2)
  |contourSide dec ra nsamp a b + contourSide dec ra nsamp b c + contourSide dec ra nsamp c d + contourSide dec ra nsamp d a|

/-- The area of the pixel (y,x) in enmap.pixsizemap_contour before taking its absolute value, pixell/enmap.py:1168-1183; `dec` and
`ra` are the positions of the corners. -/
noncomputable def contourPixel (dec ra : Nat → Nat → ℝ) (y x : Nat) : ℝ :=
  let msin (y x : Nat) := 1 - Real.sin (clipDec (dec y x))
  (ra (y + 1) x - ra y x) * (msin (y + 1) x + msin y x) / 2 +
  (ra (y + 1) (x + 1) - ra (y + 1) x) * (msin (y + 1) (x + 1) + msin (y + 1) x) / 2 +
  (ra y (x + 1) - ra (y + 1) (x + 1)) * (msin y (x + 1) + msin (y + 1) (x + 1)) / 2 +
  (ra y x - ra y (x + 1)) * (msin y x + msin y (x + 1)) / 2

/-- enmap.pixsizemap_contour, pixell/enmap.py:1161-1185: blocks of bsize rows; the corners of a block are those of the map, so that
the blocks do not matter. -/
noncomputable def pixSizeContour (dec ra : Nat → Nat → ℝ) (y x : Nat) : ℝ := |contourPixel dec ra y x|

/-- enmap.area_intermediate, pixell/enmap.py:980-982, and pixsizemap for plain coordinates, pixell/enmap.py:1148-1149; `unit` is a
degree. -/
noncomputable def areaPlain (cdelt0 cdelt1 unit : ℝ) (ny nx : Nat) : ℝ := |(ny : ℝ) * nx * cdelt0 * cdelt1 * unit ^ 2|
noncomputable def pixSizePlain (cdelt0 cdelt1 unit : ℝ) : ℝ := |cdelt0 * cdelt1| * unit ^ 2

end Pixell
