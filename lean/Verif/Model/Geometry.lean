import Mathlib.Data.Rat.Floor
import Mathlib.Tactic.Ring
import Verif.Spec.PySeq
/-
Model of the per-axis geometry arithmetic of pixell.  A WCS axis is linear, numbers are exact
rationals; the two axes of a map are treated independently by the code, so one axis is modelled.
-/
namespace Pixell
open PySpec (Slice)

/-- One axis of a linear WCS.  Mirrors the fields `wcs.wcs.crval/cdelt/crpix` used throughout
pixell (e.g. enmap.py:264-284). -/
structure Axis where
  crval : ℚ
  cdelt : ℚ
  crpix : ℚ
deriving DecidableEq

/-- Sky coordinate of the (0-based, possibly fractional) pixel coordinate `p`.
Plate carree part of enmap.pix2sky (enmap.py:483-494) / cmisc_core.c:302-305
(`ra = (x-x0)*dra + ra0`, `x0 = crpix-1`). -/
def Axis.pix2sky (w : Axis) (p : ℚ) : ℚ := (p - (w.crpix - 1)) * w.cdelt + w.crval

/-- Pixel coordinate of a sky coordinate, without the final rewind.
cmisc_core.c:297-300 (`x = (ra-ra0)/dra + x0`). -/
def Axis.sky2pix (w : Axis) (s : ℚ) : ℚ := (s - w.crval) / w.cdelt + (w.crpix - 1)

/-- `sel.step or 1` (utils.py:2839): both `None` and `0` become 1. -/
def effStep : Option Int → Int
  | none => 1
  | some s => if s = 0 then 1 else s

/-- The inner function `cycle` of utils.expand_slice (utils.py:2840-2842). -/
def cycle (nowrap : Bool) (n i : Int) : Int :=
  if nowrap then i else if 0 ≤ i then min i n else n + i

/-- utils.expand_slice, utils.py:2834-2846.  Because of `sel.step or 1` the code's own test for a
zero step never fires, so there is no error branch. -/
def expandSlice (sel : Slice) (n : Int) (nowrap : Bool := false) : Int × Int × Int :=
  let step := effStep sel.step
  if 0 < step then
    (cycle nowrap n (sel.start.getD 0), cycle nowrap n (sel.stop.getD n), step)
  else
    (cycle nowrap n (sel.start.getD (n - 1)),
     (match sel.stop with | some i => cycle nowrap n i | none => -1), step)

/-- The WCS update of enmap.slice_geometry (enmap.py:273-279) for an expanded slice. -/
def sliceWcs (w : Axis) (sstart step : Int) : Axis :=
  let start : ℚ := if 0 < step then sstart else sstart + 1
  { crval := w.crval
    cdelt := w.cdelt * step
    crpix := (w.crpix - (start + 1/2)) / step + 1/2 }

/-- enmap.slice_geometry, enmap.py:264-284, one axis: output length and WCS.  `//` is Python floor
division. -/
def sliceGeometry (n : Int) (w : Axis) (sel : Slice) (nowrap : Bool := false) : Int × Axis :=
  let e := expandSlice sel n nowrap
  let sstart := e.1; let sstop := e.2.1; let step := e.2.2
  (Int.fdiv (sstop - sstart + step - Int.sign step) step, sliceWcs w sstart step)

/-- wcsutils.scale, wcsutils.py:188-204, one axis. -/
def scaleWcs (w : Axis) (f : ℚ) (corner : Bool := true) : Axis :=
  let c := if corner then w.crpix - 1/2 else w.crpix
  let c := c * f
  { crval := w.crval
    cdelt := w.cdelt / f
    crpix := if corner then c + 1/2 else c }

/-- enmap.downgrade_geometry, enmap.py:2038-2046, one axis (`factor` a positive integer). -/
def downgradeGeometry (n : Nat) (w : Axis) (factor : Nat) : Nat × Axis :=
  (n / factor, scaleWcs w (1 / (factor : ℚ)))

/-- The WCS part of enmap.pad (enmap.py:2254-2255) and curvedsky.pad_geometry
(curvedsky.py:1215-1221): `crpix += pix[0]`. -/
def padWcs (w : Axis) (p : Int) : Axis := { w with crpix := w.crpix + p }

/-- The WCS part of enmap.shift (enmap.py:3085-3086): `crpix += off`. -/
def shiftWcs (w : Axis) (off : Int) : Axis := { w with crpix := w.crpix + off }

/-- enmap.crop_geometry for an integer pixel box (enmap.py:2075-2078). -/
def cropGeometry (w : Axis) (b0 b1 : Int) : Nat × Axis :=
  ((b1 - b0).natAbs, { w with crpix := w.crpix - b0 })

/-- wcsutils.recenter_cyl_x, wcsutils.py:334-343: the reference pixel becomes `x`. -/
def recenterX (w : Axis) (x : ℚ) : Axis :=
  { w with crpix := x, crval := w.crval + (x - w.crpix) * w.cdelt }

end Pixell
