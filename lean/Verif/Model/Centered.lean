import Verif.Model.Coordinates

/-
Maps turned to the origin (reproject.centered_map and get_rotated_pixels, reproject.py:424-470 and 728-765), gnomonic
geometries (reproject.py:693-708) and the pixels of inverse variance maps found by several MPI tasks (reproject.py:640-690).
-/
namespace Pixell

/-- One axis of a cylindrical map in radians: reference pixel, pixel size and reference position (enmap.pix2sky without the
wrapping of angles).  Used for reproject.py:453 and 763. -/
structure RealAxis where
  x0 : ℝ
  step : ℝ
  s0 : ℝ

/-- enmap.pix2sky, one axis, as called in reproject.py:453. -/
noncomputable def RealAxis.toSky (w : RealAxis) (p : ℝ) : ℝ := (p - w.x0) * w.step + w.s0

/-- enmap.sky2pix, one axis, as called in reproject.py:763. -/
noncomputable def RealAxis.toPix (w : RealAxis) (s : ℝ) : ℝ := (s - w.s0) / w.step + w.x0

/-- `enmap.pix2sky(shape, wcs, (shape[0] / 2., shape[1] / 2.))`, reproject.py:453 and 741-743: dec and ra. -/
noncomputable def sourceMiddle (shape : List Nat) (wy wx : RealAxis) : ℝ × ℝ :=
  (wy.toSky ((shape.getD 0 0 : ℝ) / 2), wx.toSky ((shape.getD 1 0 : ℝ) / 2))

/-- get_rotated_pixels, reproject.py:728-765, without inverse: the pixel (y,x) of the source for the position `pos` = (dec,ra)
of the target.  The polarisation angle is not modelled here. -/
noncomputable def rotatedPixel (shape : List Nat) (wy wx : RealAxis) (target : ℝ × ℝ) (source : Option (ℝ × ℝ)) (pos : ℝ × ℝ) : ℝ × ℝ :=
  let s := source.getD (sourceMiddle shape wy wx)
  let o := recenter (pos.2, pos.1) (.at4 target.2 target.1 s.2 s.1) false
  (wy.toPix o.2, wx.toPix o.1)

/-- centered_map, reproject.py:440-466: the pixel of the map shown at the position `pos` of the result, for a map of the given
shape. -/
noncomputable def centeredPixel (shape : List Nat) (wy wx : RealAxis) (pos : ℝ × ℝ) : ℝ × ℝ :=
  let sshape := if shape.length = 2 then 1 :: shape else shape
  rotatedPixel sshape wy wx (0, 0) (some (sourceMiddle sshape wy wx)) pos

/-- The reference pixel of gnomonic_pole_wcs, reproject.py:693-700, as (x,y) counted from 0 (crpix counts from 1). -/
noncomputable def gnomonicRef (ny nx : Nat) : ℝ × ℝ := ((ny : ℝ) / 2 + 1 / 2 - 1, (nx : ℝ) / 2 + 1 / 2 - 1)

/-- The rows of `pix` that a task fills, reproject.py:654-669: those of every size-th block of rstep rows.  `f` gives the pixels
of a row (hp.ang2pix). -/
def taskRow (rstep ny size rank : Nat) (f : Nat → Nat → ℤ) (y x : Nat) : ℤ :=
  let nblock := (ny + rstep - 1) / rstep
  let mine := (List.range nblock).filter fun bi => decide (rank ≤ bi) && (bi - rank) % size == 0 && bi % size == rank
  if mine.any fun bi => decide (bi * rstep ≤ y) && decide (y < bi * rstep + rstep) then f y x else 0

/-- `pix` after the reduction over tasks, reproject.py:670-671. -/
def allRows (rstep ny size : Nat) (f : Nat → Nat → ℤ) (y x : Nat) : ℤ :=
  ((List.range size).map fun rank => taskRow rstep ny size rank f y x).sum

/-- The values of ivar_hp_to_cyl, reproject.py:672-683, first component: `hmap` by pixel, `osize` the area of the pixels of a row
and `isize` that of the healpix pixels. -/
noncomputable def ivarRow (hmap : ℤ → ℝ) (bad : ℤ → Bool) (doMask extensive : Bool) (isize : ℝ) (osize : Nat → ℝ)
    (pix : Nat → Nat → ℤ) (y x : Nat) : ℝ :=
  let v := if doMask && (bad (pix y x) || decide (hmap (pix y x) ≤ 0)) then 0 else hmap (pix y x)
  if extensive then v * (osize y / isize) else v

end Pixell
