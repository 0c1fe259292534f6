import Verif.Model.Geometry
import Verif.Model.Num
import Verif.Model.MapOps

/-
Building geometries around a box or a point: pixell/wcsutils.py:417-600 and pixell/enmap.py:1472-1770, one axis at a time for
projections that are linear along the axis ("car", "plain"), in degrees, with positions within half a turn of the reference
point (wcslib does not count turns).
-/
namespace Pixell

/-- The argument `pos`: a centre or a box, wcsutils.py:525-527. -/
inductive BuildPos
  | point (p : ℚ)
  | box (a b : ℚ)
deriving DecidableEq

/-- The middle of `pos`, wcsutils.py:552. -/
def BuildPos.mid : BuildPos → ℚ
  | .point p => p
  | .box a b => (a + b) / 2

/-- The last step of finalize, wcsutils.py:578-583: the reference becomes the centre of a pixel. -/
def snapRef (w : Axis) : Option ℚ → Axis
  | none => w
  | some r => { w with crpix := w.crpix - (pmod (w.sky2pix r + 1 + 1 / 2) 1 - 1 / 2) }

/-- validate and finalize, wcsutils.py:525-584, for one axis with the reference value set by car or plain (wcsutils.py:415-431).
`res` carries the sign that validate gives it for a point; `none` is the ValueError. -/
def buildAxis (crval : ℚ) (pos : BuildPos) (res : Option ℚ) (n : Option Nat) (ref : Option ℚ) : Option Axis :=
  match pos, res, n with
  | _, none, none => none
  | .point _, none, some _ => none
  | .point _, some r, none => some (snapRef ⟨crval, r, 1⟩ ref)
  | .point p, some r, some m =>
    some (snapRef ⟨crval, r, (m : ℚ) / 2 + 1 / 2 - (⟨crval, r, 1⟩ : Axis).sky2pix p⟩ ref)
  | .box a b, none, some m =>
    let d := ((⟨crval, 1, 1⟩ : Axis).sky2pix b - (⟨crval, 1, 1⟩ : Axis).sky2pix a) / m
    some (snapRef ⟨crval, d, 1 - ((⟨crval, d, 1⟩ : Axis).sky2pix a + 1 / 2)⟩ ref)
  | .box a b, some r, _ =>
    let d := if b < a then -r else r
    some (snapRef ⟨crval, d, 1 - ((⟨crval, d, 1⟩ : Axis).sky2pix a + 1 / 2)⟩ ref)

/-- enmap.geometry, enmap.py:1605-1666, one axis: number of pixels and axis. Without a shape a box is needed. -/
def geometryAxis (crval : ℚ) (pos : BuildPos) (res : Option ℚ) (n : Option Nat) (ref : Option ℚ) : Option (ℤ × Axis) := do
  let w ← buildAxis crval pos res n ref
  match n, pos with
  | some m, _ => some (m, w)
  | none, .box a b => some (rint |w.sky2pix b - w.sky2pix a|, w)
  | none, .point _ => none

/-- enmap.band_geometry, enmap.py:1697-1723: first row and end of the rows, from the declination axis of the full sky with `ny`
rows (`yo` = 1 for cc). `none` is a failed assertion. -/
def bandRows (ny yo : Nat) (dmin dmax : ℚ) : Option (ℤ × ℤ) :=
  let w := (fullskyGeometry ny 2 yo).1
  let start := max (rint (w.sky2pix dmin)) 0
  let stop := min (rint (w.sky2pix dmax)) ny
  if dmin < dmax ∧ 0 ≤ start ∧ start < ny ∧ 0 ≤ stop ∧ stop < ny then some (start, stop) else none

/-- enmap.fullsky_geometry2, enmap.py:1580-1585: `pos` is missing in the call of geometry, a TypeError for all arguments.
enmap.band_geometry2, enmap.py:1587-1597, along the declination: `geometry` asserts that the variant is "cc", and the default
is None. A number instead of a range is added to `np.zeros(2)`. -/
def bandGeometry2 (lo hi : ℚ) (res : Option ℚ) (n : Option Nat) (variant : Option String) : Option (ℤ × Axis) :=
  if variant = some "cc" then geometryAxis 0 (.box lo hi) res n (some 0) else none

/-- The forced odd shape, enmap.py:1754 and 1767. -/
def oddShape (n : Nat) : Nat := n / 2 * 2 + 1

/-- thumbnail_geometry with res and shape, enmap.py:1751-1755; `res` is signed. -/
def thumbResShape (res : ℚ) (n : Nat) : Nat × Axis := (oddShape n, ⟨0, res, (oddShape n / 2 + 1 : Nat)⟩)

/-- thumbnail_geometry with r and res, enmap.py:1756-1763. -/
def thumbRRes (r res : ℚ) : ℤ × Axis :=
  let rpix := rint |(⟨0, res, 1⟩ : Axis).sky2pix r|
  (2 * rpix + 1, ⟨0, res, ((2 * rpix + 1) / 2 + 1 : ℤ)⟩)

/-- thumbnail_geometry with r and shape, enmap.py:1764-1773; `dir` is 1 or -1. `none` is the division by zero. -/
def thumbRShape (r dir : ℚ) (n : Nat) : Option (Nat × Axis) :=
  let rpix := |(⟨0, 1, 1⟩ : Axis).sky2pix r|
  let m := oddShape n
  let ratio := ((m : ℚ) - 1) / (2 * rpix) * dir
  if ratio = 0 then none else some (m, ⟨0, 1 / ratio, (m / 2 + 1 : Nat)⟩)

/-- The last step of geometry2, enmap.py:1561-1566, along the equator. -/
def recentreMid (n : Nat) (w : Axis) : Axis :=
  let imid : ℚ := (n / 2 : Nat) - 1 / 2
  { w with crval := w.pix2sky imid, crpix := imid + 1 }

end Pixell
