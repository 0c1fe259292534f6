import Verif.Model.Angles
import Verif.Model.Geometry

/-! Corners, positions and containment of a geometry, and the Geometry class. See pixell/enmap.py:300-583. -/

namespace Pixell

/-- `np.linspace(a, b, num=npoint, endpoint=True)`. See enmap.py:364-371. -/
def linspaceEnd (a b : ℚ) (num : ℕ) : List ℚ :=
  (List.range num).map fun (i : ℕ) => if num = 1 then a else a + i * ((b - a) / ((num : ℚ) - 1))

/-- One coordinate of `enmap.corners` along an axis of `n` pixels, in degrees. `world` is the coordinate `wcs_pix2world` returns for
a pixel coordinate, on whatever turn it chooses. `T[[0,-1]]` takes the first and the last point; there is none for `npoint=0`. See
enmap.py:363-374. -/
def cornersAxis (world : ℚ → ℚ) (n : ℕ) (npoint : ℕ) (corner : Bool) : Option (ℚ × ℚ) :=
  let pix := if corner then linspaceEnd (-1/2) ((n : ℚ) - 1/2) npoint else linspaceEnd 0 ((n : ℚ) - 1) npoint
  let u := unwind (pix.map world) 360 0 true
  match u.head?, u.getLast? with
  | some a, some b => some (a, b)
  | _, _ => none

/-- `enmap.contains` along one axis of `n` pixels, for a pixel coordinate `p`: `(pix>=0)&(pix<n)`. See enmap.py:554-559. -/
def containsAxis (n : ℕ) (p : ℚ) : Bool := decide (0 ≤ p) && decide (p < n)

/-- `enmap.sky2pix` along one axis with `safe=True`: the pixel coordinate is moved by turns (`wn` pixels) to be around the middle of
the map. See enmap.py:496-523. -/
def sky2pixSafe (w : Axis) (n : ℕ) (s : ℚ) (corner : Bool := false) : ℚ :=
  let p := w.sky2pix s + (if corner then 1/2 else 0)
  rewind p ((n : ℚ) / 2 + (if corner then 1/2 else 0)) |360 / w.cdelt|

/-- `pix2sky` of a whole row of pixels `y` with `safe=True`: the right ascensions are unwound along the row. `world y x` gives what
`wcs_pix2world` returns. See enmap.py:483-494. -/
def rowSky (world : ℕ → ℕ → ℚ × ℚ) (nx : ℕ) (y : ℕ) : List (ℚ × ℚ) :=
  let c := (List.range nx).map (world y)
  List.zip (c.map Prod.fst) (unwind (c.map Prod.snd) 360 0 true)

/-- `rowstep = int((bsize+nx-1)//nx)`. See enmap.py:464. -/
def posRowstep (bsize nx : ℕ) : ℕ := (bsize + nx - 1) / nx

/-- The loop of `enmap.posmap` over blocks of rows, when the coordinate system is not separable; `fuel` blocks are enough. `none` is a row that was
never assigned. See enmap.py:463-468. -/
def posBlocks (world : ℕ → ℕ → ℚ × ℚ) (ny nx rowstep : ℕ) : ℕ → ℕ → (ℕ → Option (List (ℚ × ℚ))) → (ℕ → Option (List (ℚ × ℚ)))
  | 0, _, res => res
  | fuel + 1, i1, res =>
    if i1 < ny then
      let i2 := min (i1 + rowstep) ny
      posBlocks world ny nx rowstep fuel (i1 + rowstep) fun y => if i1 ≤ y ∧ y < i2 then some (rowSky world nx y) else res y
    else res

/-- `enmap.posmap`: row `y`. With separable coordinates the declination of row `y` is that of its first pixel and the right ascensions are those of row
0; `none` for a row outside the map. See enmap.py:435-476. -/
def posmapRow (separable : Bool) (world : ℕ → ℕ → ℚ × ℚ) (ny nx bsize : ℕ) (y : ℕ) : Option (List (ℚ × ℚ)) :=
  if separable then
    if y < ny then
      let ra := unwind ((List.range nx).map fun x => (world 0 x).2) 360 0 true
      some ((List.replicate nx (world y 0).1).zip ra)
    else none
  else posBlocks world ny nx (posRowstep bsize nx) ny 0 (fun _ => none) y

/-- What is passed as first argument of `Geometry(...)`: an object with the attributes `shape` and `wcs`, or a plain shape. -/
inductive GeoArg (W : Type) where
  | obj (shape : List ℕ) (wcs : W)
  | plain (shape : List ℕ)

/-- `Geometry.__init__`; `none` is the AssertionError. See enmap.py:301-304. -/
def geometryInit {W : Type} (a : GeoArg W) (wcs : Option W) : Option (List ℕ × W) :=
  let r : List ℕ × Option W := match a with
    | .obj s w => (s, some w)
    | .plain s => (s, wcs)
  -- assert wcs is not None
  match wcs with
  | none => none
  | some w => some (r.1, r.2.getD w)

/-- `Geometry.nopre` and `Geometry.with_pre` on the shape. See enmap.py:319-321. -/
def geoNopre (shape : List ℕ) : List ℕ := shape.drop (shape.length - 2)

/-- See enmap.py:321. -/
def geoWithPre (pre shape : List ℕ) : List ℕ := pre ++ geoNopre shape

end Pixell
