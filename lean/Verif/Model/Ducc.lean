import Verif.Model.Sht
import Verif.Model.Num

/-
Recognising the pixel grids that ducc's spherical harmonics transforms accept, and the quadrature weights of a map:
pixell/curvedsky.py analyse_geometry (1223-1277), get_ducc_geo (1279-1318), get_ducc_maxlmax (1320-1324), get_method
(464-474), quad_weights (478-491) and the weights of map2alm_cyl (822-832).

One axis is a linear WCS, as elsewhere. `pole` is the latitude coordinate of the north pole in the plane of the projection,
in degrees: 90 for plate carree; 180/(pi*lambda) for the equal-area cylindrical projection; the south pole is at `-pole`.
The reference latitude crval is 0 for the projections that pass `is_separable` (wcsutils.py:174).
-/
namespace Pixell
open PySpec

/-- utils.py hasoff, lines 1140-1144. -/
def hasoff (val off tol : ℚ) : Bool := decide (|((val - off + 1/2) - ⌊val - off + 1/2⌋) - 1/2| < tol)

/-- Used for curvedsky.py:1301-1311. -/
inductive DuccName where
  | CC | F1 | MW | MWflip | DH | F2
deriving DecidableEq

/-- The fields of the result of get_ducc_geo that matter here. Used for curvedsky.py:1279-1318. -/
structure DuccGeo where
  name : DuccName
  nx : ℤ
  ny : ℤ
  o1 : ℚ
  o2 : ℚ
  yoff : ℤ
  lmax : ℤ
deriving DecidableEq

/-- curvedsky.py:1301-1311: name and pole offsets from the pixel coordinates of the poles. -/
def duccName (y1 y2 : ℚ) (Ny : Nat) (tol : ℚ) : Option (DuccName × ℚ × ℚ) :=
  if hasoff y1 0 tol && hasoff y2 0 tol then
    if |y1 - -1| < tol ∧ |y2 - Ny| < tol then some (.F2, 1, 1)
    else if |y1 - 0| < tol ∧ |y2 - Ny| < tol then some (.DH, 1, 0)
    else some (.CC, 0, 0)
  else if hasoff y1 (1/2) tol && hasoff y2 (1/2) tol then some (.F1, 1/2, 1/2)
  else if hasoff y1 (1/2) tol && hasoff y2 0 tol then some (.MW, 1/2, 0)
  else if hasoff y1 0 tol && hasoff y2 (1/2) tol then some (.MWflip, 0, 1/2)
  else none

/-- get_ducc_maxlmax, curvedsky.py:1320-1324. -/
def duccMaxLmax (name : DuccName) (ny : ℤ) : ℤ :=
  match name with
  | .CC => ny - 2
  | .DH => Int.fdiv (ny - 2) 2
  | .F2 => Int.fdiv (ny - 1) 2
  | _ => ny - 1

/-- get_ducc_geo, curvedsky.py:1279-1318, with a shape. -/
def getDuccGeo (pole : ℚ) (ny nx : Nat) (wy wx : Axis) (tol : ℚ) : Option DuccGeo :=
  let gy := (sliceGeometry ny wy (flipSlice (decide (0 < wy.cdelt)))).2
  let gx := (sliceGeometry nx wx (flipSlice (decide (wx.cdelt < 0)))).2
  let nxs := 360 / gx.cdelt
  if hasoff nxs 0 tol = false then none
  else
    let y1 := gy.sky2pix pole
    let y2 := gy.sky2pix (-pole)
    (duccName y1 y2 ny tol).map fun t =>
      let n := rint (y2 - y1 + 1 - t.2.1 - t.2.2)
      ⟨t.1, rint nxs, n, t.2.1, t.2.2, rint (-y1 - t.2.1), duccMaxLmax t.1 n⟩

/-- See curvedsky.py:1223-1277. -/
inductive GeoCase where
  | general | twoD | cyl | part
deriving DecidableEq

/-- The result of analyse_geometry. `flip` is a Python list. Used for curvedsky.py:1223-1277. -/
structure MapInfo where
  case : GeoCase
  flip : List Bool
  geo : Option DuccGeo
  ypad : ℤ × ℤ
  xpad : ℤ × ℤ
  phi0 : ℚ
deriving DecidableEq

/-- analyse_geometry, curvedsky.py:1223-1277. `separable` is the outcome of `is_separable`; phi0 in degrees. -/
def analyseGeometry (separable : Bool) (pole : ℚ) (ny nx : Nat) (wy wx : Axis) (tol : ℚ) : MapInfo :=
  if !separable || !(hasoff (360 / |wx.cdelt|) 0 tol) then ⟨.general, [false, false], none, (0, 0), (0, 0), 0⟩
  else
    let fy := decide (0 < wy.cdelt)
    let fx := decide (wx.cdelt < 0)
    let gy := sliceGeometry ny wy (flipSlice fy)
    let gx := sliceGeometry nx wx (flipSlice fx)
    let phi0 := gx.2.pix2sky 0
    let geo := getDuccGeo pole gy.1.toNat gx.1.toNat gy.2 gx.2 tol
    if geo.any (fun g => decide ((ny : ℤ) = g.ny) && decide ((nx : ℤ) = g.nx) && decide (|(g.yoff : ℚ)| < tol)) then
      ⟨.twoD, [fy, fx], geo, (0, 0), (0, 0), phi0⟩
    else
      let ypad := (geo.map fun g => ((g.yoff, g.ny - g.yoff - (ny : ℤ)) : ℤ × ℤ)).getD (0, 0)
      let n := rint (360 / gx.2.cdelt)
      if (nx : ℤ) = n then ⟨.cyl, [fy, fx], geo, ypad, (0, 0), phi0⟩
      else ⟨.part, [fy, fx], geo, ypad, (0, n - nx), phi0⟩

/-- get_method, curvedsky.py:464-474. -/
inductive ShtMethod where
  | general | twoD | cyl
deriving DecidableEq

/-- get_method, curvedsky.py:464-474. -/
def getMethod (m : MapInfo) : ShtMethod :=
  match m.case with
  | .general => .general
  | .twoD => .twoD
  | _ => .cyl

/-- `weights[ypad[0]:len(weights)-ypad[1]]`, curvedsky.py:488 and 827. -/
def trimWeights (l : List ℚ) (ypad : ℤ × ℤ) : Option (List ℚ) := npGet l ⟨some ypad.1, some (l.length - ypad.2), none⟩

/-- quad_weights, curvedsky.py:478-491. `grid name ny` are ducc's grid weights. A missing ducc geometry is an AttributeError
(`None.name`). `if minfo.flip` tests whether the list is empty. -/
def quadWeights (grid : DuccName → ℤ → List ℚ) (m : MapInfo) (ny : Nat) : Option (List ℚ) := do
  let g ← m.geo
  let w ← trimWeights (grid g.name (ny + (m.ypad.1 + m.ypad.2))) m.ypad
  let w := if m.flip ≠ [] then w.reverse else w
  return w.map (· / g.nx)

/-- The default weights of map2alm_cyl, curvedsky.py:822-832, handed to the transform of the flipped map. `pixsize` is the
pixel area by row of the map. -/
def cylWeights (grid : DuccName → ℤ → List ℚ) (pixsize : List ℚ) (m : MapInfo) (ny : Nat) : Option (List ℚ) :=
  match m.geo with
  | some g => (trimWeights (grid g.name (ny + (m.ypad.1 + m.ypad.2))) m.ypad).map fun w => w.map (· / g.nx)
  | none => some (if m.flip ≠ [] then pixsize.reverse else pixsize)

/-! ### Limiting a ring table -/

/-- The columns of a ring table that the transforms use (curvedsky.py:1161 and 1193). -/
structure RingTab where
  theta : List ℚ
  nphi : List Nat
  phi0 : List ℚ
  offsets : List Nat
  nrow : Nat

/-- `l[mask]` for a boolean mask. Used for curvedsky.py:579-586. -/
def maskList {α : Type} (mask : List Bool) (l : List α) : List α := ((mask.zip l).filter (·.1)).map (·.2)

/-- The mask of apply_minfo_theta_lim, curvedsky.py:581-583. -/
def thetaMask (nrow : Nat) (theta : List ℚ) (lo hi : Option ℚ) : List Bool :=
  let mask := List.replicate nrow true
  let mask := match lo with
    | none => mask
    | some a => List.zipWith (fun b v => b && decide (a ≤ v)) mask theta
  match hi with
    | none => mask
    | some a => List.zipWith (fun b v => b && decide (v ≤ a)) mask theta

/-- apply_minfo_theta_lim, curvedsky.py:579-586. Only theta, nphi and phi0 are masked. -/
def thetaLim (t : RingTab) (lo hi : Option ℚ) : RingTab :=
  if lo = none ∧ hi = none then t
  else
    let mask := thetaMask t.nrow t.theta lo hi
    ⟨maskList mask t.theta, maskList mask t.nphi, maskList mask t.phi0, t.offsets, t.nrow⟩

end Pixell
