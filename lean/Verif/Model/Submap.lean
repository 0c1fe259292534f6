import Verif.Model.Geometry
import Verif.Model.MapOps
import Verif.Model.SBox
import Verif.Model.Num

/-
Selecting a part of a map by a coordinate box: pixell/enmap.py submap (165-194), subgeo (196-215), subinds (217-262) and
skybox2pixbox (538-549). An axis is linear; the unwinding of skybox2pixbox only chooses the turn on which the box lies, so a box
is given by coordinates on the axis. `recenter` is False.
-/
namespace Pixell
open PySpec (Slice)

/-- How partly selected pixels are handled (enmap.py:244-250). -/
inductive RoundMode where
  | round | floor | ceil | inclusive | exclusive
deriving DecidableEq

/-- skybox2pixbox with direction, enmap.py:538-549, one axis: the pixel coordinates of the ends of the box, and the sign of the
first of the nine steps between them. -/
def skyboxPix (w : Axis) (a b : ℚ) : ℚ × ℚ × ℤ :=
  let p := w.sky2pix a
  let q := w.sky2pix (a + (b - a) / 9)
  (p, w.sky2pix b, if p < q then 1 else if q < p then -1 else 0)

/-- The rounding of subinds, enmap.py:244-250. -/
def roundPix : RoundMode → ℚ → ℚ → ℤ × ℤ
  | .round, p, q => (rint p, rint q)
  | .floor, p, q => (⌊p⌋, ⌊q⌋)
  | .ceil, p, q => (⌈p⌉, ⌈q⌉)
  | .inclusive, p, q => (⌊p⌋, ⌈q⌉)
  | .exclusive, p, q => (⌈p⌉, ⌊q⌋)

/-- subinds, enmap.py:217-262, one axis: first index, end index and direction. -/
def subinds (n : Nat) (w : Axis) (a b : ℚ) (mode : RoundMode := .round) (cap noflip : Bool) (eps : ℚ := 1/10000) : ℤ × ℤ × ℤ :=
  let s := skyboxPix w a b
  let t : ℚ × ℚ × ℤ := (s.1 + eps, s.2.1 + eps, s.2.2)
  let t : ℚ × ℚ × ℤ := if noflip ∧ t.2.2 < 0 then (t.2.1, t.1, -t.2.2) else t
  let r := roundPix mode t.1 t.2.1
  if cap then
    if 0 < t.2.2 then (max r.1 0, min r.2 n, t.2.2) else (min r.1 (n - 1), max r.2 (-1), t.2.2)
  else (r.1, r.2, t.2.2)

/-- `helper` of submap, enmap.py:183-185: whether to flip afterwards, and the slice to take before. -/
def submapSlice (b : ℤ × ℤ × ℤ) : Bool × Slice :=
  if 0 ≤ b.2.2 then (false, ⟨some b.1, some b.2.1, some b.2.2⟩)
  else (true, ⟨some (b.2.1 - b.2.2), some (b.1 - b.2.2), some (-b.2.2)⟩)

/-- One axis of submap before the data are copied, enmap.py:181-189: the geometry to extract, its pixel box in the map, and
whether to flip. -/
def submapAxis (n : Nat) (w : Axis) (a b : ℚ) (mode : RoundMode) : Option ((ℤ × Axis) × (ℤ × ℤ) × Bool) := do
  let fs := submapSlice (subinds n w a b mode false false)
  let g := sliceGeometry n w fs.2 true
  if g.1 < 0 then none else
  let box ← pixboxOf w g.1.toNat g.2
  some (g, box, fs.1)

/-- The final flip of one axis, enmap.py:192-193: `omap[...,::-1]` reverses the data and the geometry. -/
def flipAxis (g : ℤ × Axis) (flip : Bool) : ℤ × Axis := if flip then sliceGeometry g.1 g.2 ⟨none, none, some (-1)⟩ else g

/-- submap, enmap.py:165-194, with extract (enmap.py:653-675): geometries of both axes and data. `wrapX` is the wrapping length
in x (0 for none); outside the map the result is zero. -/
def submap {α : Type} [Zero α] (map : Arr α) (n : Nat × Nat) (wy wx : Axis) (wrapX : Nat) (y0 y1 x0 x1 : ℚ) (mode : RoundMode) :
    Option ((ℤ × Axis) × (ℤ × Axis) × Arr α) := do
  let ay ← submapAxis n.1 wy y0 y1 mode
  let ax ← submapAxis n.2 wx x0 x1 mode
  let ny := ay.1.1.toNat
  let nx := ax.1.1.toNat
  let out ← extractPixbox map n (fun _ => 0) (ny, nx) ⟨ay.2.1.1, ay.2.1.2, 1⟩ ⟨ax.2.1.1, ax.2.1.2, 1⟩ 0 wrapX
  some (flipAxis ay.1 ay.2.2, flipAxis ax.1 ax.2.2, fun p =>
    out (if ay.2.2 then ny - 1 - p.1 else p.1, if ax.2.2 then nx - 1 - p.2 else p.2))

/-- subgeo, enmap.py:196-215, one axis. -/
def subgeo (n : Nat) (w : Axis) (a b : ℚ) (mode : RoundMode) (noflip : Bool) : ℤ × Axis :=
  let i := subinds n w a b mode false noflip
  sliceGeometry n w ⟨some i.1, some i.2.1, some i.2.2⟩ true

end Pixell
