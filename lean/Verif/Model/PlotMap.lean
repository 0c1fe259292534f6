import Verif.Model.Submap
import Verif.Model.ColorScheme

/-
The map that is plotted (enplot.get_map, enplot.py:353-444): its orientation, and the values that are masked.
Files, stamps, operations given as python expressions and tiling are not modelled here.
-/
namespace Pixell

/-- `m.submap(sub)`, enplot.py:381-384, one axis from `a` to `b`: its geometry afterwards. -/
def plotSub (n : Nat) (w : Axis) (a b : ℚ) : Option (ℤ × Axis) :=
  (submapAxis n w a b .round).map fun s => flipAxis s.1 s.2.2

/-- The flips of enplot.py:404 and enplot.py:421-424, one axis: `w0` is the map as it was read, `g` the map after cutting and
slicing. -/
def orientAxis (w0 : Axis) (g : ℤ × Axis) : ℤ × Axis :=
  let flip := g.2.cdelt * w0.cdelt < 0
  let m := if g.2.cdelt > 0 then flipAxis g true else g
  if flip then flipAxis m true else m

/-- `np.abs`, for enplot.py:441. -/
def FV.abs : FV → FV
  | .fin q => .fin |q|
  | .ninf => .pinf
  | v => v

/-- `==` of numbers, for enplot.py:441: not-a-number is not equal to anything. -/
def FV.same (a b : FV) : Bool := a != .nan && a == b

/-- `bad`, enplot.py:441-442, one value. -/
def isMasked (mask : FV) (tol : ℚ) (v : FV) : Bool :=
  match mask with
  | .fin m => match v with
    | .fin q => |q - m| ≤ tol
    | _ => false
  | _ => FV.same v.abs mask

/-- The masking of get_map, enplot.py:438-444, for all components of one pixel. -/
def maskPixel (mask : Option FV) (tol : ℚ) (rgb : Bool) (vals : List FV) : List FV :=
  match mask with
  | none => vals
  | some m =>
    let bad := vals.map (isMasked m tol)
    let bad := if rgb then bad.map fun _ => bad.all id else bad
    List.zipWith (fun b v => if b then .nan else v) bad vals

end Pixell
