import Verif.Model.SBox
import Verif.Model.MapOps

/-
pixell/enmap.py:704-728: insert, insert_at and map_union, on maps with data. One component; the two axes of the coordinate
system are independent, as in a cylindrical or plain map.
-/
namespace Pixell

/-- A map of one component with its coordinate system. Used for enmap.py:704-728. -/
structure GMap where
  ny : Nat
  nx : Nat
  wy : Axis
  wx : Axis
  data : Arr ℚ

/-- The wrapping length along x of extract_pixbox with wrap="auto" (pixell/enmap.py:688-692). -/
def autoWrap (plain : Bool) (o : GMap) : Nat :=
  if plain then 0 else wrapLength (rint (360 / |o.wx.cdelt|)).toNat o.nx

/-- pixell/enmap.py:710-718 (insert_at) for pix = [y,x]; `wrap` is the wrapping length along x (none for "auto"). -/
def insertAt (plain : Bool) (o : GMap) (y x : ℤ) (m : GMap) (wrap : Option Nat) (op : ℚ → ℚ → ℚ := fun _ b => b) :
    Option GMap := do
  let d ← insertPixbox o.data (o.ny, o.nx) m.data (m.ny, m.nx) ⟨y, y + m.ny, 1⟩ ⟨x, x + m.nx, 1⟩ 0
    (wrap.getD (autoWrap plain o)) op
  return { o with data := d }

/-- pixell/enmap.py:704-708 (insert): the argument wrap (and cval, iwcs) is not passed on to extract. -/
def insertMap (plain : Bool) (o m : GMap) (_wrap : Option Nat) (op : ℚ → ℚ → ℚ := fun _ b => b) : Option GMap := do
  let by' ← pixboxOf o.wy m.ny m.wy
  let bx ← pixboxOf o.wx m.nx m.wx
  let d ← insertPixbox o.data (o.ny, o.nx) m.data (m.ny, m.nx) ⟨by'.1, by'.2, 1⟩ ⟨bx.1, bx.2, 1⟩ 0 (autoWrap plain o) op
  return { o with data := d }

/-- pixell/enmap.py:720-728 (map_union). -/
def mapUnion (plain : Bool) (m1 m2 : GMap) : Option GMap := do
  let gy ← unionGeometry (m1.ny, m1.wy) [(m2.ny, m2.wy)]
  let gx ← unionGeometry (m1.nx, m1.wx) [(m2.nx, m2.wx)]
  let o : GMap := ⟨gy.1.toNat, gx.1.toNat, gy.2, gx.2, fun _ => 0⟩
  let o ← insertMap plain o m1 none
  insertMap plain o m2 none (fun a b => a + b)

end Pixell
