import Mathlib.Algebra.Order.Ring.Int
import Mathlib.Data.List.MinMax

/-
Filling masked pixels from the nearest good ones (enmap.inpaint, enmap.py:1396-1425), for method "nearest".
-/
namespace Pixell

/-- All pixels of a map with ny rows and nx columns in order, map.pixmap(), enmap.py:478-481. -/
def gridPixels (ny nx : Nat) : List (Nat × Nat) := (List.range ny).flatMap fun y => (List.range nx).map fun x => (y, x)

/-- The square of the distance between two pixels, in pixels: scipy's distance_transform_edt (enmap.py:1417) and the tree
behind scipy's griddata (enmap.py:1425) both use it. -/
def pixSq (p q : Nat × Nat) : ℤ := ((p.1 : ℤ) - q.1) ^ 2 + ((p.2 : ℤ) - q.2) ^ 2

/-- `distance_transform_edt(~mask)==1`, enmap.py:1417: the distance to the nearest masked pixel is 1.  If nothing is masked
scipy's distances have no meaning; `odd` tells where they are 1. -/
def borderPix (odd mask : Nat × Nat → Bool) (ny nx : Nat) (p : Nat × Nat) : Bool :=
  let bad := (gridPixels ny nx).filter mask
  if bad = [] then odd p else (bad.map (pixSq p)).min? == some 1

/-- Whether numpy flattens two leading axes of lengths n0, n1 with strides s0, s1 without a copy (enmap.py:94-96). -/
def flattensInPlace (n0 n1 s0 s1 : Nat) : Bool := n0 ≤ 1 || n1 ≤ 1 || s0 == n1 * s1

/-- The strides of the two leading axes of `map.copy()`, enmap.py:65-66, which keeps the order of the axes in memory:
`swapped` tells that the second leading axis is the outer one there. -/
def keptStrides (n0 n1 npix : Nat) (swapped : Bool) : Nat × Nat := if swapped then (npix, n0 * npix) else (n1 * npix, npix)

/-- inpaint, enmap.py:1396-1425, with method "nearest", for maps with two leading axes (of length 1 if there are fewer).
`near` gives the point of a list nearest to a pixel (scipy's griddata).  Each component is written to through the
flattened copy of the map, which shares its memory only if numpy can flatten it in place. -/
def inpaint {α : Type} [Zero α] (near : List (Nat × Nat) → Nat × Nat → Nat × Nat) (odd mask : Nat × Nat → Bool)
    (n0 n1 ny nx : Nat) (swapped : Bool) (map : Nat → Nat → Nat × Nat → α) : Nat → Nat → Nat × Nat → α :=
  let good := (gridPixels ny nx).filter (borderPix odd mask ny nx)
  if good = [] then fun _ _ _ => 0
  else
    let s := keptStrides n0 n1 (ny * nx) swapped
    if flattensInPlace n0 n1 s.1 s.2 then fun i j p => if mask p then map i j (near good p) else map i j p
    else map

end Pixell
