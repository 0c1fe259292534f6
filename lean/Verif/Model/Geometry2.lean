import Verif.Model.GeoBuild
import Verif.Model.MapOps
import Verif.Model.Submap

/-
pixell/enmap.py:1472-1566 (geometry2) from its arguments to its result, for the projection CAR with the reference point 0,0, in
degrees: pixell/wcsutils.py:59-101 (projection, pixelization), 105-117 (expand_res), 260-276 (parse_variant), 279-332 (pixelize_1d) and
pixell/enmap.py:2051-2079 (crop_geometry). `none` is an exception, or a division by zero.
-/
namespace Pixell

/-- What a character of a rule says about the left or bottom edge. Used for wcsutils.py:271. -/
def ruleLeft (c : Char) : Option (Option ℚ) :=
  if c = '0' then some (some 0) else if c = 'h' then some (some (1 / 2)) else if c = '*' then some none else none

/-- What a character of a rule says about the right or top edge. Used for wcsutils.py:272. -/
def ruleRight (c : Char) : Option (Option ℚ) :=
  if c = '0' then some (some 0) else if c = 'h' then some (some (-1 / 2)) else if c = '*' then some none else none

/-- The offsets of the first and the last pixel from the ends of an axis. Used for wcsutils.py:260-276. -/
abbrev Offs := Option ℚ × Option ℚ

/-- pixell/wcsutils.py:260-276 (parse_variant): offsets along x, then y. -/
def parseVariant (name : String) : Option (Offs × Offs) :=
  let name := name.toList.map Char.toLower
  let rule :=
    if name = "safe".toList then "hh,hh".toList
    else if name = "fejer1".toList then "00,hh".toList
    else if name = "cc".toList then "00,00".toList
    else if name = "any".toList then "**,**".toList
    else name
  match rule with
  | [l, r, ',', b, t] => do
    let l ← ruleLeft l
    let r ← ruleRight r
    let b ← ruleLeft b
    let t ← ruleRight t
    some ((l, r), (b, t))
  | _ => none

/-- pixell/wcsutils.py:105-117 (expand_res) with flip, for geometry2: the resolution along x and y from one number or two numbers
[dec,ra], and signs [dec,ra]. -/
def expandRes (res : ℚ ⊕ (ℚ × ℚ)) (signs : ℚ × ℚ) : ℚ × ℚ :=
  match res with
  | .inl r => (signs.2 * r, signs.1 * r)
  | .inr r => (r.2, r.1)

/-- One axis of pixell/wcsutils.py:83-97: offsets that are still None raise a TypeError, and one pixel is a division by zero. -/
def fullAxis2 (w : ℚ) (req : PixReq) (offs : Offs) (periodic : Bool) : Option (ℤ × Axis) := do
  let p ← pixelize1d w req offs.1 offs.2 periodic
  let o1 ← p.o1
  let o2 ← p.o2
  if p.n = 1 then none else some (p.n, pixelizationAxis p o1 o2)

/-- A geometry with two axes. Used for enmap.py:1472-1566. -/
structure Geo2 where
  ny : ℤ
  nx : ℤ
  y : Axis
  x : Axis
deriving DecidableEq

/-- The step along the equator at the end of geometry2, enmap.py:1561-1566. -/
def Geo2.recentre (g : Geo2) : Geo2 := { g with x := recentreMid g.nx.toNat g.x }

/-- pixell/wcsutils.py:66-101 (pixelization) with a resolution along x and y. The default variant is fejer1. -/
def pixelizationRes (res : ℚ × ℚ) (variant : Option String) : Option Geo2 := do
  let offs ← parseVariant (variant.getD "fejer1")
  let x ← fullAxis2 360 (.res res.1) offs.1 true
  let y ← fullAxis2 180 (.res res.2) offs.2 false
  some ⟨y.1, x.1, y.2, x.2⟩

/-- pixell/wcsutils.py:66-101 (pixelization) with a shape: both axes get the number of rows, and both the flag of x. -/
def pixelizationShape (ny _nx : ℤ) (variant : Option String) : Option Geo2 := do
  let offs ← parseVariant (variant.getD "fejer1")
  let x ← fullAxis2 360 (.count ny) offs.1 true
  let y ← fullAxis2 180 (.count ny) offs.2 true
  some ⟨y.1, x.1, y.2, x.2⟩

/-- pixell/enmap.py:1539-1542 (geometry2 without pos), with a resolution. -/
def geometry2Full (res : ℚ ⊕ (ℚ × ℚ)) (variant : Option String) : Option Geo2 :=
  (pixelizationRes (expandRes res (1, -1)) variant).map Geo2.recentre

/-- pixell/enmap.py:1539-1542 (geometry2 without pos), with a shape. -/
def geometry2Shape (ny nx : ℤ) (variant : Option String) : Option Geo2 :=
  (pixelizationShape ny nx variant).map Geo2.recentre

/-- pixell/enmap.py:2051-2079 (crop_geometry) with a box, one axis: subinds caps at the ends of the map. -/
def cropBox (n : ℤ) (w : Axis) (a b : ℚ) : ℕ × Axis :=
  let s := subinds n.toNat w a b .round true false
  cropGeometry w s.1 s.2.1

/-- The sign of a number. Used for enmap.py:1549. -/
def boxSign (q : ℚ) : ℚ := if 0 < q then 1 else if q < 0 then -1 else 0

/-- pixell/enmap.py:1543-1566 (geometry2 with a box and a resolution): dec from `lo.1` to `hi.1` and ra from `lo.2` to `hi.2`. -/
def geometry2Box (lo hi : ℚ × ℚ) (res : ℚ ⊕ (ℚ × ℚ)) (variant : Option String) : Option Geo2 := do
  let g ← pixelizationRes (expandRes res (boxSign (hi.1 - lo.1), boxSign (hi.2 - lo.2))) variant
  let y := cropBox g.ny g.y lo.1 hi.1
  let x := cropBox g.nx g.x lo.2 hi.2
  some (Geo2.recentre ⟨y.1, x.1, y.2, x.2⟩)

/-- One axis of pixell/enmap.py:2057, 2070-2079 (crop_geometry around a point with a shape). -/
def cropPoint (w : Axis) (p : ℚ) (m : ℕ) : ℕ × Axis :=
  let c := rint (w.sky2pix p)
  cropGeometry w (c - (m / 2 : ℕ)) (c - (m / 2 : ℕ) + m)

/-- pixell/enmap.py:1543-1566 (geometry2 with a centre, a resolution and a shape). -/
def geometry2Point (pos : ℚ × ℚ) (res : ℚ ⊕ (ℚ × ℚ)) (shape : ℕ × ℕ) (variant : Option String) : Option Geo2 := do
  let g ← pixelizationRes (expandRes res (1, -1)) variant
  let y := cropPoint g.y pos.1 shape.1
  let x := cropPoint g.x pos.2 shape.2
  some (Geo2.recentre ⟨y.1, x.1, y.2, x.2⟩)

end Pixell
