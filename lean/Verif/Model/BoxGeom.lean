import Mathlib.Data.Rat.Floor
import Mathlib.Algebra.Order.Field.Rat
import Mathlib.Algebra.BigOperators.Fin
import Mathlib.Algebra.Order.BigOperators.Ring.Finset

/-
Boxes [{from,to},ndim] of coordinates (pixell/utils.py).
-/
namespace Pixell

/-- A box [{from,to},ndim] of numbers, as taken by the functions of utils.py:1261-1340.  Nothing orders `lo` and `hi`. -/
@[ext] structure GBox (d : Nat) where
  lo : Fin d → ℚ
  hi : Fin d → ℚ

/-- Minimum of a non-empty array along its first axis, one column of it (np.min); `none` is the ValueError for no elements. -/
def colMin : List ℚ → Option ℚ
  | [] => none
  | x :: xs => some (xs.foldl min x)

/-- Maximum of one column (np.max). -/
def colMax : List ℚ → Option ℚ
  | [] => none
  | x :: xs => some (xs.foldl max x)

/-- bounding_box of boxes [:,2,:], utils.py:1261-1268, in one dimension. -/
def boundingBoxBoxes (boxes : List (ℚ × ℚ)) : Option (ℚ × ℚ) := do
  let a ← colMin (boxes.map Prod.fst)
  let b ← colMax (boxes.map Prod.snd)
  return (a, b)

/-- bounding_box of points [:,2], utils.py:1261-1268, in one dimension. -/
def boundingBoxPoints (pts : List ℚ) : Option (ℚ × ℚ) := do
  let a ← colMin pts
  let b ← colMax pts
  return (a, b)

/-- box2corners, utils.py:1272-1277.  `unpackbits(i)` (utils.py:1270) lists the bits of `i`, the lowest first. -/
def box2corners {d : Nat} (b : GBox d) : List (Fin d → ℚ) :=
  (List.range (2 ^ d)).map fun i bi => if i.testBit bi then b.hi bi else b.lo bi

/-- np.linspace(a,b,n), as used in utils.py:1292. -/
def linspaceQ (a b : ℚ) (n : Nat) : List ℚ := (List.range n).map fun (k : Nat) => a + (b - a) * (k : ℚ) / ((n : ℚ) - 1)

/-- box2contour, utils.py:1279-1298, with the same number of points for all edges. -/
def box2contour {d : Nat} (b : GBox d) (nper : Nat) : List (Fin d → ℚ) :=
  (List.finRange d).flatMap fun i =>
    ((List.range (2 ^ d)).filter fun j => !j.testBit i).flatMap fun j =>
      (linspaceQ (b.lo i) (b.hi i) nper).map fun x bi => if bi = i then x else if j.testBit bi then b.hi bi else b.lo bi

/-- box_slice for one box `a` and one box `b`, utils.py:1300-1310; `none` is the ValueError of the final reshape to (2,2). -/
def boxSlice {d : Nat} (a b : GBox d) : Option (GBox d) :=
  if d = 2 then
    some ⟨fun i => min (max 0 (b.lo i - a.lo i)) (a.hi i - a.lo i), fun i => min (max 0 (b.hi i - a.lo i)) (a.hi i - a.lo i)⟩
  else none

/-- box_area, utils.py:1312-1314. -/
def boxArea {d : Nat} (a : GBox d) : ℚ := |∏ i, (a.hi i - a.lo i)|

/-- box_overlap, utils.py:1316-1322. -/
def boxOverlap {d : Nat} (a b : GBox d) : Option ℚ := (boxSlice a b).map boxArea

/-- widen_box, utils.py:1324-1330. -/
def widenBox {d : Nat} (b : GBox d) (margin : Fin d → ℚ) (relative : Bool) : GBox d :=
  let m1 : Fin d → ℚ := fun i => if relative then (b.hi i - b.lo i) * margin i else margin i
  let m2 : Fin d → ℚ := fun i => if b.lo i > b.hi i then m1 i * -1 else m1 i
  ⟨fun i => b.lo i - m2 i / 2, fun i => b.hi i + m2 i / 2⟩

/-- np.sign, as used in utils.py:1337. -/
def signQ (x : ℚ) : ℚ := if x < 0 then -1 else if x = 0 then 0 else 1

/-- pad_box, utils.py:1332-1340. -/
def padBox {d : Nat} (b : GBox d) (padding : Fin d → ℚ) : GBox d :=
  let s : Fin d → ℚ := fun i => signQ (b.hi i - b.lo i)
  ⟨fun i => b.lo i - padding i * s i, fun i => b.hi i + padding i * s i⟩

/-- unwrap_range, utils.py:1342-1358, of one range (from, to). -/
def unwrapRange (r : ℚ × ℚ) (nwrap : ℚ) : ℚ × ℚ :=
  let r1 := r.2 - ⌊(r.2 - r.1) / nwrap⌋ * nwrap
  let k := ⌊r1 / nwrap⌋ * nwrap
  (r.1 - k, r1 - k)

end Pixell
