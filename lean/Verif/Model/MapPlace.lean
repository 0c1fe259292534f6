import Verif.Model.Geometry
import Verif.Model.Num

/-
Cutting and joining maps: enmap.padslice, stamps, tile_maps, overlap, argmax and argmin. One axis at a time where the axes are
independent. The values are of any type; the fill value of padslice is `none`.
-/
namespace Pixell

/-- A bound of a numpy slice with step 1 on an axis of length m. Used for the assignment in pixell/enmap.py:2527. -/
def sliceBound (i m : ℤ) : ℤ := if i < 0 then max (i + m) 0 else min i m

/-- enmap.padslice along one axis of length n, pixell/enmap.py:2514-2528: the length of the result, and for each of its indices the
index in the map whose value is copied there. `none` when the result would have a negative length, or when the two sides of the
assignment have different lengths. -/
def padAxis (n : Nat) (b0 b1 : ℤ) : Option (ℤ × (ℤ → Option ℤ)) :=
  let m := b1 - b0
  if m < 0 then none else
  let i0 := max 0 (min (n : ℤ) b0)
  let i1 := max 0 (min (n : ℤ) b1)
  let o := i0 - b0
  let w := i1 - i0
  let lo := sliceBound o m
  let hi := sliceBound (o + w) m
  if max 0 (hi - lo) ≠ max 0 (i1 - i0) then none else
  some (m, fun i => if lo ≤ i ∧ i < hi then some (i0 + (i - lo)) else none)

/-- The coordinates of the result of padslice, pixell/enmap.py:2520-2521. -/
def padsliceWcs (w : Axis) (b0 : ℤ) : Axis := { w with crpix := w.crpix - b0 }

/-- The box of one stamp along one axis, pixell/enmap.py:2554 with the conversion to whole numbers of padslice at 2518. -/
def stampBox (p s : ℚ) : ℤ × ℤ := (intTrunc p, intTrunc (p + s))

/-- `np.concatenate(row, -1)` of maps given as lists of rows, pixell/enmap.py:2538: they need the same number of rows. -/
def concatX {α : Type} : List (List (List α)) → Option (List (List α))
  | [] => none
  | [a] => some a
  | a :: b :: l => do
    let r ← concatX (b :: l)
    if a.length ≠ r.length then none else some (List.zipWith (· ++ ·) a r)

/-- All rows of a map have the same length w. Arrays are like this. -/
def RowsOf {α : Type} (w : Nat) (m : List (List α)) : Prop := ∀ r ∈ m, r.length = w

/-- enmap.tile_maps, pixell/enmap.py:2530-2542: the rows of tiles are joined upwards. Maps in the same row of tiles need the same
height, and the rows the same width. -/
def tileMaps {α : Type} (maps : List (List (List (List α)))) : Option (List (List α)) := do
  let rows ← maps.mapM concatX
  match rows with
  | [] => none
  | r :: _ => if rows.all fun s => (s.headD []).length == (r.headD []).length then some rows.flatten else none

/-- enmap.overlap along one axis of length n with the wrapping length, pixell/enmap.py:741-756. The array of the caller is
changed in place, so that this is also what is in it afterwards. A wrap of zero is none. -/
def overlapAxis (n : ℤ) (wrap : ℤ) (b0 b1 : ℤ) : ℤ × ℤ :=
  let p0 := if b0 < 0 ∧ (wrap = 0 ∨ n ≤ b0 + wrap) then 0 else b0
  let p1 := if n < b1 ∧ (wrap = 0 ∨ b1 - wrap ≤ 0) then n else b1
  (p0, max p1 p0)

/-- The wrapping length of enmap.overlap for a cylindrical map, pixell/enmap.py:740-745. -/
def overlapWrap (n : Nat) (cdelt : ℚ) : ℤ :=
  let nphi := rint (360 / |cdelt|)
  nphi * Int.fdiv (nphi + n - 1) nphi

/-- `np.argmax` of the first n values of f: the first index of the largest value. Used in pixell/enmap.py:808. -/
def argmaxTo (f : Nat → ℚ) : Nat → Nat
  | 0 => 0
  | n + 1 => let i := argmaxTo f n; if n ≠ 0 ∧ f i < f n then n else i

/-- enmap._arghelper with argmax, pixell/enmap.py:807-812, one component, in pixels. -/
def argmaxMap (ny nx : Nat) (m : Nat → Nat → ℚ) : Nat × Nat :=
  let r := argmaxTo (fun i => m (i / nx) (i % nx)) (ny * nx)
  (r / nx, r % nx)

end Pixell
