import Mathlib.Analysis.SpecialFunctions.Trigonometric.Inverse
import Verif.Model.Index
import Verif.Model.MapOps
import Verif.Model.Iter

/-
Preparations for spherical harmonic transforms: ring tables, iteration over spin components, pixel positions in blocks,
and flipped and padded work buffers (pixell/curvedsky.py, pixell/enmap.py).
-/
namespace Pixell
open PySpec (Slice npGet npSet)

/-! ### HEALPix rings -/

/-- pixell/curvedsky.py:1175-1176 (get_ring_info_healpix): the one-based ring number counted from the nearer pole. -/
def northRing (nside : ℤ) (ring : ℤ) : ℤ :=
  let r := ring + 1
  if r > 2 * nside then 4 * nside - r else r

/-- pixell/curvedsky.py:1178-1184: number of pixels in a (zero-based) ring.  The table is unsigned; for ring numbers
inside the sphere the value is not negative. -/
def ringNphi (nside ring : ℤ) : ℤ :=
  let n := northRing nside ring
  if n < nside then 4 * n else 4 * nside

/-- pixell/curvedsky.py:1179, 1183, 1187-1188: colatitude of a ring, in exact real arithmetic. -/
noncomputable def ringTheta (nside ring : ℤ) : ℝ :=
  let n := northRing nside ring
  let t : ℝ := if n < nside then 2 * Real.arcsin (n / (Real.sqrt 6 * nside))
    else Real.arccos ((2 * nside - n) * (8 * nside / (12 * nside ^ 2)))
  if n ≠ ring + 1 then Real.pi - t else t

/-- pixell/curvedsky.py:1181, 1185: longitude of the first pixel of a ring in units of π. -/
def ringPhi0 (nside ring : ℤ) : ℚ :=
  let n := northRing nside ring
  if n < nside then 1 / (4 * n) else 1 / (4 * nside) * (if (n - nside) % 2 = 0 then 1 else 0)

/-- The part of get_ring_info_healpix that lays out the rings, pixell/curvedsky.py:1163-1193, for the default list of
rings or a list of zero-based ring numbers: pixel counts, offsets, declared number of pixels and of rings. -/
def ringInfoHealpix (nside : Nat) (rings : Option (List Nat) := none) : List Nat × List Nat × Nat × Nat :=
  let rs := rings.getD (List.range (4 * nside - 1))
  let nphi := rs.map fun (r : Nat) => (ringNphi nside r).toNat
  (nphi, cumsum0 nphi false, 12 * nside ^ 2, rs.length)

/-- get_ring_info for a cylindrical map of ny rows and nx columns, pixell/curvedsky.py:1141-1161: counts and offsets.
`nphi or 2*ntheta` replaces a zero width. -/
def ringInfoCyl (ny nx : Nat) : List Nat × List Nat × Nat × Nat :=
  let nphi := List.replicate ny (if nx = 0 then 2 * ny else nx)
  (nphi, cumsum0 nphi false, nphi.sum, ny)

/-! ### Spin components -/

/-- Number of components of a spin: `1+(spin!=0)`, pixell/enmap.py:3180. -/
def spinComp (s : ℤ) : Nat := if s = 0 then 1 else 2

/-- The loop of spin_helper, pixell/enmap.py:3181-3188.  The generator's output is the list of yielded triples and how
it ended: `some true` exhausted, `some false` an IndexError, `none` still running when the fuel is used up.  An empty
list of spins fails at `scomp[ci]`, also with an IndexError. -/
def spinLoop (spin : List ℤ) (n : Nat) : Nat → Nat → Nat → List (ℤ × Nat × Nat) × Option Bool
  | 0, _, _ => ([], none)
  | fuel + 1, ci, i1 =>
    match spin[ci]? with
    | none => ([], some false)
    | some s =>
      let i2 := min (i1 + spinComp s) n
      if i2 - i1 ≠ spinComp s then ([], some false)
      else if i2 = n then ([(s, i1, i2)], some true)
      else
        let rest := spinLoop spin n fuel ((ci + 1) % spin.length) i2
        ((s, i1, i2) :: rest.1, rest.2)

/-- spin_helper, pixell/enmap.py:3178-3188. -/
def spinHelper (fuel : Nat) (spin : List ℤ) (n : Nat) : List (ℤ × Nat × Nat) × Option Bool := spinLoop spin n fuel 0 0

/-- The outer loop of spin_pre_helper, pixell/enmap.py:3203-3213: the output for each leading index in turn, stopping
at the first that fails. -/
def spinPreLoop (inner : List (ℤ × Nat × Nat) × Option Bool) :
    List (List Nat) → List (ℤ × List Nat × Nat × Nat) × Option Bool
  | [] => ([], some true)
  | I :: rest =>
    let here := inner.1.map fun (t : ℤ × Nat × Nat) => (t.1, I, t.2)
    if inner.2 = some true then
      let r := spinPreLoop inner rest
      (here ++ r.1, r.2)
    else (here, inner.2)

/-! ### Pixel positions in blocks -/

/-- calc_locinfo, pixell/curvedsky.py:1326-1353.  `pos c` gives the positions of the pixels of the row whose
y coordinate (in the projection's plane) is `c`; `none` is a position that is not finite.  A block is the sub-geometry
`[b1:b2]`, whose rows are evaluated through its own (sliced) WCS.  The result is loc, mask and masked; `none` when
numpy's range rejects a zero block size. -/
def calcLocinfo {P : Type} (ny nx : Nat) (w : Axis) (pos : ℚ → List (Option P)) (bsize : Nat := 1000) :
    Option (List P × List (List Bool) × Bool) :=
  if bsize = 0 then none else
  let step := fun (st : List P × List (List Bool)) (b1 : ℤ) =>
    let b2 : ℤ := min (b1 + bsize) ny
    let sub := sliceGeometry ny w ⟨some b1, some b2, none⟩
    let subpos := (List.range sub.1.toNat).map fun (i : Nat) => pos (sub.2.pix2sky i)
    let submask := subpos.map fun row => row.map Option.isSome
    (st.1 ++ subpos.flatMap (fun row => row.filterMap id),
      st.2.take b1.toNat ++ submask ++ st.2.drop b2.toNat)
  let out := (PySpec.range 0 ((ny : ℤ) - 1) bsize).foldl step
    (([], List.replicate ny (List.replicate nx false)) : List P × List (List Bool))
  some (out.1, out.2, decide (out.1.length < ny * nx))

/-! ### Work buffers -/

/-- flip2slice for one axis, pixell/curvedsky.py:1207-1210. -/
def flipSlice (flip : Bool) : Slice := ⟨none, none, some (if flip then -1 else 1)⟩

/-- The geometry part of map2buffer, pixell/curvedsky.py:1359-1361 with flip_geometry (1211) and pad_geometry
(1215-1221), one axis. -/
def bufferGeometry (n : Nat) (w : Axis) (flip : Bool) (p q : Nat) : ℤ × Axis :=
  let g := sliceGeometry n w (flipSlice flip)
  (p + g.1 + q, padWcs g.2 p)

/-- The data part of map2buffer, pixell/curvedsky.py:1364-1368, for a map given as its rows: allocate zeros with the
buffer's shape and assign the flipped map into the middle. -/
def map2buffer {α : Type} [Zero α] (rows : List (List α)) (nx : Nat) (w : Axis) (flipy flipx : Bool) (p q : Nat × Nat)
    (obuf : Bool := false) : Option (List (List α)) := do
  let hy := (bufferGeometry rows.length w flipy p.1 q.1).1
  let hx := (bufferGeometry nx w flipx p.2 q.2).1
  let zeroRow := List.replicate hx.toNat (0 : α)
  let buf := List.replicate hy.toNat zeroRow
  if obuf then some buf
  else
    let flipped ← npGet rows (flipSlice flipy)
    let inner ← flipped.mapM fun r => do
      let r' ← npGet r (flipSlice flipx)
      npSet zeroRow ⟨some p.2, some (hx - q.2), none⟩ r'
    npSet buf ⟨some p.1, some (hy - q.1), none⟩ inner

/-- buffer2map, pixell/curvedsky.py:1377-1382, for a buffer of width nx. -/
def buffer2map {α : Type} (buf : List (List α)) (nx : Nat) (flipy flipx : Bool) (p q : Nat × Nat) :
    Option (List (List α)) := do
  let mid ← npGet buf ⟨some p.1, some ((buf.length : ℤ) - q.1), none⟩
  let mid ← mid.mapM fun r => npGet r ⟨some p.2, some ((nx : ℤ) - q.2), none⟩
  let fl ← npGet mid (flipSlice flipy)
  fl.mapM fun r => npGet r (flipSlice flipx)

end Pixell
