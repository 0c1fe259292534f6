import Mathlib.Algebra.Module.Defs
import Mathlib.Algebra.BigOperators.Group.List.Basic
import Mathlib.Algebra.Field.Rat
import Mathlib.Data.Rat.Floor
import Verif.Model.Geometry
import Verif.Model.Num
/-
Block reduction and expansion (utils.py:2193-2257), map down- and upgrading (enmap.py:1981-2036), bin
resampling (resample.py:24-54) and the Haar transform (wavelets.py:419-451), along one axis.  The
elements `α` stand for whole slices across the other axes.  `none` is an exception.
-/
namespace Pixell

/-- Python's clamping of a slice bound on an axis of length `n`. See utils.py:2193-2214. -/
def pyClamp (n : Nat) (i : Int) : Nat := if i < 0 then (i + n).toNat else min i.toNat n

/-- `np.split(a, [i, j], axis)`: the parts `a[:i]`, `a[i:j]`, `a[j:]`. Used for utils.py:2193-2214. -/
def npSplit3 {α} (a : List α) (i j : Int) : List α × List α × List α :=
  let ci := pyClamp a.length i
  let cj := pyClamp a.length j
  (a.take ci, (a.take cj).drop ci, a.drop cj)

/-- `mid.reshape(nwhole, bsize)` as a list of rows. Used for utils.py:2193-2214. -/
def chunks {α} (bsize : Nat) (nwhole : Nat) (mid : List α) : List (List α) :=
  (List.range nwhole).map fun i => (mid.drop (i * bsize)).take bsize

/-- `np.concatenate(parts)`; numpy raises if there is no part. Used for utils.py:2193-2214. -/
def concatParts {α} (parts : List (List α)) : Option (List α) :=
  if parts.isEmpty then none else some parts.flatten

/-- utils.block_reduce, utils.py:2193-2214. -/
def blockReduce {α} (op : List α → α) (a : List α) (bsize : Nat) (off : Nat) (inclusive : Bool) :
    Option (List α) :=
  if bsize = 1 then some a
  else
    let nwhole : Int := Int.fdiv ((a.length : Int) - off) bsize
    let p := npSplit3 a off (off + nwhole * bsize)
    let pre := p.1; let mid := p.2.1; let tail := p.2.2
    concatParts ((if pre ≠ [] ∧ inclusive then [[op pre]] else [])
        ++ (if mid ≠ [] then [(chunks bsize nwhole.toNat mid).map op] else [])
        ++ (if tail ≠ [] ∧ inclusive then [[op tail]] else []))

/-- `np.repeat(a, k)` along the axis. Used for utils.py:2216-2239. -/
def npRepeat {α} (k : Nat) (a : List α) : List α := a.flatMap (List.replicate k)

/-- utils.block_expand with op="nearest", utils.py:2216-2239. -/
def blockExpand {α} [Zero α] (a : List α) (bsize osize off : Nat) (inclusive : Bool) : Option (List α) :=
  let nwhole : Int := Int.fdiv ((osize : Int) - off) bsize
  let nrest : Int := (osize : Int) - off - nwhole * bsize
  if inclusive then
    let o : Int := if 0 < off then 1 else 0
    let p := npSplit3 a o (o + nwhole)
    let pre := p.1; let mid := p.2.1; let tail := p.2.2
    concatParts ((if pre ≠ [] then [npRepeat off pre] else [])
        ++ (if mid ≠ [] then [npRepeat bsize mid] else [])
        ++ (if tail ≠ [] then [npRepeat nrest.toNat tail] else []))
  else some (List.replicate off 0 ++ npRepeat bsize a ++ List.replicate nrest.toNat 0)

/-- `np.mean` along an axis (of at least one element). Used for utils.py:2216-2239. -/
def mean {α} [AddCommMonoid α] [SMul ℚ α] (l : List α) : α := ((l.length : ℚ)⁻¹) • l.sum

/-- The data part of enmap.downgrade, enmap.py:1988-2002. -/
def downgradeData {α} [AddCommMonoid α] [SMul ℚ α] (a : List α) (f off : Nat) (inclusive : Bool) :
    Option (List α) := blockReduce mean a f off inclusive

/-- The WCS part of enmap.downgrade, enmap.py:2003-2005: slicing `off::factor`, plus one pixel for an
inclusive first block. -/
def downgradeWcs (w : Axis) (f off : Nat) (inclusive : Bool) : Axis :=
  let s := sliceWcs w off f
  { s with crpix := s.crpix + (if 0 < off ∧ inclusive then 1 else 0) }

/-- The default output size of enmap.upgrade, enmap.py:2026. -/
def upgradeSize (n f off : Nat) (inclusive : Bool) : Nat :=
  (n - (if 0 < off ∧ inclusive then 1 else 0)) * f + off

/-- The WCS part of enmap.upgrade, enmap.py:2030-2035. -/
def upgradeWcs (w : Axis) (f off : Nat) (inclusive : Bool) : Axis :=
  { crval := w.crval
    cdelt := w.cdelt / f
    crpix := (w.crpix - (1/2 + (if 0 < off ∧ inclusive then 1 else 0))) * f + (1/2 + off) }

/-- The data part of enmap.upgrade, enmap.py:2019-2028. -/
def upgradeData {α} [Zero α] (a : List α) (f off : Nat) (oshape : Option Nat) (inclusive : Bool) :
    Option (List α) :=
  blockExpand a f (oshape.getD (upgradeSize a.length f off inclusive)) off inclusive

/-- enmap.get_downgrade_offset, enmap.py:1981-1986, one axis. -/
def downgradeOffset (w : Axis) (f : Nat) (ref : Option ℚ) : Nat :=
  match ref with
  | none => 0
  | some r => (rint (w.sky2pix r) % f).toNat

/-- resample.downsample_bin, resample.py:24-38, one axis. -/
def downsampleBin {α} [AddCommMonoid α] [SMul ℚ α] (d : List α) (step : Nat) : List α :=
  (chunks step (d.length / step) (d.take (d.length / step * step))).map mean

/-- resample.upsample_bin, resample.py:40-54, one axis. -/
def upsampleBin {α} (d : List α) (step : Nat) : List α := npRepeat step d

/-- Elementwise sum of equally long arrays; `none` is numpy's shape error. Used for wavelets.py:433-443. -/
def zipOp {α} (g : α → α → α) (a b : List α) : Option (List α) :=
  if a.length = b.length then some (List.zipWith g a b) else none

/-- A map: data and geometry. Used for wavelets.py:433-443. -/
structure Map1 (α : Type) where
  data : List α
  wcs : Axis

/-- The loop of wavelets.HaarTransform.map2wave (wavelets.py:433-443).  The result lists the maps in
the order of the returned multimap, coarsest first. -/
def haarForward {α} [AddCommGroup α] [SMul ℚ α] (ref : Option ℚ) : Nat → Map1 α → Option (List (Map1 α))
  | 0, m => some [m]
  | n + 1, m => do
    let off := downgradeOffset m.wcs 2 ref
    let d ← downgradeData m.data 2 off true
    let up ← upgradeData d 2 off (some m.data.length) true
    let det ← zipOp (fun x y => x - y) m.data up
    let rest ← haarForward ref n ⟨d, downgradeWcs m.wcs 2 off true⟩
    return rest ++ [⟨det, m.wcs⟩]

/-- The loop of wavelets.HaarTransform.wave2map (wavelets.py:444-450). -/
def haarBackward {α} [AddCommGroup α] (ref : Option ℚ) : List (Map1 α) → Option (List α)
  | [] => none
  | m0 :: ms => ms.foldlM (fun om m => do
      let off := downgradeOffset m.wcs 2 ref
      let up ← upgradeData om 2 off (some m.data.length) true
      zipOp (fun x y => x + y) m.data up) m0.data

end Pixell
