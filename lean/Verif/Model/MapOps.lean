import Verif.Model.Geometry
import Verif.Model.Num
/-
Whole-map operations, one axis at a time: padding, shifting, projecting, pixel boxes of compatible
geometries, unions, compatibility, recentering.
-/
namespace Pixell
open PySpec (Slice npGet npSet)

/-- The data part of enmap.pad without `wrap` (enmap.py:2257-2259) on one axis: allocate a constant
array and assign the map into `slice(p, N-q)`.  `none` is numpy's shape-mismatch `ValueError`. -/
def padData {α} (l : List α) (p q : Nat) (v : α) : Option (List α) :=
  let N := l.length + p + q
  npSet (List.replicate N v) ⟨some p, some ((N : Int) - q), none⟩ l

/-- enmap.pad with `wrap=True` (enmap.py:2260-2264), one axis: the low padding is copied from
`[-p-q:-q]`, then the high padding `[-q:]` from `[p:p+q]`. -/
def padWrap {α} (l : List α) (p q : Nat) (v : α) : Option (List α) := do
  let res ← padData l p q v
  let lo ← npGet res ⟨some (-(p : Int) - q), some (-(q : Int)), none⟩
  let res ← npSet res ⟨none, some p, none⟩ lo
  let hi ← npGet res ⟨some p, some ((p : Int) + q), none⟩
  npSet res ⟨some (-(q : Int)), none, none⟩ hi

/-- `np.roll(l, o)` along one axis: element `j` of the result is element `(j - o) mod n`. Used for enmap.py:3077-3087. -/
def npRoll {α} (l : List α) (o : Int) : List α :=
  (List.range l.length).filterMap fun (j : Nat) => l[(((j : Int) - o) % l.length).toNat]?

/-- enmap.shift (enmap.py:3077-3087), one axis, `keepwcs=False`: data and WCS. -/
def shiftMap {α} (l : List α) (w : Axis) (o : Int) : List α × Axis :=
  (if o ≠ 0 then npRoll l o else l, shiftWcs w o)

/-- wcsutils.is_compatible (wcsutils.py:146-163), one axis, for two WCS whose headers otherwise
agree.  `%1` is Python's. -/
def isCompatible (w1 w2 : Axis) (tol : ℚ) : Bool :=
  if |w1.cdelt - w2.cdelt| / |w1.cdelt| > tol then false
  else
    let crdelt := w1.crval - w2.crval
    let cpdelt := w1.crpix - w2.crpix
    let subpix := pmod (crdelt / w1.cdelt - cpdelt + 1/2) 1 - 1/2
    if |subpix| > tol then false else true

/-- enmap.pixbox_of (enmap.py:639-651), one axis.  `none` is the failed assertion. -/
def pixboxOf (iw : Axis) (n : Nat) (ow : Axis) (tol : ℚ := 1/1000) : Option (Int × Int) :=
  if isCompatible iw ow tol then
    let off := rint ((iw.crpix - ow.crpix) - (iw.crval - ow.crval) / iw.cdelt)
    some (off, off + n)
  else none

/-- enmap.union_geometry (enmap.py:1777-1787) with utils.bounding_box (utils.py:1261-1268), one axis.
The first geometry is the reference. -/
def unionGeometry (ref : Nat × Axis) (rest : List (Nat × Axis)) (tol : ℚ := 1/1000) :
    Option (Int × Axis) := do
  let boxes ← (ref :: rest).mapM fun g => pixboxOf ref.2 g.1 g.2 tol
  let b0 ← (boxes.map Prod.fst).min?
  let b1 ← (boxes.map Prod.snd).max?
  return (b1 - b0, { ref.2 with crpix := ref.2.crpix - b0 })

/-- Shape of the map returned by enmap.project (enmap.py:606-612) along one axis, as a function of
the decisions it takes: `eqWcs` = `wcsutils.equal(map.wcs, wcs)`, `compat` =
`wcsutils.is_compatible(...)`, `constant` = `border == "constant"`.  Line 608 compares
`tuple(shape[-2:])` with itself. -/
def projectShape (inShape reqShape : Nat) (force eqWcs compat constant : Bool) : Nat :=
  if !force then
    if eqWcs && (reqShape == reqShape) then inShape   -- map.copy()
    else if compat && constant then reqShape          -- extract
    else reqShape
  else reqShape

/-- wcsutils.fix_wcs (wcsutils.py:602-627), the branch after the separability check; `n` is the
optional pixel count. -/
def fixWcs (w : Axis) (n : Option ℚ := none) : Axis :=
  let n := n.getD |360 / w.cdelt|
  let ra1 := w.crval - w.crpix * w.cdelt
  let ra2 := ra1 + (n - 1) * w.cdelt
  let left := |w.crval - ra1|
  let right := |w.crval - ra2|
  if max left right ≤ 180 then w
  else
    let mid := 1/2 * (ra1 + ra2)
    let dra := mid - w.crval
    let dpix := dra / w.cdelt
    { w with crval := w.crval + mid, crpix := w.crpix + dpix }

/-- What is asked of pixelize_1d: a pixel count or a resolution. Used for wcsutils.py:279-332. -/
inductive PixReq where
  | count (n : ℤ)
  | res (r : ℚ)

/-- Result of wcsutils.pixelize_1d. Used for wcsutils.py:316-332. -/
structure Pix1d where
  ra1 : ℚ
  ra2 : ℚ
  n : ℤ
  o1 : Option ℚ
  o2 : Option ℚ
deriving DecidableEq

/-- The tail of wcsutils.pixelize_1d (wcsutils.py:316-332), after `n`, `res`, `w` are known.  At
least one offset is set when this point is reached; the last case is unreachable. -/
def pixFinish (w : ℚ) (n : ℤ) (res : ℚ) (o1 o2 : Option ℚ) (periodic : Bool) (sign : ℚ) : Pix1d :=
  let ra : ℚ × ℚ :=
    match o1, o2 with
    | some o1, _ => (-w/2 + o1*res, -w/2 + o1*res + (n-1)*res)
    | none, some o2 => (w/2 + o2*res - (n-1)*res, w/2 + o2*res)
    | none, none => (0, 0)
  if periodic && allclose (ra.2 - ra.1) w then
    ⟨ra.1 * sign, (ra.2 - res) * sign, n - 1, o1, o2⟩
  else ⟨ra.1 * sign, ra.2 * sign, n, o1, o2⟩

/-- The resolution branch of wcsutils.pixelize_1d (wcsutils.py:290-311) after the sign of `res` has
been normalised and double wildcards have been resolved. -/
def pixRes (w res : ℚ) (o1 o2 : Option ℚ) (periodic adjust : Bool) (sign tol eps : ℚ) :
    Option Pix1d :=
  match o1, o2 with
  | some a, none => some (pixFinish w (intTrunc (w/res + 1 - a + eps)) res o1 o2 periodic sign)
  | none, some b => some (pixFinish w (intTrunc (w/res + 1 + b + eps)) res o1 o2 periodic sign)
  | some a, some b =>
    let nf := w/res + 1 - (a - b)
    let n := intTrunc (nf + eps)
    if adjust then some (pixFinish ((n + (a + b) - 1) * res) n res o1 o2 periodic sign)
    else if |(n : ℚ) - nf| < tol then some (pixFinish w n res o1 o2 periodic sign)
    else none
  | none, none => none

/-- wcsutils.pixelize_1d (wcsutils.py:279-332).  `none` is the `PixelizationError`. -/
def pixelize1d (w : ℚ) (req : PixReq) (o1 o2 : Option ℚ) (periodic adjust : Bool := false)
    (sign : ℚ := 1) (tol eps : ℚ := 1/10^6) : Option Pix1d :=
  match req with
  | .res r =>
    let r' := if r < 0 then -r else r
    let sign := if r < 0 then -sign else sign
    if o1.isNone && o2.isNone then pixRes w r' (some 0) (some 0) periodic true sign tol eps
    else pixRes w r' o1 o2 periodic adjust sign tol eps
  | .count n =>
    let a := o1.getD (1/2)
    let b := o2.getD (-1/2)
    some (pixFinish w n (w / (n - 1 + a - b)) (some a) (some b) periodic sign)

/-- The WCS built by wcsutils.pixelization (wcsutils.py:93-99) from one pixelize_1d result (both
offsets set), `crval = 0`. -/
def pixelizationAxis (p : Pix1d) (o1 o2 : ℚ) : Axis :=
  { crval := 0
    cdelt := (p.ra2 - p.ra1) / (p.n - 1)
    crpix := 1 + ((p.n - 1) - o2 - o1) / 2 }

/-- The pixel counts `(ny, nx)` requested from pixelize_1d by wcsutils.pixelization when a shape is
given (wcsutils.py:87-88): both calls use `shape[-2]`. -/
def pixelizationCounts (ny _nx : ℤ) : ℤ × ℤ := (ny, ny)

/-- enmap.fullsky_geometry (enmap.py:1668-1695) from a shape, in degrees: `yo` is 1 for the
Clenshaw-Curtis and 0 for the Fejer1 variant.  Returns the (dec, ra) axes. -/
def fullskyGeometry (ny nx : Nat) (yo : Nat) : Axis × Axis :=
  (⟨0, 180 / ((ny : ℚ) - yo), ((ny : ℚ) + 1) / 2⟩,
   ⟨(360 / (nx : ℚ)) / 2, -360 / (nx : ℚ), ((nx / 2 : Nat) : ℚ) + 1/2⟩)

end Pixell
