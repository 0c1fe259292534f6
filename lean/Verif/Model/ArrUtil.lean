import Verif.Model.Angles
import Verif.Model.Number
import Verif.Model.Bins
import Verif.Model.Store
import Mathlib.Data.Nat.Log

/-! Small utilities for arrays, ranges of numbers and names of objects in pixell/utils.py. -/

namespace Pixell

/-- `slice_downgrade` along one axis, for the array `a` already cut and turned by `a[s.start:s.stop:-1 if step < 0 else 1]`
and `step = abs(s.step or 1)`. See utils.py:2886-2901. -/
def sliceDowngrade (a : List ℚ) (step : ℕ) : List ℚ :=
  let nwhole := a.length / step
  let a2 := (List.range nwhole).map fun k => meanQ ((a.drop (k * step)).take step)
  if a2.length * step ≠ a.length then a2 ++ [meanQ (a.drop (a2.length * step))] else a2

/-- `step = abs(s.step or 1)`: `None` and 0 both count as 1. See utils.py:2891-2893. -/
def downStep (s : Option ℤ) : ℕ := match s with
  | none => 1
  | some z => if z = 0 then 1 else z.natAbs

/-- `deslope(d, w)` of one row, for `w` of at least 1. See utils.py:310-319. -/
def deslope (d : List ℚ) (w : ℕ) : List ℚ :=
  let first := meanQ (d.take w)
  let last := meanQ (d.drop (d.length - w))
  d.zipIdx.map fun x => x.1 - ((x.2 : ℚ) * (last - first) / ((d.length : ℚ) - 1) + first)

/-- `repeat_filler(d, n)`; `none` is an exception: division by zero for an empty `d`, and `np.concatenate` of an empty list
for `n = 0`. See utils.py:302-308. -/
def repeatFiller (d : List ℚ) (n : ℕ) : Option (List ℚ) :=
  let d2 := d ++ d.reverse
  if d2.length = 0 then none
  else
    let nmul := (n + d2.length - 1) / d2.length
    if nmul = 0 then none else some ((List.replicate nmul d2).flatten.take n)

/-- `between_angles(a, range, period)`. See utils.py:1136-1138. -/
def betweenAngles (a r0 r1 period : ℚ) : Bool :=
  let a' := rewind a ((r0 + r1) / 2) period
  decide (r0 ≤ a') && decide (a' < r1)

/-- The shape `preflat(a, n)` gives an array of the given shape: `(-1,)+a.shape[n:]`. See utils.py:1122-1127. -/
def preflatShape (shape : List ℕ) (n : ℤ) : List ℕ :=
  let n := if n < 0 then (shape.length : ℤ) - n else n
  (shape.take n.toNat).prod :: shape.drop n.toNat

/-- The shape `postflat(a, n)` gives: `a.shape[:a.ndim-n]+(-1,)`, where a negative bound counts from the end. See
utils.py:1129-1134. -/
def postflatShape (shape : List ℕ) (n : ℤ) : List ℕ :=
  let n := if n < 0 then (shape.length : ℤ) - n else n
  let b := (shape.length : ℤ) - n
  let m := (if b < 0 then max (b + shape.length) 0 else b).toNat
  shape.take m ++ [(shape.drop m).prod]

/-- `np.arange(start,stop,step)` for integers; `none` for step 0. See utils.py:2282. -/
def arangeZ (start stop step : ℤ) : Option (List ℤ) :=
  if step = 0 then none
  else some ((List.range (⌈((stop - start : ℤ) : ℚ) / step⌉).toNat).map fun (k : ℕ) => start + (k : ℤ) * step)

/-- One word of `parse_numbers`: a number, or `start:stop[:step]`; further parts are ignored. `rd` reads a number. See
utils.py:2276-2282. -/
def parseWord (rd : List Char → Option ℤ) (word : List Char) : Option (List ℤ) := do
  let toks ← (pySplit ':' word).mapM rd
  if ':' ∉ word then some (toks.take 1)
  else match toks with
    | start :: stop :: [] => arangeZ start stop 1
    | start :: stop :: step :: _ => arangeZ start stop step
    | _ => none

/-- `parse_numbers(s, dtype)`, with `dtype` a function that reads a number, or absent: calling None is a TypeError.
`parse_ints(s)` is the case `dtype = int`. See utils.py:2271-2286. -/
def parseNumbers (dtype : Option (List Char → Option ℤ)) (s : List Char) : Option (List ℤ) := do
  let rd ← dtype
  let parts ← (pySplit ',' s).mapM (parseWord rd)
  some parts.flatten

/-- `ndigit(num)`: `floor(maximum(1,log10(num)))+1`, with exact logarithms; `log10(0)` is -inf. See utils.py:2736-2738. -/
def ndigit (num : ℕ) : ℕ := max 1 (Nat.log 10 num) + 1

/-- The numbers that `jname(ra, dec)` prints with its default format, which cuts off the fractions of seconds:
hours, minutes and seconds of ra, degrees, arcminutes and arcseconds of dec. See utils.py:3161-3187. -/
def jnameFields (ra dec : ℚ) : (ℤ × ℤ × ℤ) × (ℤ × ℤ × ℤ) :=
  let rah := toSexa (pmod (ra / 15) 24)
  let ded := toSexa dec
  ((rah.1 * rah.2.1, rah.2.2.1, intTrunc rah.2.2.2), (ded.1 * ded.2.1, ded.2.2.1, intTrunc ded.2.2.2))

end Pixell
