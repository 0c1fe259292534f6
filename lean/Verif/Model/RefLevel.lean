import Verif.Model.Crop
import Verif.Model.Index
import Mathlib.Data.Rat.Floor

/-
Unions of arrays, tables interpolated row by row, medians of what is not masked and the reference level of a
list of values (utils.py, analysis.py).  `none` is an exception, or NaN where values are `Option ℚ`.
-/
namespace Pixell

/-- `np.union1d`. Used for utils.py:179-184. -/
def union1d (a b : List ℤ) : List ℤ := npUnique (a ++ b)

/-- union, utils.py:179-184 (`arrs[0]` of an empty list raises). -/
def unionAll : List (List ℤ) → Option (List ℤ)
  | [] => none
  | a :: r => some (r.foldl union1d a)

/-- Assignment to an array of integers drops the fraction. See utils.py:694. -/
def dropFraction (q : ℚ) : ℚ := if 0 ≤ q then (⌊q⌋ : ℚ) else (⌈q⌉ : ℚ)

/-- `np.interp` from the first point on, for points `(xp, fp)`. Used for utils.py:694. -/
def interpFrom : List (ℚ × ℚ) → Option ℚ → ℚ → ℚ
  | [], _, _ => 0
  | [p], right, x => if p.1 < x then right.getD p.2 else p.2
  | p :: q :: r, right, x =>
    if x < q.1 then p.2 + (q.2 - p.2) / (q.1 - p.1) * (x - p.1) else interpFrom (q :: r) right x

/-- `np.interp(x, xp, fp, left, right)` for one `x`, without a period. Used for utils.py:694. -/
def interpOne (pts : List (ℚ × ℚ)) (left right : Option ℚ) (x : ℚ) : ℚ :=
  if x < (pts.headD (0, 0)).1 then left.getD (pts.headD (0, 0)).2 else interpFrom pts right x

/-- interp, utils.py:684-697, for the flattened leading axes of `fp`.  `whole` tells that `fp` has an integer dtype, which
the result of line 692 gets too. No points or rows of another length raise in `np.interp`. -/
def interpRows (whole : Bool) (xs xp : List ℚ) (fp : List (List ℚ)) (left right : Option ℚ) : Option (List (List ℚ)) :=
  if xp = [] then none
  else if fp.any fun row => decide (row.length ≠ xp.length) then none
  else some (fp.map fun row => xs.map fun x =>
    let v := interpOne (xp.zip row) left right x
    if whole then dropFraction v else v)

/-- `arr != maskval`, where a NaN (`none`) differs from everything. See utils.py:369. -/
def differs : Option ℚ → Option ℚ → Bool
  | some a, some b => decide (a ≠ b)
  | _, _ => true

/-- maskmed along one axis, utils.py:366-374: `mask` tells what to keep.  Simplified: a NaN that is kept makes the median
NaN, which numpy.ma only promises if nothing is masked. -/
def maskMed (arr : List (Option ℚ)) (mask : Option (List Bool)) (maskval : Option ℚ) : Option ℚ :=
  let mask := mask.getD (arr.map fun x => differs x maskval)
  let kept := ((arr.zip mask).filter fun p => p.2).map fun p => p.1
  if kept = [] then maskval else npMedian kept

/-- `vals[::step]`. Used for analysis.py:1115. -/
def everyNth {α : Type} (step : Nat) (l : List α) : List α :=
  ((l.zipIdx).filter fun p => p.2 % step == 0).map fun p => p.1

/-- One pass of the loop of get_ref, analysis.py:1111-1115; `none` if there are no values. -/
def refPass (a : List ℚ) (n : Nat) (ref : ℚ) : Option ℚ :=
  let vals := a.filter fun x => decide (ref < x)
  if vals = [] then none
  else npMedian ((everyNth (max 1 (vals.length / n)) vals).map some)

/-- get_ref, analysis.py:1109-1116 (`tol` is not used there), for `n ≥ 1`. -/
def getRef (a : List ℚ) (default : ℚ) (n : Nat) : ℚ :=
  match refPass a n 0 with
  | none => default
  | some r1 => (refPass a n r1).getD default

end Pixell
