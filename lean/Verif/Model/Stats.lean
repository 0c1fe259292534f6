import Verif.Model.Index
import Verif.Model.Ranges
import Mathlib.Data.Rat.Floor
import Mathlib.Algebra.Order.Field.Rat

/-
Nearest values, quantiles and robust means (pixell/utils.py).
-/
namespace Pixell

/-- `np.searchsorted(a, v)` and utils.search (utils.py:378-388) with side="left" on a sorted array: the number of elements
below `v`. -/
def searchLt (a : List ℚ) (v : ℚ) : Nat := a.countP fun x => decide (x < v)

/-- nearest_ind, utils.py:125-144, for one value.  `order` is what np.argsort returned.  Indices are Python indices, so that
-1 is the last element; `none` is an IndexError. -/
def nearestInd (order : List Nat) (arr : List ℚ) (sorted : Bool) (v : ℚ) : Option ℤ := do
  let s := if sorted then arr else order.map fun i => arr.getD i 0
  let i : ℤ := min (max (searchLt s v : ℤ) 1) ((s.length : ℤ) - 1)
  let a ← pyGet s (i - 1)
  let b ← pyGet s i
  let j := if |a - v| ≤ |b - v| then i - 1 else i
  if sorted then some j else (pyGet order j).map fun (k : Nat) => (k : ℤ)

/-- `a[1:] != a[:-1]` with `True` in front, and the elements selected (dedup, utils.py:531-534), for an array with at least
one element. -/
def dedupGo (prev : ℚ) : List ℚ → List ℚ
  | [] => []
  | x :: xs => if x ≠ prev then x :: dedupGo x xs else dedupGo x xs

/-- dedup, utils.py:531-534.  The mask of an empty array has one element too many, which is an IndexError (`none`). -/
def dedup : List ℚ → Option (List ℚ)
  | [] => none
  | x :: xs => some (x :: dedupGo x xs)

/-- medmean, utils.py:346-352, of an array that is already sorted, along one axis.  `none` is the NaN that np.mean returns for
no elements.  Python's slice `x[i:-i]` is empty for i=0. -/
def medmean (x : List ℚ) (frac : ℚ) : Option ℚ :=
  let i : ℤ := Int.fdiv (if 0 ≤ x.length * frac then ⌊x.length * frac⌋ else -⌊-(x.length * frac)⌋) 2
  let mid := if i ≤ 0 then [] else (x.drop i.toNat).take (x.length - 2 * i.toNat)
  if mid = [] then none else some (mid.sum / mid.length)

/-- The cumulative sum of the weights up to and including number `i` (np.cumsum, utils.py:425). -/
def cumW (w : List ℚ) (i : Nat) : ℚ := (w.take (i + 1)).sum

/-- The position of element `i` among the weights, utils.py:425-428. -/
def quantPos (w : List ℚ) (i : Nat) : ℚ :=
  (cumW w i - 1 / 2 * w.getD i 0) / (if 0 < cumW w (w.length - 1) then cumW w (w.length - 1) else 1)

/-- weighted_quantile, utils.py:390-453, of one row with `map` sorted and `ivar` in the same order (utils.py:419-421). -/
def weightedQuantileSorted (m w : List ℚ) (q : ℚ) : ℚ :=
  let n := m.length
  let ic := (List.range n).map (quantPos w)
  let i1 := searchLt ic q
  if i1 = 0 then m.getD 0 0
  else if i1 = n then m.getD (n - 1) 0
  else
    let x := (q - ic.getD (i1 - 1) 0) / (ic.getD i1 0 - ic.getD (i1 - 1) 0)
    m.getD (i1 - 1) 0 * (1 - x) + m.getD i1 0 * x

/-- weighted_quantile, utils.py:390-453, of one row; `order` is what np.argsort(map) returned. -/
def weightedQuantile (order : List Nat) (map ivar : List ℚ) (q : ℚ) : ℚ :=
  weightedQuantileSorted (order.map fun i => map.getD i 0) (order.map fun i => ivar.getD i 0) q

end Pixell
