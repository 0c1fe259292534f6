import Verif.Model.Ranges
import Mathlib.Data.Rat.Floor
import Mathlib.Algebra.Order.Field.Rat
import Mathlib.LinearAlgebra.Matrix.NonsingularInverse

/-! Scans that sweep back and forth, and the edges of bins given their centres. See pixell/utils.py:859-879 and 3700-3727. -/

namespace Pixell

/-- `aabs`: distance from the middle of the range; `amin`, `amax` are the extremes. See utils.py:871-873. -/
def sweepDist (az : ℕ → ℚ) (amin amax : ℚ) (i : ℕ) : ℚ := |az i - (amax + amin) / 2|

/-- The guarantee of `scipy.ndimage.maximum_position` for the area from `a` to before `b`: a position in it at which the value is largest. Which one is not said when there
are several. See utils.py:876. -/
def IsMaxPos (f : ℕ → ℚ) (pos : ℕ → ℕ → ℕ) : Prop :=
  ∀ a b, a < b → a ≤ pos a b ∧ pos a b < b ∧ ∀ i, a ≤ i → i < b → f i ≤ f (pos a b)

/-- One such choice: the first position of the largest value of `f` at `a`, ..., `a+k`. -/
def firstMax (f : ℕ → ℚ) (a : ℕ) : ℕ → ℕ
  | 0 => a
  | k + 1 => if f (firstMax f a k) < f (a + k + 1) then a + k + 1 else firstMax f a k

/-- Turning points: for each connected area near the extremes the position of the extremum. See utils.py:874-876. -/
def turnsOf (pos : ℕ → ℕ → ℕ) (n : ℕ) (f : ℕ → ℚ) (lim : ℚ) : List ℕ :=
  (mask2range ((List.range n).map fun i => decide (lim < f i))).map fun r => pos r.1 r.2

/-- Remove equal neighbours: `np.unique` of a list that is already sorted. -/
def dedupSorted : List ℕ → List ℕ
  | [] => []
  | [a] => [a]
  | a :: b :: l => if a = b then dedupSorted (b :: l) else a :: dedupSorted (b :: l)

/-- `find_sweeps(az, tol)`; `pos` is the choice of maximum_position in each area. `none` is an exception: no samples, or no turning points, for which
maximum_position fails or gives an array without the axis that is indexed. See
utils.py:859-879. -/
def findSweeps (pos : ℕ → ℕ → ℕ) (n : ℕ) (az : ℕ → ℚ) (tol : ℚ) : Option (List (ℕ × ℕ)) :=
  match ((List.range n).map az).min?, ((List.range n).map az).max? with
  | some amin, some amax =>
    let turns := turnsOf pos n (sweepDist az amin amax) ((amax - amin) / 2 * (1 - tol))
    if turns.isEmpty then none
    else
      let t := dedupSorted (0 :: turns ++ [n])
      some (t.zip t.tail)
  | _, _ => none

/-- The matrix of infer_bin_edges: row `i < n` is the mean of edges `i` and `i+1`, the last row the width of bin `ref`. See utils.py:3715-3724. -/
def edgeMatrix (n ref : ℕ) : Matrix (Fin (n + 1)) (Fin (n + 1)) ℚ := fun i j =>
  if i.val < n then (if j.val = i.val then 1/2 else 0) + (if j.val = i.val + 1 then 1/2 else 0)
  else (if j.val = ref then -1 else 0) + (if j.val = ref + 1 then 1 else 0)

/-- The right hand side. See utils.py:3725. -/
def edgeRhs (n ref : ℕ) (c : ℕ → ℚ) : Fin (n + 1) → ℚ := fun i => if i.val < n then c i.val else c (ref + 1) - c ref

/-- `infer_bin_edges(centers, ref)`: `edges` is a solution of the normal equations; sparse.linalg.spsolve returns one. See utils.py:3726. -/
def IsBinEdges (n ref : ℕ) (c : ℕ → ℚ) (edges : Fin (n + 1) → ℚ) : Prop :=
  ((edgeMatrix n ref).transpose * edgeMatrix n ref).mulVec edges = (edgeMatrix n ref).transpose.mulVec (edgeRhs n ref c)

end Pixell
