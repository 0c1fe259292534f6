import Mathlib.Algebra.Order.Field.Rat
import Mathlib.Algebra.BigOperators.Group.List.Basic

/-
Broadcasting of shapes, transposed indices, labels of unique values, blockwise means (pixell/utils.py).
-/
namespace Pixell

/-- A shape with ones inserted, utils.py:2077-2078.  Both slices use the same Python index. -/
def padShape (ndim : Nat) (at_ : ℤ) (shape : List Nat) : List Nat :=
  let myAt : ℤ := if at_ ≥ 0 then at_ else shape.length + 1 + at_
  let k : Nat := if myAt ≥ 0 then myAt.toNat else (shape.length + myAt).toNat
  shape.take k ++ List.replicate (ndim - shape.length) 1 ++ shape.drop k

/-- One axis, utils.py:2080-2082; `none` is the ValueError. -/
def bcAxis (o v : Nat) : Option Nat := if o ≠ v ∧ v ≠ 1 then (if o = 1 then some v else none) else some o

/-- All axes for one of the shapes, utils.py:2079-2082. -/
def bcStep : List Nat → List Nat → Option (List Nat)
  | o :: os, v :: vs => do
    let c ← bcAxis o v
    let r ← bcStep os vs
    return c :: r
  | os, _ => some os

/-- broadcast_shape, utils.py:2066-2083 (the definition at utils.py:2052-2064 is replaced by this one). -/
def broadcastShape (shapes : List (List Nat)) (at_ : ℤ) : Option (List Nat) :=
  if shapes = [] then none
  else
    let ndim := (shapes.map List.length).foldl max 0
    (shapes.map (padShape ndim at_)).foldlM bcStep (List.replicate ndim 1)

/-- transpose_inds, utils.py:1919-1924. -/
def transposeInds (ind nrow ncol : Nat) : Nat := ind % ncol * nrow + ind / ncol

/-- np.isclose(a,b,rtol,atol) for numbers that may be NaN (`none`), as used in utils.py:1914. -/
def iscloseQ (rtol atol : ℚ) : Option ℚ → Option ℚ → Bool
  | some a, some b => decide (|a - b| ≤ atol + rtol * |b|)
  | _, _ => false

/-- One step of the loop of label_unique, utils.py:1912-1916. -/
def uniqStep {α : Type} (close : α → α → Bool) (fa : List α) (st : List ℤ × ℤ) (i : Nat) : List ℤ × ℤ :=
  match st.1[i]?, fa[i]? with
  | some l, some v => if l ≥ 0 then st else (List.zipWith (fun x m => if close v x then st.2 else m) fa st.1, st.2 + 1)
  | _, _ => st

/-- label_unique, utils.py:1892-1917, for flattened entries `fa` compared by `close`; the labels and their number. -/
def labelUnique {α : Type} (close : α → α → Bool) (fa : List α) : List ℤ × ℤ :=
  (List.range fa.length).foldl (uniqStep close fa) (List.replicate fa.length (-1), 0)

/-- block_mean_filter, utils.py:2175-2192, of one row of floating point numbers, for a whole number `width` above zero. -/
def blockMeanFilter (a : List ℚ) (width : Nat) : List ℚ :=
  if a.length < width then a.map fun _ => a.sum / a.length
  else
    let apad := a ++ a.dropLast.reverse
    (List.range a.length).map fun i => ((apad.drop (i / width * width)).take width).sum / width

end Pixell
