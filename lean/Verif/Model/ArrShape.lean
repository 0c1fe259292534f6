import Verif.Model.Index
import Verif.Model.Ranges
import Verif.Model.MapPlace
import Verif.Model.Num

/-! Shapes and strides of arrays, membership tests, and zipping iterators. See pixell/utils.py. Shapes are lists of lengths, strides lists of ints. -/

namespace Pixell

/-! ### Membership -/

/-- `contains(array, vals)`; `none` is the IndexError of indexing an empty array. See utils.py:145-155. -/
def containsVals (array vals : List ℤ) : Option (List Bool) :=
  let vals := sortBy (fun x y => decide (x ≤ y)) vals
  let inds := array.map fun v => if vals.length ≤ searchLeft vals v then 0 else searchLeft vals v
  (inds.mapM fun i => vals[i]?).map fun found => List.zipWith (fun x v => decide (x = v)) found array

/-- `without_inds(a, inds)`. See utils.py:3439-3446. -/
def withoutInds {α : Type} (a : List α) (inds : List ℤ) : List α :=
  let inds := inds.map fun (n : ℤ) => if n < 0 then n + a.length else n
  (a.zipIdx.filter fun p => decide ((p.2 : ℤ) ∉ inds)).map Prod.fst

/-- `only_inds(a, inds)`; `none` is an IndexError. See utils.py:3448-3453. -/
def onlyInds {α : Type} (a : List α) (inds : List ℤ) : Option (List α) := inds.mapM (pyGet a)

/-! ### Shapes -/

/-- `a.reshape(pre+(-1,)+post)` for an array of `size` elements; `none` is an exception, also when the length is not determined because the others
multiply to zero. -/
def reshapeAuto (size : ℕ) (pre post : List ℕ) : Option (List ℕ) :=
  let k := pre.prod * post.prod
  if k = 0 then none else if size % k = 0 then some (pre ++ [size / k] ++ post) else none

/-- The shape of `to_Nd(a, n, axis)`. See utils.py:1111-1120. -/
def toNd (shape : List ℕ) (n : ℕ) (axis : ℤ) : Option (List ℕ) :=
  let ndim : ℤ := shape.length
  let cut := fun i : ℤ => (sliceBound i ndim).toNat
  if shape.length ≤ n then
    let axis := if axis < 0 then ndim + 1 + axis else axis
    some (shape.take (cut axis) ++ List.replicate (n - shape.length) 1 ++ shape.drop (cut axis))
  else
    let axis := if axis < 0 then n + axis else axis
    reshapeAuto shape.prod (shape.take (cut axis)) (shape.drop (cut (axis + 1 + ndim - n)))

/-- `resize_array(arr, size, axis, val)`: the shape, and the value at every index. `axis` are the axes after `a%arr.ndim`. See utils.py:1471-1484. -/
def resizeShape (shape : List ℕ) (size : List ℕ) (axis : List ℕ) : List ℕ :=
  (axis.zip size).foldl (fun s p => s.set p.1 p.2) shape

/-- The values: `res[slices] = arr[slices]` with `slice(0,min(s1,s2))` in an array full of `val`. See utils.py:1481-1483. -/
def resizeVals {α : Type} (shape oshape : List ℕ) (arr : List ℕ → α) (val : α) (idx : List ℕ) : α :=
  if (List.zipWith (fun i m => decide (i < m)) idx (List.zipWith min shape oshape)).all id then arr idx else val

/-- `array[(None,)*i + (slice(None),) + (None,)*(n-i-1)]` broadcast against the output: axes of length 1 are always read at 0. See utils.py:2907. -/
def noneIndex {α : Type} [Inhabited α] (n i : ℕ) (array : List α) (idx : List ℕ) : α :=
  let shape := List.replicate i 1 ++ [array.length] ++ List.replicate (n - i - 1) 1
  array.getD (ravel shape (List.zipWith (fun d j => if d = 1 then 0 else j) shape idx)) default

/-- `outer_stack(arrays)[i][idx]`, where `isInt` says whether the first array, whose dtype the result has, is of integers. See utils.py:2903-2908. -/
def outerStack (isInt : Bool) (arrays : List (List ℚ)) (i : ℕ) (idx : List ℕ) : ℚ :=
  let v := noneIndex arrays.length i (arrays.getD i []) idx
  if isInt then intTrunc v else v

/-! ### Strides -/

/-- The address of an element relative to the first. -/
def address (strides : List ℤ) (idx : List ℕ) : ℤ := (List.zipWith (fun (s : ℤ) (i : ℕ) => s * i) strides idx).sum

/-- The stride of a length-one axis that has none: `last` for the last axis, or the one after it times its length. `axes` and `done` are the axes after it and their new strides.
See utils.py:1161-1163. -/
def nextStride (last : ℤ) (axes : List (ℕ × ℤ)) (done : List ℤ) : ℤ :=
  match axes, done with
  | (m, _) :: _, t :: _ => t * m
  | _, _ => last

/-- The loop of fix_zero_strides over the axes from the last to the first; the axes are (length, stride). See utils.py:1157-1165. -/
def fixLoop (last : ℤ) : List (ℕ × ℤ) → List ℤ
  | [] => []
  | (n, s) :: rest => (if s = 0 ∧ n = 1 then nextStride last rest (fixLoop last rest) else s) :: fixLoop last rest

/-- The strides of `fix_zero_strides(a)`. See utils.py:1150-1168. -/
def fixZeroStrides (shape : List ℕ) (strides : List ℤ) (item : ℤ) : List ℤ :=
  let good := strides.filter fun s => decide (s ≠ 0)
  fixLoop (good.getLast?.getD item) (shape.zip strides)

/-- The loop of iscontig; the axes are (length, stride), last first. See utils.py:3570-3575. -/
def contigLoop : ℤ → List (ℕ × ℤ) → Bool
  | _, [] => true
  | e, (n, s) :: rest => if s ≠ e then false else contigLoop (e * n) rest

/-- `iscontig(a, naxes)`. See utils.py:3564-3576. -/
def isContig (shape : List ℕ) (strides : List ℤ) (item : ℤ) (naxes : Option ℕ) : Bool :=
  let k := min shape.length (naxes.getD shape.length)
  contigLoop item ((shape.zip strides).reverse.take k)

/-! ### Iterators -/

/-- An iterator: what is still to come, and how often `next` was called. -/
abbrev PyIter (α : Type) := List α × ℕ

/-- One row of zip2: `next` on every argument; the values, the iterators, and whether one had ended. See utils.py:3585-3590. -/
def zip2Row {α : Type} : List (PyIter α) → List α × List (PyIter α) × Bool
  | [] => ([], [], false)
  | ([], c) :: its => ((zip2Row its).1, ([], c + 1) :: (zip2Row its).2.1, true)
  | (x :: l, c) :: its => (x :: (zip2Row its).1, (l, c + 1) :: (zip2Row its).2.1, (zip2Row its).2.2)

/-- `list(zip2(*args))` with at most `fuel` rows: the rows, the iterators afterwards, and whether it came to an end. See utils.py:3578-3592. -/
def zip2 {α : Type} : ℕ → List (PyIter α) → List (List α) × List (PyIter α) × Bool
  | 0, its => ([], its, false)
  | fuel + 1, its =>
    if (zip2Row its).2.2 then ([], (zip2Row its).2.1, true)
    else ((zip2Row its).1 :: (zip2 fuel (zip2Row its).2.1).1, (zip2 fuel (zip2Row its).2.1).2)

end Pixell
