import Verif.Model.Axes
import Verif.Model.Broadcast
import Verif.Model.Blocks
import Verif.Model.Bins
import Verif.Model.Crop
import Mathlib.Data.Rat.Floor

/-!
Arrays broadcast with exempted axes, counts per row, means of blocks, replaced texts (pixell/utils.py).
`none` is an exception.
-/
namespace Pixell

/-- `arr[(slice(None),)*my_at+(None,)*ninsert]`: new axes of length one; an IndexError if there are more slices than axes, and a
tuple repeated a negative number of times is empty. Used in pixell/utils.py:2109. -/
def Nd.newAxes {α : Type} (a : Nd α) (myAt : ℤ) (k : ℕ) : Option (Nd α) :=
  let p := myAt.toNat
  if a.shape.length < p then none
  else some ⟨a.shape.take p ++ List.replicate k 1 ++ a.shape.drop p, fun idx => a.get (idx.take p ++ idx.drop (p + k))⟩

/-- `np.broadcast_to(arr, shape)` for a shape of as many axes as arr has (pixell/utils.py:2109 inserts the missing ones). -/
def Nd.broadcastTo {α : Type} (a : Nd α) (shape : List ℕ) : Option (Nd α) :=
  if a.shape.length = shape.length ∧ (List.zipWith (fun n o => n == o || n == 1) a.shape shape).all id then
    some ⟨shape, fun idx => a.get (List.zipWith (fun n i => if n = 1 then 0 else i) a.shape idx)⟩
  else none

/-- The axes that take part in the broadcasting, pixell/utils.py:2101, for npre+npost at most ndim. -/
def bcWork (s : List ℕ) (npre npost : ℕ) : List ℕ := (s.take (s.length - npost)).drop npre

/-- One array of the result, pixell/utils.py:2107-2109. -/
def bcOne {α : Type} (oshape : List ℕ) (at_ : ℤ) (npre npost : ℕ) (a : Nd α) : Option (Nd α) := do
  let ninsert := oshape.length - (a.shape.length - npre - npost)
  let myAt : ℤ := if at_ ≥ 0 then npre + at_ else a.shape.length + 1 + at_ - npost
  let b ← a.newAxes myAt ninsert
  b.broadcastTo (a.shape.take npre ++ oshape ++ a.shape.drop (a.shape.length - npost))

/-- pixell/utils.py:2085-2110 (broadcast_arrays): the arrays with their npre and npost; `none` in the list is the array None. The
arrays have at least npre+npost axes. -/
def bcArrays {α : Type} (arrays : List (Option (Nd α) × ℕ × ℕ)) (at_ : ℤ) : Option (List (Option (Nd α))) := do
  let oshape ← broadcastShape (arrays.filterMap fun x => x.1.map fun a => bcWork a.shape x.2.1 x.2.2) at_
  arrays.mapM fun x => match x.1 with
    | none => some none
    | some a => (bcOne oshape at_ x.2.1 x.2.2 a).map some

/-- The type of the weights of bincount: values stored in an array of it, pixell/utils.py:713. -/
inductive WType | float | int | bool
  deriving DecidableEq, Repr

/-- `res[I] = values`: the cast of the assignment of pixell/utils.py:715. -/
def WType.cast (t : WType) (v : ℚ) : ℚ :=
  match t with
  | .float => v
  | .int => if 0 ≤ v then ⌊v⌋ else ⌈v⌉
  | .bool => if v = 0 then 0 else 1

/-- `np.bincount(pix, weights, minlength)` where n is larger than all of pix; used in pixell/utils.py:715. -/
def npBincount (n : ℕ) (pix : List ℕ) (w : List ℚ) : List ℚ :=
  (List.range n).map fun v => ((pix.zip w).map fun x => if x.1 = v then x.2 else 0).sum

/-- pixell/utils.py:709-716 (bincount): rows of pixels and rows of weights, after the broadcasting; np.max of nothing raises. -/
def binCount (pix : List (List ℕ)) (weights : Option (WType × List (List ℚ))) (minlength : ℕ) : Option (List (List ℚ)) :=
  if pix.flatten = [] then none
  else
    let n := max (pix.flatten.foldl max 0 + 1) minlength
    some ((List.range pix.length).map fun r =>
      let p := pix.getD r []
      match weights with
      | none => npBincount n p (p.map fun _ : ℕ => 1)
      | some (t, w) => (npBincount n p (w.getD r [])).map t.cast)

/-- `utils.nint` of a number of samples times a fraction, pixell/utils.py:362: rounding half to even. -/
def bsizeOf (n : ℕ) (frac : ℚ) : ℤ :=
  let x := n * frac
  let f := ⌊x⌋
  if x - f < 1 / 2 then f else if 1 / 2 < x - f then f + 1 else if f % 2 = 0 then f else f + 1

/-- pixell/utils.py:354-364 (medmean2) of finite numbers along one axis; a block size of zero is a ZeroDivisionError, and negative ones
are not modelled. -/
def medmean2 (x : List ℚ) (frac : ℚ) (bsize : Option ℕ) : Option ℚ := do
  let b := bsize.getD (bsizeOf x.length frac).toNat
  if b = 0 then none
  else
    let means ← blockReduce meanQ x b 0 true
    npMedian (means.map some)

end Pixell
