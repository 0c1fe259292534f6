import Verif.Model.Splits
import Mathlib.Data.List.Range

/-
Iteration over multi-indices, digit counting, escaped splitting and index splitting (utils.py).
Generators are modelled by the list of values they yield; `fuel` bounds the number of values and `none` means the
generator was still running (or, where said, raised).
-/
namespace Pixell

/-! ### nditer -/

/-- The `for ax in axes` loop of nditer, utils.py:3432-3437 (and cmisc.pyx:83-88): advance the first axis that does
not overflow, zeroing the ones that do.  `none` in an index is `slice(None)`.  The flag says whether the loop was
left by `break`. -/
def ndCarry (shape : List Nat) : List Nat → List (Option Nat) → List (Option Nat) × Bool
  | [], I => (I, false)
  | ax :: rest, I =>
    let v := (I.getD ax none).getD 0 + 1
    if v < shape.getD ax 0 then (I.set ax (some v), true) else ndCarry shape rest (I.set ax (some 0))

/-- The `while True` loop of nditer, utils.py:3430-3437. -/
def ndRun : Nat → List Nat → List Nat → List (Option Nat) → Option (List (List (Option Nat)))
  | 0, _, _, _ => none
  | fuel + 1, shape, axes, I =>
    let next := ndCarry shape axes I
    if next.2 then (ndRun fuel shape axes next.1).map (I :: ·) else some [I]

/-- The axes to iterate over, ascending; utils.py:3426. -/
def ndAxes (ndim : Nat) : Option (List ℤ) → List Nat
  | none => List.range ndim
  | some l => sortBy (fun a b => decide (a ≤ b)) (l.map fun (a : ℤ) => (a.fmod ndim).toNat)

/-- nditer, utils.py:3420-3437.  `ax % ndim` with `ndim = 0` raises; the model is only used with `ndim > 0` or no
`axes`. -/
def nditer (fuel : Nat) (shape : List Nat) (axes : Option (List ℤ)) : Option (List (List (Option Nat))) :=
  let ndim := shape.length
  let rev := (ndAxes ndim axes).reverse
  let I := rev.foldl (fun I a => I.set a (some 0)) (List.replicate ndim none)
  ndRun fuel shape rev I

/-! ### count_variable_basis -/

/-- The `for i` loop of count_variable_basis, utils.py:2814-2819: on overflow of digit `i` all digits from `i` on
are zeroed. -/
def cvbCarry (bases : List Nat) : List Nat → List Nat → List Nat × Bool
  | [], I => (I, false)
  | i :: rest, I =>
    let I := I.modify i (· + 1)
    if I.getD i 0 < bases.getD i 0 then (I, true)
    else cvbCarry bases rest (I.take i ++ List.replicate (I.length - i) 0)

/-- Used for utils.py:2804-2820. -/
def cvbRun : Nat → List Nat → List Nat → Option (List (List Nat) × List Nat)
  | 0, _, _ => none
  | fuel + 1, bases, I =>
    let next := cvbCarry bases (List.range bases.length).reverse I
    if next.2 then (cvbRun fuel bases next.1).map fun r => (I :: r.1, r.2) else some ([I], next.1)

/-- count_variable_basis, utils.py:2804-2820: the values the yielded list has at each `yield`, and its value after
the generator has finished. -/
def countVariableBasis (fuel : Nat) (bases : List Nat) : Option (List (List Nat) × List Nat) :=
  cvbRun fuel bases (List.replicate bases.length 0)

/-- `list(count_variable_basis(bases))`: the generator yields the same mutable list every time, so the collected
entries all show its final value. See utils.py:2804-2820. -/
def collectVariableBasis (fuel : Nat) (bases : List Nat) : Option (List (List Nat)) :=
  (countVariableBasis fuel bases).map fun r => r.1.map fun _ => r.2

/-- list_combination_iter, utils.py:2822-2826: `none` also stands for the `IndexError` from `v[i]`. -/
def listCombination {β : Type} (fuel : Nat) (ilist : List (List β)) : Option (List (List β)) := do
  let r ← countVariableBasis fuel (ilist.map List.length)
  r.1.mapM fun I => (ilist.zip I).mapM fun vi => vi.1[vi.2]?

/-! ### split_esc -/

/-- Loop body of split_esc, utils.py:3531-3542: `(inesc, ostr)` and the tokens yielded so far. -/
def escStep (delim esc : Char) (st : (Bool × List Char) × List (List Char)) (c : Char) :
    (Bool × List Char) × List (List Char) :=
  if st.1.1 then ((false, if c ≠ esc then st.1.2 ++ [c] else st.1.2), st.2)
  else if c = esc then ((true, st.1.2), st.2)
  else if c = delim then ((false, []), st.2 ++ [st.1.2])
  else ((false, st.1.2 ++ [c]), st.2)

/-- split_esc, utils.py:3522-3544, for a one-character delimiter and escape character. -/
def splitEsc (s : List Char) (delim : Char) (esc : Char := '\\') : List (List Char) :=
  let start := if s.length = 0 then [[]] else []
  let st := s.foldl (escStep delim esc) ((false, []), start)
  if 0 < st.1.2.length then st.2 ++ [st.1.2] else st.2

/-! ### split_slice -/

/-- An entry of an index tuple: `None`, `Ellipsis`, `slice(None)`, an index array of the given length or anything
else (`other k`: an integer or a slice, identified by a tag). Used for utils.py:96. -/
inductive SelItem where
  | newaxis
  | ellipsis
  | full
  | array (len : Nat) (tag : Nat)
  | other (tag : Nat)
deriving DecidableEq, Repr

/-- `np.all(v == Ellipsis)`, utils.py:96: comparing an array gives an array of False, and `np.all` of an empty array
is True. -/
def SelItem.isEllipsis : SelItem → Bool
  | .ellipsis => true
  | .array 0 _ => true
  | _ => false

/-- `v is not None`. Used for utils.py:2848-2864. -/
def SelItem.consumes (v : SelItem) : Bool := decide (v ≠ .newaxis)

/-- `np.cumsum` of booleans or dimensions goes through the numeric `cumsplit`. Used for utils.py:2866-2876. -/
def sliceCuts (sel : List SelItem) (ndims : List Nat) : List Nat :=
  cumsplit (sel.map fun (v : SelItem) => if v.consumes then (1 : ℚ) else 0) (ndims.map fun (n : Nat) => (n : ℚ))

/-- `res[i] += sel[subs[i]:subs[i+1]]` for all `i`; utils.py:2868-2872. -/
def sliceGroups (sel : List SelItem) : Nat → List Nat → List (List SelItem)
  | _, [] => []
  | a, b :: cuts => (sel.drop a).take (b - a) :: sliceGroups sel b cuts

/-- split_slice_simple, utils.py:2866-2876.  With no groups the variable `i` is undefined and the code raises. -/
def splitSliceSimple (sel : List SelItem) (ndims : List Nat) : Option (List (List SelItem)) :=
  let cuts := sliceCuts sel ndims
  match cuts.getLast? with
  | none => none
  | some last => if last < sel.length then none else some (sliceGroups sel 0 cuts)

/-- split_slice, utils.py:2848-2864.  What counts as an ellipsis is decided by `isEllipsis`; the separators are
dropped, so they are all written as `Ellipsis` before splitting. -/
def splitSlice (sel : List SelItem) (ndims : List Nat) : Option (List (List SelItem)) :=
  let parts := listsplit (sel.map fun (v : SelItem) => if v.isEllipsis then SelItem.ellipsis else v) SelItem.ellipsis
  if 1 < parts.length then
    let left := parts.dropLast.flatten
    let right := parts.getLastD []
    let nfree := ndims.sum - (left ++ right).countP SelItem.consumes
    splitSliceSimple (left ++ List.replicate nfree SelItem.full ++ right) ndims
  else splitSliceSimple sel ndims

end Pixell
