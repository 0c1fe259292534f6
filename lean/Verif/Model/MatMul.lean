import Verif.Model.Axes
import Mathlib.Algebra.BigOperators.Group.Finset.Basic
import Mathlib.Data.Rat.Defs
import Mathlib.Algebra.BigOperators.Intervals

/-
Products of small matrices along chosen axes of two arrays (array_ops.py:33-80 and fortran/array_ops.F90:12-37).
`none` is an exception, or arrays whose sizes do not fit: there Fortran reads or writes outside them.  Element types are
not modelled (array_ops.py:7-10 and 43-46), values are rational numbers.
-/
namespace Pixell

/-- `axes` and `bax`, array_ops.py:36-37 and 65-66: negative axes count from the end of the first array, and the second
array has the leading ones, as many as its number of axes leaves. -/
def matAxes (na nb : Nat) (axes : List ℤ) : List ℤ × List ℤ :=
  let ax := axes.map fun (i : ℤ) => if i ≥ 0 then i else na + i
  let stop : ℤ := ax.length - ((na : ℤ) - nb)
  (ax, ax.take (if stop < 0 then stop + ax.length else stop).toNat)

/-- `Bf[:,None,:]`, array_ops.py:41 and 71; outside the added axis of length 1 there is nothing (0). -/
def Nd.addMid (a : Nd ℚ) : Nd ℚ where
  shape := a.shape.insertIdx 1 1
  get idx := if idx.getD 1 0 = 0 then a.get (idx.eraseIdx 1) else 0

/-- `Xf[:,0,:]`, array_ops.py:53 and 77. -/
def Nd.dropMid (a : Nd ℚ) : Nd ℚ where
  shape := a.shape.eraseIdx 1
  get idx := a.get (idx.insertIdx 1 0)

/-- matmul_multi, fortran/array_ops.F90:26-37, called at array_ops.py:48-51 with the arrays transposed, so that the
Fortran element `A(j,i,q)` is `Af[q,i,j]`.  `Xf` starts with whatever was in memory (`junk`), and the loop runs over the
matrices of `A`. -/
def matmulFlat (A B : Nd ℚ) (junk : List Nat → ℚ) : Option (Nd ℚ) :=
  match A.shape, B.shape with
  | [m, n, k], [m', b, k'] =>
    if k = k' ∧ m ≤ m' then
      some ⟨[m', b, n], fun idx =>
        if idx.getD 0 0 < m then
          ∑ j ∈ Finset.range k, A.get [idx.getD 0 0, idx.getD 2 0, j] * B.get [idx.getD 0 0, idx.getD 1 0, j]
        else junk idx⟩
    else none
  | _, _ => none

/-- matmul_multi_sym, fortran/array_ops.F90:12-24, called at array_ops.py:75: the product is stored over `b`. -/
def matmulSymFlat (A B : Nd ℚ) : Option (Nd ℚ) :=
  match A.shape, B.shape with
  | [m, n, k], [m', b, k'] =>
    if n = k' ∧ k = k' ∧ m ≤ m' then
      some ⟨[m', b, k'], fun idx =>
        if idx.getD 0 0 < m then
          ∑ j ∈ Finset.range n, A.get [idx.getD 0 0, j, idx.getD 2 0] * B.get [idx.getD 0 0, idx.getD 1 0, j]
        else B.get idx⟩
    else none
  | _, _ => none

/-- The frame shared by array_ops.py:33-55 and 64-79: flatten, add an axis to a stack of vectors, multiply, take it away
again and expand. -/
def matFrame (core : Nd ℚ → Nd ℚ → Option (Nd ℚ)) (A B : Nd ℚ) (axes : List ℤ) : Option (Nd ℚ) := do
  let ax := matAxes A.shape.length B.shape.length axes
  let Af ← partialFlatten A ax.1 0
  let Bf ← partialFlatten B ax.2 0
  if Bf.shape.length = 2 then do
    let Xf ← core Af Bf.addMid
    partialExpand Xf.dropMid B.shape ax.2 0
  else do
    let Xf ← core Af Bf
    partialExpand Xf B.shape ax.2 0

/-- matmul, array_ops.py:33-55. -/
def arrMatmul (A B : Nd ℚ) (axes : List ℤ) (junk : List Nat → ℚ) : Option (Nd ℚ) :=
  matFrame (fun a b => matmulFlat a b junk) A B axes

/-- matmul_sym, array_ops.py:57-82. -/
def arrMatmulSym (A B : Nd ℚ) (axes : List ℤ) : Option (Nd ℚ) := matFrame matmulSymFlat A B axes

end Pixell
