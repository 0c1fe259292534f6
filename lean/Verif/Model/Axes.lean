import Verif.Model.Index

/-
Moving, flattening and expanding axes (utils.py:377, 458-479) of an array with any number of axes.
`none` is an exception.
-/
namespace Pixell

/-- An array: its shape and its element at each multi-index. Used for utils.py:377. -/
structure Nd (α : Type) where
  shape : List Nat
  get : List Nat → α

/-- `np.transpose(a, order)`: axis `j` of the result is axis `order[j]` of `a`. -/
def Nd.transpose {α : Type} (a : Nd α) (order : List Nat) : Nd α where
  shape := order.map fun ax => a.shape.getD ax 0
  get idx := a.get ((List.range a.shape.length).map fun ax => idx.getD (order.idxOf ax) 0)

/-- The order built by `np.moveaxis(a, source, destination)` from non-negative axes: the other axes in place, then
each source axis inserted at its destination, in order of destination. -/
def moveOrder (ndim : Nat) (src dst : List Nat) : List Nat :=
  (sortBy (fun (a b : Nat × Nat) => decide (a.1 ≤ b.1)) (dst.zip src)).foldl (fun l p => l.insertIdx p.1 p.2)
    ((List.range ndim).filter fun n => decide (n ∉ src))

/-- `normalize_axis_index`: negative axes count from the end; out of range or repeated axes raise. -/
def normAxes (ndim : Nat) (axes : List ℤ) : Option (List Nat) :=
  let l := axes.map fun (a : ℤ) => if a < 0 then a + ndim else a
  if (∀ a ∈ l, 0 ≤ a ∧ a < ndim) ∧ l.Nodup then some (l.map Int.toNat) else none

/-- `np.moveaxis` with lists of axes, and utils.moveaxes (utils.py:377). -/
def Nd.moveaxes {α : Type} (a : Nd α) (src dst : List ℤ) : Option (Nd α) := do
  let s ← normAxes a.shape.length src
  let d ← normAxes a.shape.length dst
  if s.length = d.length then some (a.transpose (moveOrder a.shape.length s d)) else none

/-- Inverse of `ravel`: `np.unravel_index`. See utils.py:458-488. -/
def unravel : List Nat → Nat → List Nat
  | [], _ => []
  | _ :: ns, r => r / ns.prod :: unravel ns (r % ns.prod)

/-- `np.reshape` in C order. -/
def Nd.reshape {α : Type} (a : Nd α) (shape : List Nat) : Option (Nd α) :=
  if shape.prod = a.shape.prod then some ⟨shape, fun idx => a.get (unravel a.shape (ravel shape idx))⟩ else none

/-- partial_flatten, utils.py:458-468.  `reshape(…, -1)` raises if the other dimensions multiply to zero. -/
def partialFlatten {α : Type} (a : Nd α) (axes : List ℤ) (pos : ℤ) : Option (Nd α) := do
  let a ← a.moveaxes axes ((List.range axes.length).map fun (i : Nat) => (i : ℤ))
  let kept := a.shape.take axes.length
  if kept.prod = 0 then none
  else do
    let b ← a.reshape (kept ++ [a.shape.prod / kept.prod])
    b.moveaxes [-1] [pos]

/-- partial_expand, utils.py:470-479.  `np.delete` removes the entries of `shape` at `axes`. -/
def partialExpand {α : Type} (a : Nd α) (shape : List Nat) (axes : List ℤ) (pos : ℤ) : Option (Nd α) := do
  let a ← a.moveaxes [pos] [-1]
  let ax := axes.map fun (x : ℤ) => (x.fmod shape.length).toNat
  let rest := ((List.range shape.length).filter fun n => decide (n ∉ ax)).map fun (n : Nat) => shape.getD n 0
  let b ← a.reshape (a.shape.take axes.length ++ rest)
  b.moveaxes ((List.range axes.length).map fun (i : Nat) => (i : ℤ)) (ax.map fun (n : Nat) => (n : ℤ))

end Pixell
