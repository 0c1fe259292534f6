import Verif.Model.Sort
import Mathlib.Data.List.Dedup
import Mathlib.Algebra.Order.Ring.Rat
import Mathlib.Algebra.BigOperators.Group.List.Basic

/-
Index helpers and accumulation (utils.py).  `none` is an exception.
-/
namespace Pixell

/-- `np.searchsorted(a, v)` (side="left") for sorted `a`: the number of elements below `v`. Used for utils.py:107-117. -/
def searchLeft (a : List ℤ) (v : ℤ) : Nat := a.countP fun x => decide (x < v)

/-- One value in find (utils.py:107-117): candidate position, then the check that it is really there.
`order` is what `np.argsort` returned; ties may come in any order. -/
def findOne (array : List ℤ) (order : List Nat) (default : Option ℤ) (v : ℤ) : Option ℤ := do
  let sorted := order.map fun i => array.getD i 0
  let cand := min (searchLeft sorted v) (array.length - 1)
  let r ← order[cand]?
  if array.getD r 0 = v then some (r : ℤ) else default

/-- find, utils.py:107-117. -/
def find (array : List ℤ) (order : List Nat) (vals : List ℤ) (default : Option ℤ := none) : Option (List ℤ) :=
  vals.mapM (findOne array order default)

/-- find_any, utils.py:120-123.  (`find` returns the list `[]`, not an array, when `vals` is empty, and
comparing a list with 0 raises.) -/
def findAny (array : List ℤ) (order : List Nat) (vals : List ℤ) : Option (List ℤ) := do
  if vals.isEmpty then none else
  let r ← find array order vals (some (-1))
  return r.filter fun x => decide (0 ≤ x)

/-- `np.unique`. Used for utils.py:2003-2013. -/
def npUnique (l : List ℤ) : List ℤ := (sortBy (fun a b => decide (a ≤ b)) l).dedup

/-- `np.intersect1d`. Used for utils.py:162-170. -/
def intersect1d (a b : List ℤ) : List ℤ := npUnique (a.filter fun x => decide (x ∈ b))

/-- common_vals, utils.py:162-170. -/
def commonVals : List (List ℤ) → Option (List ℤ)
  | [] => none
  | a :: r => some (r.foldl intersect1d a)

/-- inverse_order, utils.py:186-200: `invorder[order] = arange(n)`. -/
def inverseOrder (order : List Nat) : Option (List Nat) :=
  if order.all fun i => decide (i < order.length) then
    some (((order.zip (List.range order.length))).foldl (fun inv oi => inv.set oi.1 oi.2)
      (List.replicate order.length 0))
  else none

/-- complement_inds for a Python list, utils.py:202-208.  `np.array([])` is an array of floats, which numpy
refuses as an index; negative indices count from the end. -/
def complementInds (inds : List ℤ) (n : Nat) : Option (List Nat) :=
  if inds = [] then none
  else if inds.all fun i => decide (-(n : ℤ) ≤ i ∧ i < n) then
    let hit := inds.map fun (i : ℤ) => (if i < 0 then i + (n : ℤ) else i).toNat
    some ((List.range n).filter fun i => decide (i ∉ hit))
  else none

/-- `a[mask]`. See utils.py:210-218. -/
def maskGet {β : Type} (mask : List Bool) (a : List β) : List β :=
  ((mask.zip a).filter fun p => p.1).map fun p => p.2

/-- `result[mask] = arr` with as many values as selected places. Used for utils.py:210-218. -/
def maskFill {β : Type} (fill : β) : List Bool → List β → List β
  | [], _ => []
  | false :: m, arr => fill :: maskFill fill m arr
  | true :: m, x :: arr => x :: maskFill fill m arr
  | true :: m, [] => fill :: maskFill fill m []

/-- unmask on a one-dimensional array, utils.py:210-218; numpy refuses a wrong number of values (a single value is
broadcast). -/
def unmask {β : Type} (arr : List β) (mask : List Bool) (fill : β) : Option (List β) :=
  if arr.length = mask.count true then some (maskFill fill mask arr)
  else if arr.length = 1 then some (maskFill fill mask (List.replicate (mask.count true) (arr.headD fill)))
  else none

/-- unmask on a two-dimensional array `arr[nsel,k]` with the default `axis=0`: the result is created with the
shape of the mask alone, so the values, which have one axis more than the places, are only accepted if the
surplus axis has length 1. See utils.py:210-218. -/
def unmask2 {β : Type} (arr : List (List β)) (k : Nat) (mask : List Bool) (fill : β) : Option (List β) :=
  if arr.length = 1 ∧ (k = mask.count true ∨ k = 1) then unmask (arr.headD []) mask fill else none

/-- sum_by_id along the first axis, utils.py:1359-1366; the remaining axes ride along in `M`. -/
def sumById {M : Type} [AddCommMonoid M] (a : List M) (ids : List Nat) : Option (List M) := do
  if ids.length = 0 ∨ a.length < ids.length then none else
  let n := ids.foldl max 0 + 1
  return (ids.zip a).foldl (fun fb ia => fb.modify ia.1 (· + ia.2)) (List.replicate n 0)

/-- `np.ravel_multi_index`. Used for utils.py:698-707. -/
def ravel : List Nat → List Nat → Nat
  | _ :: ns, c :: cs => c * ns.prod + ravel ns cs
  | _, _ => 0

/-- `np.maximum(np.minimum(pix, shape-1), 0)`. Used for utils.py:698-707. -/
def clipPix (shape : List Nat) (p : List ℤ) : List Nat :=
  List.zipWith (fun (n : Nat) (c : ℤ) => (max (min c ((n : ℤ) - 1)) 0).toNat) shape p

/-- bin_multi, utils.py:698-707, as a flat array: `samples` are (coordinates, weight) pairs. -/
def binMulti (shape : List Nat) (samples : List (List ℤ × ℚ)) : List ℚ :=
  (samples.map fun s => (ravel shape (clipPix shape s.1), s.2)).foldl (fun acc iw => acc.modify iw.1 (· + iw.2))
    (List.replicate shape.prod 0)

/-- utils.cumsum in one dimension, utils.py:736-753. -/
def cumsum0 (a : List Nat) (endpoint : Bool) : List Nat :=
  let cum := (a.foldl (fun st x => (st.1 + x, st.2 ++ [st.1 + x])) ((0, []) : Nat × List Nat)).2
  if endpoint then 0 :: cum else if a = [] then [] else 0 :: cum.dropLast

/-- uncat, utils.py:1797-1802. -/
def uncat {β : Type} (a : List β) (lens : List Nat) : List (List β) :=
  let cum := cumsum0 lens true
  (List.range lens.length).map fun i => (a.drop (cum.getD i 0)).take (cum.getD (i + 1) 0 - cum.getD i 0)

/-! ### Grouping equal values -/

/-- Sum of squared differences of two rows. Used for utils.py:1991-2000. -/
def sqDist (a b : List ℚ) : ℚ := (List.zipWith (fun x y => (x - y) * (x - y)) a b).sum

/-- Inner loop of find_equal_groups, utils.py:1991-2000.  `done` lists finished positions. -/
def groupInner (rows : List (List ℚ)) (inds : List Nat) (tol : ℚ) (xi : Nat) :
    List Nat → List Nat × List Nat → List Nat × List Nat
  | [], st => st
  | j :: js, (done, grp) =>
    let xj := inds.getD j 0
    if j ∈ done then groupInner rows inds tol xi js (done, grp)
    else if tol < (rows.getD xj []).headD 0 - (rows.getD xi []).headD 0 then (done, grp)
    else if sqDist (rows.getD xj []) (rows.getD xi []) ≤ tol * tol then
      groupInner rows inds tol xi js (j :: done, grp ++ [xj])
    else groupInner rows inds tol xi js (done, grp)

/-- Outer loop of find_equal_groups, utils.py:1985-1990. -/
def groupOuter (rows : List (List ℚ)) (inds : List Nat) (tol : ℚ) :
    List Nat → List Nat × List (List Nat) → List Nat × List (List Nat)
  | [], st => st
  | i :: is, (done, res) =>
    if i ∈ done then groupOuter rows inds tol is (done, res)
    else
      let xi := inds.getD i 0
      let r := groupInner rows inds tol xi (List.range' (i + 1) (inds.length - (i + 1))) (i :: done, [xi])
      groupOuter rows inds tol is (r.1, res ++ [r.2])

/-- find_equal_groups, utils.py:1971-2001; `inds` is what `np.argsort(a[:,0])` returned (ties in any order). -/
def findEqualGroups (rows : List (List ℚ)) (inds : List Nat) (tol : ℚ := 0) : List (List Nat) :=
  (groupOuter rows inds tol (List.range inds.length) ([], [])).2

/-- find_equal_groups_fast, utils.py:2003-2013: (uvals, order, edges). -/
def findEqualGroupsFast (vals : List ℤ) : List ℤ × List Nat × List Nat :=
  let order := argsort (fun a b => decide (a ≤ b)) vals
  let sorted := order.map fun i => vals.getD i 0
  let uvals := npUnique sorted
  (uvals, order, uvals.map (fun u => sorted.idxOf u) ++ [vals.length])

/-- label_multi, utils.py:2015-2034, on columns already compared as integers. -/
def labelMulti (cols : List (List ℤ)) (n : Nat) : List Nat :=
  let inv := fun (vals : List ℤ) => vals.map fun v => (npUnique vals).idxOf v
  let st := cols.foldl (fun (st : List ℤ × ℤ) vals =>
      (List.zipWith (fun (o : ℤ) (i : Nat) => o * st.2 + (i : ℤ)) st.1 (inv vals), ((npUnique vals).length : ℤ)))
    (List.replicate n 0, 1)
  inv st.1

end Pixell
