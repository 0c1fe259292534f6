import Verif.Model.Sort
import Mathlib.Algebra.Order.Ring.Rat

/-
Splitting lists into groups (utils.py).  `none` is an exception.
-/
namespace Pixell

/-- listsplit, utils.py:92-99: positions of `elem`, then the slices between them. -/
def listsplit {β : Type} [DecidableEq β] (seq : List β) (elem : β) : List (List β) :=
  let inds := (List.range seq.length).filter fun i => seq[i]? == some elem
  (([0] ++ inds.map (· + 1)).zip (inds ++ [seq.length])).map fun (ab : Nat × Nat) => (seq.drop ab.1).take (ab.2 - ab.1)

/-- `np.cumsum`. Used for utils.py:283-289. -/
def cumsumQ (l : List ℚ) : List ℚ := (l.foldl (fun st x => (st.1 + x, st.2 ++ [st.1 + x])) (0, [])).2

/-- `np.searchsorted(a, v, side="right")` for sorted `a`: the number of elements not above `v`. Used for utils.py:283-289. -/
def searchRight (a : List ℚ) (v : ℚ) : Nat := a.countP fun x => decide (x ≤ v)

/-- cumsplit, utils.py:283-289. -/
def cumsplit (sizes caps : List ℚ) : List Nat := (cumsumQ caps).map (searchRight (cumsumQ sizes))

/-- Index of the smallest element, the first one if there are several: the loop of greedy_split_simple
(utils.py:1219-1221) and `np.argmin` in equal_split. -/
def argminIdx (s : List ℚ) : Nat :=
  (List.range s.length).foldl (fun small j => if s.getD j 0 < s.getD small 0 then j else small) 0

/-- One step: add element `i` to the lightest group. Used for utils.py:1211-1224. -/
def greedyStep (w : List ℚ) (st : List ℚ × List (List Nat)) (i : Nat) : List ℚ × List (List Nat) :=
  let small := argminIdx st.1
  (st.1.modify small (· + w.getD i 0), st.2.modify small (· ++ [i]))

/-- greedy_split_simple (utils.py:1211-1224) and equal_split (utils.py:881-892), which is the same
algorithm; indexing the empty list of groups raises. -/
def greedySimple (w : List ℚ) (n : Nat) : Option (List (List Nat)) :=
  if n = 0 ∧ w ≠ [] then none
  else
    let order := (argsort (fun a b => decide (a ≤ b)) w).reverse
    some (order.foldl (greedyStep w) (List.replicate n 0, List.replicate n [])).2

/-- Inner loop of greedy_split (utils.py:1200-1203): the first group with the lowest cost. -/
def bestGroup {W D : Type} (costfun : List W → Option ℚ) (workfun : W → D → W) (work : List W) (d : D) :
    List Nat → Option (Nat × ℚ) → Option (Option (Nat × ℚ))
  | [], best => some best
  | i :: rest, best => do
    let wi ← work[i]?
    let icost ← costfun (work.set i (workfun wi d))
    match best with
    | none => bestGroup costfun workfun work d rest (some (i, icost))
    | some b => bestGroup costfun workfun work d rest (if icost < b.2 then some (i, icost) else some b)

/-- Outer loop of greedy_split, utils.py:1197-1208. -/
def greedyLoop {W D : Type} (costfun : List W → Option ℚ) (workfun : W → D → W) (data : List D) (n : Nat) :
    List Nat → List W × List (List Nat) → Option (List W × List (List Nat))
  | [], st => some st
  | di :: rest, (work, groups) => do
    let d ← data[di]?
    let best ← bestGroup costfun workfun work d (List.range n) none
    let b ← best
    let wi ← work[b.1]?
    greedyLoop costfun workfun data n rest (work.set b.1 (workfun wi d), groups.modify b.1 (· ++ [di]))

/-- greedy_split (utils.py:1170-1209), returning the groups.  `costfun` may raise. -/
def greedySplit {W D : Type} (costfun : List W → Option ℚ) (workfun : W → D → W) (nowork : W) (data : List D)
    (n : Nat) : Option (List (List Nat)) := do
  let costs ← data.mapM fun d => do
    if n = 0 then none else costfun ((List.replicate n nowork).set 0 (workfun nowork d))
  let order := (argsort (fun a b => decide (a ≤ b)) costs).reverse
  let st ← greedyLoop costfun workfun data n order (List.replicate n nowork, List.replicate n [])
  return st.2

/-- Default `workfun=lambda w,x: x if w is None else x+w`. See utils.py:1170. -/
def defaultWork (w : Option ℚ) (x : ℚ) : Option ℚ := some (match w with | none => x | some w => x + w)

/-- Default `costfun=max` on a list that may contain `None`: Python 3 refuses to compare `None` with a
number, and the maximum of `[None]` is not a number. See utils.py:1170. -/
def defaultCost (l : List (Option ℚ)) : Option ℚ := do
  let v ← l.mapM id
  match v with
  | [] => none
  | x :: r => some (r.foldl max x)

end Pixell
