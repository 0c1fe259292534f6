import Mathlib.Data.Rat.Defs
import Mathlib.Algebra.Group.Defs
import Mathlib.Data.Nat.Sqrt

/-
pixell/powspec.py: compressed symmetric matrices.
-/
namespace Pixell

/-- pixell/powspec.py:87-89 (compressed_order): ncomp = int(np.ceil((-1+(1+8*n)**0.5)/2)), in integers:
`⌈√(1+8n)⌉ // 2`. `ncomp_real` (Lemmas/Powspec) shows that this is the real-number formula; rounding of the float square
root is not modelled. -/
def ncomp (n : Nat) : Nat :=
  let x := 1 + 8 * n
  let s := Nat.sqrt x
  (if s * s = x then s else s + 1) / 2

/-- pixell/powspec.py:50-52: the `scheme` argument. -/
inductive Scheme where
  | stable | row | diag
  deriving DecidableEq

/-- pixell/powspec.py:91-97, the while loop of the stable scheme. -/
def stableLoop (n c : Nat) (which : List (Nat × Nat)) : List (Nat × Nat) :=
  if which.length < n then
    let which1 := which ++ [(c, c)]
    stableLoop n (c + 1) (which1 ++ (List.range (min c (n - which1.length))).map fun i => (i, c))
  else which
termination_by n - which.length
decreasing_by simp only [List.length_append, List.length_cons, List.length_nil]; omega

/-- pixell/powspec.py:102-105, body of the row scheme. State: (m, which). -/
def rowStep (n : Nat) (s : Nat × List (Nat × Nat)) (p : Nat × Nat) : Nat × List (Nat × Nat) :=
  if p.1 ≠ p.2 then
    if s.1 ≥ n then s else (s.1 + 1, s.2 ++ [p])
  else (s.1, s.2 ++ [p])

/-- The pairs visited by `for i in range(ncomp): for j in range(i, ncomp)`, in order. Used for powspec.py:53-112. -/
def rowPairs (c : Nat) : List (Nat × Nat) :=
  (List.range c).flatMap fun i => (List.range (c - i)).map fun k => (i, i + k)

/-- The pairs visited by `for d in range(ncomp): for i in range(0, ncomp-d)`, pixell/powspec.py:107-109. -/
def diagPairs (c : Nat) : List (Nat × Nat) :=
  (List.range c).flatMap fun d => (List.range (c - d)).map fun i => (i, i + d)

/-- pixell/powspec.py:53-112 (compressed_order). An unknown scheme raises and is not represented. -/
def compressedOrder (n : Nat) : Scheme → List (Nat × Nat)
  | .stable => (stableLoop n 0 []).take n
  | .row => ((rowPairs (ncomp n)).foldl (rowStep n) (ncomp n, [])).2.take n
  | .diag => (diagPairs (ncomp n)).take n

variable {α : Type}

/-- pixell/powspec.py:5-20 (sym_compress) with the default axes, for an N×N matrix given by its entries: `m` is the
matrix with its two axes swapped by the rollaxis calls. Trailing axes of the array ride along in α. -/
def symCompress [AddMonoid α] (N : Nat) (mat : Nat → Nat → α) (scheme : Scheme) (combined : Bool) : List α :=
  let which := compressedOrder (N * (N + 1) / 2) scheme
  let m := fun i j => mat j i
  which.map fun w =>
    if combined then m w.1 w.2 + (if w.2 ≠ w.1 then m w.2 w.1 else 0) else m w.1 w.2

/-- Assignment to one entry. Used for powspec.py:31-35. -/
def setEntry (m : Nat → Nat → α) (i j : Nat) (v : α) : Nat → Nat → α :=
  fun a b => if a = i ∧ b = j then v else m a b

/-- pixell/powspec.py:31-35, the loop body of sym_expand. The value `val` computed on line 32 (half of the element if
`combined`) is not used by the assignments, as in the source. -/
def expandStep (m : Nat → Nat → α) (wv : (Nat × Nat) × α) : Nat → Nat → α :=
  let m1 := setEntry m wv.1.1 wv.1.2 wv.2
  if wv.1.1 ≠ wv.1.2 then setEntry m1 wv.1.2 wv.1.1 wv.2 else m1

/-- pixell/powspec.py:22-36 (sym_expand) with ncomp=None and axis=0: (ncomp, entries). np.max of an empty list raises.
The final rollaxis calls swap the two axes. The flag `combined` has no effect on the result. -/
def symExpand [Zero α] (mat : List α) (scheme : Scheme) (_combined : Bool) : Option (Nat × (Nat → Nat → α)) :=
  let which := compressedOrder mat.length scheme
  if which = [] then none
  else
    let nc := (which.map fun w => max w.1 w.2).foldl max 0 + 1
    let res := (which.zip mat).foldl expandStep fun _ _ => 0
    some (nc, fun i j => res j i)

end Pixell
