import Verif.Model.Sort
import Mathlib.Algebra.Order.Ring.Rat

/-
crossmatch (utils.py:3197-3277).  Positions enter only through the pairs that are close enough and their squared
distances: the ball query of the kd-tree (whose groups come in no documented order) and `np.argsort` (whose order of
ties is not documented) are inputs.
-/
namespace Pixell

/-- Flattened list of close pairs, utils.py:3253; `groups[i1]` lists the points of the second catalogue close to the
point `i1` of the first. -/
def matchPairs (groups : List (List Nat)) : List (Nat × Nat) :=
  (List.range groups.length).flatMap fun i1 => (groups.getD i1 []).map fun i2 => (i1, i2)

/-- Filter keeping only the first mention of each point, utils.py:3269-3276: `done1`, `done2` and the kept pairs. -/
def firstMentions (n1 n2 : Nat) (pairs : List (Nat × Nat)) : List (Nat × Nat) :=
  (pairs.foldl (fun (st : (List Bool × List Bool) × List (Nat × Nat)) p =>
    if st.1.1.getD p.1 false || st.1.2.getD p.2 false then st
    else ((st.1.1.set p.1 true, st.1.2.set p.2 true), st.2 ++ [p]))
    ((List.replicate n1 false, List.replicate n2 false), [])).2

/-- mode "all". See utils.py:3197-3280. -/
def crossmatchAll (groups : List (List Nat)) : List (Nat × Nat) := matchPairs groups

/-- mode "first". See utils.py:3197-3280. -/
def crossmatchFirst (n1 n2 : Nat) (groups : List (List Nat)) : List (Nat × Nat) := firstMentions n1 n2 (matchPairs groups)

/-- mode "closest": the pairs are first put in the order `order = np.argsort(d2)`, utils.py:3262-3266. -/
def crossmatchClosest (n1 n2 : Nat) (groups : List (List Nat)) (order : List Nat) : List (Nat × Nat) :=
  firstMentions n1 n2 (order.map fun i => (matchPairs groups).getD i (0, 0))

end Pixell
