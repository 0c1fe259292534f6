import Verif.Model.Sort

/-
Lists of half-open integer ranges (utils.py:291-301 and 894-1022).
`none` is an IndexError.
-/
namespace Pixell

/-- Used for utils.py:933-938. -/
abbrev Range := Int × Int

/-- `a[np.argsort(a[:,0])]`: sorting by start, utils.py:933-938 and 985. -/
def sortByStart (a : List Range) : List Range := sortBy (fun x y => decide (x.1 ≤ y.1)) a

/-- numpy indexing `b[i]` with a possibly negative index. Used for utils.py:945-947. -/
def pyGet {β : Type} (b : List β) (i : Int) : Option β :=
  if 0 ≤ i then b[i.toNat]? else if 0 ≤ i + b.length then b[(i + b.length).toNat]? else none

/-- First inner loop of range_sub, utils.py:945-947: `while bi < len(b) and b[bi,1] <= a[ai,0]: bi += 1`.
The fuel is `len(b) - bi`, after which the loop condition is false. -/
def skipB (b : List Range) (s : Int) : Nat → Int → Option Int
  | 0, bi => some bi
  | f + 1, bi => do
    let x ← pyGet b bi
    if x.2 ≤ s then skipB b s f (bi + 1) else return bi

/-- Second inner loop, utils.py:950-958: `while bi < len(b) and b[bi,0] <= a[ai,1]: ...`.
Returns the new `bi`, the new `pstart` and the ranges appended to `c`. -/
def cutB (b : List Range) (e : Int) : Nat → Int → Int → Option (Int × Int × List Range)
  | 0, bi, pstart => some (bi, pstart, [])
  | f + 1, bi, pstart => do
    let x ← pyGet b bi
    if x.1 ≤ e then do
      let r := (pstart, min e x.1)
      let (bi', p', c) ← cutB b e f (bi + 1) x.2
      return (bi', p', if r.2 - r.1 > 0 then r :: c else c)
    else return (bi, pstart, [])

/-- Outer loop of range_sub, utils.py:943-973. -/
def subLoop (b : List Range) : List Range → Int → Option (List Range)
  | [], _ => some []
  | a :: rest, bi => do
    let bi1 ← skipB b a.1 (b.length - bi).toNat bi
    let (bi2, pstart, c) ← cutB b a.2 (b.length - bi1).toNat bi1 a.1
    if a.2 > pstart then do
      let rc ← subLoop b rest bi2
      return c ++ (pstart, a.2) :: rc
    else do
      let rc ← subLoop b rest (bi2 - 1)
      return c ++ rc

/-- range_sub with mapping=False, utils.py:894-977. -/
def rangeSub (a b : List Range) : Option (List Range) := subLoop (sortByStart b) (sortByStart a) 0

/-- Inner loop of range_union (utils.py:993-998): absorb the following ranges that start no later than
`end`.  Returns the final end and the ranges not absorbed. -/
def absorb (e : Int) : List Range → Int × List Range
  | [] => (e, [])
  | x :: rest => if x.1 > e then (e, x :: rest) else absorb (max e x.2) rest

theorem absorb_length (e : Int) (l : List Range) : (absorb e l).2.length ≤ l.length := by
  induction l generalizing e with
  | nil => simp [absorb]
  | cons x rest ih =>
    unfold absorb
    split
    · simp
    · have := ih (max e x.2)
      simp only [List.length_cons]
      omega

/-- range_union (utils.py:979-1004) on sorted ranges.  Simplification: the `rmap` array is not built; the
ranges already mapped always form an initial segment, so that skipping them is dropping them. -/
def unionLoop : List Range → List Range
  | [] => []
  | x :: rest => (x.1, (absorb x.2 rest).1) :: unionLoop (absorb x.2 rest).2
termination_by l => l.length
decreasing_by
  have := absorb_length x.2 rest
  simp only [List.length_cons]
  omega

/-- See utils.py:979-1000. -/
def rangeUnion (a : List Range) : List Range := unionLoop (sortByStart a)

/-- range_normalize, utils.py:1006-1017. -/
def rangeNormalize (a : List Range) : List Range :=
  (a.filter fun r => r.2 != r.1).filter fun r => !decide (r.2 < r.1)

/-- range_cut, utils.py:1019-1022. -/
def rangeCut (a : List Range) (c : List Int) : Option (List Range) := rangeSub a (c.map fun x => (x, x))

/-- mask2range, utils.py:291-301: positions where the padded mask rises and falls, paired up. -/
def mask2range (mask : List Bool) : List (Nat × Nat) :=
  let m := [false] ++ mask ++ [false]
  let start := (List.range (m.length - 1)).filter fun i => !(m.getD i false) && m.getD (i + 1) false
  let stop := (List.range (m.length - 1)).filter fun i => m.getD i false && !(m.getD (i + 1) false)
  start.zip stop

end Pixell
