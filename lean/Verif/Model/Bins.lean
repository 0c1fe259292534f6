import Mathlib.Algebra.Order.Ring.Rat
import Mathlib.Algebra.BigOperators.Group.List.Basic

/-
Binning (utils.py:2476-2539).  A bin is a pair (from, to).
-/
namespace Pixell

/-- edges2bins, utils.py:2476-2480. -/
def edges2bins (edges : List Nat) : List (Nat × Nat) := edges.dropLast.zip edges.tail

/-- bins2edges, utils.py:2482-2483: `concatenate([bins[:,0], bins[1,-1:]])`; row 1 must exist. -/
def bins2edges (bins : List (Nat × Nat)) : Option (List Nat) := do
  let r ← bins[1]?
  return bins.map (·.1) ++ [r.2]

/-- linbin with a number of bins, utils.py:2494-2497 (`nbin` given or already defaulted, positive). -/
def linbinN (n nbin : Nat) : List (Nat × Nat) :=
  edges2bins ((List.range (nbin + 1)).map fun k => k * n / nbin)

/-- linbin with a bin size, utils.py:2491-2493 and 2497: `nbin = ceil(n/bsize)` unless given. -/
def linbinSize (n bsize : Nat) (nbin : Option Nat := none) : List (Nat × Nat) :=
  let nb := nbin.getD ((n + bsize - 1) / bsize)
  edges2bins ((List.range (nb + 1)).map fun k => k * bsize)

/-- The `for j in range(i+1,nbin+1)` loop of expbin (utils.py:2509-2512).  Note that it goes on after
changing `i`. -/
def expPass (tmp : List Nat) (nmin : Nat) : List Nat → Nat × List Nat → Nat × List Nat
  | [], st => st
  | j :: r, (i, fixed) =>
    if tmp.getD i 0 + nmin ≤ tmp.getD j 0 then expPass tmp nmin r (j, fixed ++ [tmp.getD j 0])
    else expPass tmp nmin r (i, fixed)

/-- The `while i < nbin` loop of expbin (utils.py:2508-2512), with `fuel` rounds: `none` means it is still
running. -/
def expLoop (tmp : List Nat) (nbin nmin : Nat) : Nat → Nat × List Nat → Option (List Nat)
  | fuel, (i, fixed) =>
    if nbin ≤ i then some fixed
    else match fuel with
      | 0 => none
      | f + 1 => expLoop tmp nbin nmin f (expPass tmp nmin (List.range' (i + 1) (nbin - i)) (i, fixed))

/-- Splitting of too large bins, utils.py:2514-2520. -/
def splitLarge (nmax : Nat) : Nat → List Nat → List Nat
  | _, [] => []
  | last, v :: r =>
    let dv := v - last
    let nsplit := (dv + nmax - 1) / nmax
    let new := (List.range nsplit).map fun i => last + dv * (i + 1) / nsplit
    new ++ splitLarge nmax (new.getLastD last) r

/-- expbin, utils.py:2499-2523, after the exponentially spaced candidate edges `tmp` (`nbin+1` of them) have
been computed in floating point; `none` means still running after `fuel` rounds. -/
def expbinFrom (tmp : List Nat) (n nbin nmin nmax fuel : Nat) : Option (List (Nat × Nat)) := do
  let fixed ← expLoop tmp nbin nmin fuel (0, [tmp.getD 0 0])
  let fixed := if nmax = 0 then fixed else fixed.headD 0 :: splitLarge nmax (fixed.headD 0) fixed.tail
  return edges2bins (fixed.dropLast ++ [n])

/-- `np.mean`. Used for utils.py:2525-2533. -/
def meanQ (l : List ℚ) : ℚ := l.sum / l.length

/-- bin_data, utils.py:2525-2533, on one row. -/
def binData (bins : List (Nat × Nat)) (d : List ℚ) : List ℚ :=
  bins.map fun b => meanQ ((d.drop b.1).take (b.2 - b.1))

/-- `res[b0:b1] = v`. Used for utils.py:2535-2539. -/
def fillSlice (res : List ℚ) (b : Nat × Nat) (v : ℚ) : List ℚ :=
  res.mapIdx fun i x => if b.1 ≤ i ∧ i < b.2 then v else x

/-- bin_expand, utils.py:2535-2539, on one row: a later bin overwrites an earlier one. -/
def binExpand (bins : List (Nat × Nat)) (v : List ℚ) : List ℚ :=
  (bins.zip v).foldl (fun res bv => fillSlice res bv.1 bv.2) (List.replicate ((bins.getLastD (0, 0)).2) 0)

end Pixell
