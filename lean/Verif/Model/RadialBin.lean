import Verif.Model.Num

/-
Radial binning: enmap._bin_helper, behind rbin and lbin. A pixel is a pair of its radius and its value; floats are rational numbers.
-/
namespace Pixell

/-- np.max(r/bsize), pixell/enmap.py:2488; `none` for an empty map. -/
def rbinMax (bsize : ℚ) : List (ℚ × ℚ) → Option ℚ
  | [] => none
  | p :: ps => some ((ps.map fun q => q.1 / bsize).foldl max (p.1 / bsize))

/-- utils.floor(r/bsize), pixell/enmap.py:2489. -/
def rbinInd (bsize r : ℚ) : ℤ := ⌊r / bsize⌋

/-- np.bincount(rinds)[i], pixell/enmap.py:2493. -/
def rbinHits (bsize : ℚ) (ps : List (ℚ × ℚ)) (i : Nat) : Nat := (ps.filter fun p => rbinInd bsize p.1 == (i : ℤ)).length

/-- np.bincount(rinds, weights)[i]/nhit[i], pixell/enmap.py:2495 and 2500; `none` is the NaN of 0/0. -/
def rbinMean (bsize : ℚ) (ps : List (ℚ × ℚ)) (w : ℚ × ℚ → ℚ) (i : Nat) : Option ℚ :=
  let s := ((ps.filter fun p => rbinInd bsize p.1 == (i : ℤ)).map w).sum
  if rbinHits bsize ps i = 0 then none else some (s / rbinHits bsize ps i)

/-- One output bin: value, radius, edges, hits. Used for enmap.py:2491-2506. -/
structure RBin where
  val : Option ℚ
  rad : Option ℚ
  lo : ℚ
  hi : ℚ
  hits : Nat

/-- enmap._bin_helper, pixell/enmap.py:2481-2506, for one component, with all the optional outputs. `none`: np.max of an empty map, or a
negative index given to np.bincount. -/
def binHelper (bsize : ℚ) (ps : List (ℚ × ℚ)) : Option (List RBin) := do
  let mx ← rbinMax bsize ps
  let n := (intTrunc mx).toNat
  if ps.any fun p => decide (rbinInd bsize p.1 < 0) then none else
  some ((List.range n).map fun i => { val := rbinMean bsize ps Prod.snd i, rad := rbinMean bsize ps Prod.fst i, lo := i * bsize, hi := (i + 1) * bsize, hits := rbinHits bsize ps i })

end Pixell
