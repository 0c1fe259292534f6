import Verif.Model.Index
import Verif.Model.Matched
import Mathlib.Algebra.Group.Basic
import Mathlib.Algebra.BigOperators.Group.List.Basic
import Mathlib.Data.Rat.Defs
import Mathlib.Algebra.Order.Ring.Abs
import Mathlib.Algebra.Order.Field.Rat

/-! Finding and measuring objects in passes, and objects of several kinds. See pixell/analysis.py:788-1043. The maps are elements
of a commutative group `V`, the objects of a type `O`; the finder, measurer and modeller that are used in each pass are
functions given from outside. -/

namespace Pixell

variable {V O C M F : Type} [AddCommGroup V] [DecidableEq C]

/-! ### FinderIterative -/

/-- What FinderIterative is made of. `finder map mask snmin snrel` gives the catalogue and the limit it used;
the penalty is given as a mask of the map. `shape o` is the model of one object, `cell o` the cell of the coarse grid it is in,
`grow` widens a mask of the cells by 1.5 cells and projects it to the map. `at v o f` is the value of the map `v` at the object's
position in frequency `f`, `own o f` what `modeller.amplitudes` gives and `best o` the frequency with the highest S/N. -/
structure IterCfg (V O C M F : Type) where
  finder : V → M → ℚ → Option ℚ → List O × ℚ
  shape : O → V
  cell : O → C
  snr : O → ℚ
  grow : (C → Bool) → M
  valAt : V → O → F → ℚ
  own : O → F → ℚ
  best : O → F
  maxiter : ℕ
  sntol : ℚ
  gridMax : ℕ
  gridDominance : ℚ

/-- The variables of the loop. See analysis.py:820-828. -/
structure IterState (V O C : Type) where
  cat : List O
  model : V
  hits : C → ℕ
  snmaxs : C → ℚ
  snbad : C → Bool

/-- The modeller: the sum over the objects. -/
def modelOf (shape : O → V) (cat : List O) : V := (cat.map shape).sum

/-- The loop `for i in range(maxiter)`. The last component is `res.cat` and `bad_mask` of the last pass, absent when there was none.
See analysis.py:829-863. -/
def iterLoop (g : IterCfg V O C M F) (map : V) (snmin : ℚ) :
    ℕ → IterState V O C → Option (List O × M) → IterState V O C × Option (List O × M)
  | 0, s, last => (s, last)
  | k + 1, s, _ =>
    let mask := g.grow fun c => decide (g.gridMax < s.hits c) || s.snbad c
    let res := g.finder (map - s.model) mask snmin (some g.sntol)
    if res.1.isEmpty then (s, some (res.1, mask))
    else
      let hits := fun c => s.hits c + (res.1.filter fun o => decide (g.cell o = c)).length
      let snrBin := fun c => ((res.1.filter fun o => decide (g.cell o = c)).map g.snr).sum
      let snbad := fun c => s.snbad c || (decide (s.snmaxs c * (3/2) < snrBin c) && decide (0 < s.snmaxs c))
      let snmaxs := fun c => max (s.snmaxs c) (snrBin c)
      let kept := res.1.filter fun o => !snbad (g.cell o)
      if kept.isEmpty then iterLoop g map snmin k ⟨s.cat, s.model, hits, snmaxs, snbad⟩ (some (kept, mask))
      else
        let s' : IterState V O C := ⟨s.cat ++ kept, s.model + modelOf g.shape kept, hits, snmaxs, snbad⟩
        if res.2 ≤ snmin then (s', some (kept, mask)) else iterLoop g map snmin k s' (some (kept, mask))

/-- The state before the first pass. See analysis.py:820-828. -/
def iterStart : IterState V O C := ⟨[], 0, fun _ => 0, fun _ => 0, fun _ => false⟩

/-- What FinderIterative returns: the catalogue with the column contam, the model, and the hits. -/
structure IterResult (V O C F : Type) where
  cat : List (O × (F → ℚ))
  model : V
  hits : C → ℕ

/-- `contam = (tot_vals-own_vals)/abs(own_vals)`. See analysis.py:868-873. -/
def contamOf (g : IterCfg V O C M F) (model : V) (o : O) (f : F) : ℚ :=
  (g.valAt model o f - g.own o f) / |g.own o f|

/-- `FinderIterative.__call__`; `none` is the NameError when there was no pass. The argument `snrel` is not used. See
analysis.py:819-895. -/
def finderIterative (g : IterCfg V O C M F) (map : V) (snmin : ℚ) (_snrel : Option ℚ) : Option (IterResult V O C F) :=
  let r := iterLoop g map snmin g.maxiter iterStart none
  match r.2 with
  | none => none
  | some last =>
    let cat := if r.1.cat.isEmpty then last.1 else r.1.cat
    let cat := cat.map fun o => (o, contamOf g r.1.model o)
    if g.gridDominance ≠ 0 ∧ cat ≠ [] then
      let bad := fun (o : O × (F → ℚ)) => decide (g.gridMax < r.1.hits (g.cell o.1)) && decide (1 / g.gridDominance < o.2 (g.best o.1))
      some ⟨cat.filter (fun o => !bad o), r.1.model - modelOf g.shape ((cat.filter bad).map Prod.fst), r.1.hits⟩
    else some ⟨cat, r.1.model, r.1.hits⟩

/-! ### Measuring -/

/-- `cat[inds] = vals`. See analysis.py:942,962. -/
def assignInds (cat : List O) (inds : List ℕ) (vals : List O) : List O :=
  (inds.zip vals).foldl (fun c p => c.set p.1 p.2) cat

/-- `icat[inds]`. -/
def takeInds (cat : List O) (inds : List ℕ) : List O := inds.filterMap fun i => cat[i]?

/-- The loop of `MeasurerIterative.__call__` over the given groups of objects: catalogue and model. See analysis.py:952-963. -/
def measureIter (measurer : V → List O → List O) (shape : O → V) (map : V) (icat : List O) (groups : List (List ℕ)) : List O × V :=
  groups.foldl (fun st group =>
    let sub := measurer (map - st.2) (takeInds icat group)
    (assignInds st.1 group sub, st.2 + modelOf shape sub)) (icat, 0)

/-- `MeasurerIterative.__call__`: `none` is a failure of snr_split. See analysis.py:945-963. -/
noncomputable def measurerIterative (argsort : List ℤ → List ℕ) (measurer : V → List O → List O) (shape : O → V) (snr : O → ℝ) (sntol snscale : ℝ)
    (map : V) (icat : List O) : Option (List O × V) :=
  if icat.isEmpty then some (icat, modelOf shape icat)
  else (snrSplit argsort (icat.map fun o => snr o * snscale) sntol (1 / 10)).map fun groups => measureIter measurer shape map icat groups

/-- The groups `order[edges[i]:edges[i+1]]` with their values. See analysis.py:937-939. -/
def caseGroups (cases : List ℤ) : List (ℤ × List ℕ) :=
  let r := findEqualGroupsFast cases
  r.1.zipIdx.map fun u => (u.1, (r.2.1.drop (r.2.2.getD u.2 0)).take (r.2.2.getD (u.2 + 1) 0 - r.2.2.getD u.2 0))

/-- `list[i]` in Python; `none` is the IndexError. -/
def pyNth {α : Type} (l : List α) (i : ℤ) : Option α :=
  if 0 ≤ i then l[i.toNat]? else if -(l.length : ℤ) ≤ i then l[(i + l.length).toNat]? else none

/-- One group of MeasurerMulti: number `i`, indices `inds`. -/
def measureGroup (measurers : List (V → List O → List O)) (map : V) (icat cat : List O) (i : ℕ) (inds : List ℕ) : Option (List O) :=
  if (takeInds icat inds).isEmpty then some cat
  else (measurers[i]?).map fun m => assignInds cat inds (m map (takeInds icat inds))

/-- `MeasurerMulti.__call__`: the measurer is taken by the number `i` of the group and not by its case. See analysis.py:934-943. -/
def measurerMulti (measurers : List (V → List O → List O)) (case : O → ℤ) (map : V) (icat : List O) : Option (List O) :=
  (caseGroups (icat.map case)).zipIdx.foldl (fun (st : Option (List O)) (g : (ℤ × List ℕ) × ℕ) =>
    st.bind fun cat => measureGroup measurers map icat cat g.2 g.1.2) (some icat)

/-- One group of ModellerMulti: `omap` is `None` before the first. -/
def modelGroup (modellers : List (List O → V)) (cat : List O) (omap : Option V) (ca : ℤ) (inds : List ℕ) : Option (Option V) :=
  if (takeInds cat inds).isEmpty then some omap
  else (pyNth modellers ca).map fun m =>
    match omap with
    | none => some (m (takeInds cat inds))
    | some v => some (v + m (takeInds cat inds))

/-- `ModellerMulti.__call__`. The outer `none` is the IndexError. See analysis.py:1020-1035. -/
def modellerMulti (modellers : List (List O → V)) (case : O → ℤ) (cat : List O) : Option V :=
  if cat.isEmpty then (pyNth modellers 0).map fun m => m cat
  else
    ((caseGroups (cat.map case)).foldl (fun (st : Option (Option V)) (g : ℤ × List ℕ) =>
      st.bind fun omap => modelGroup modellers cat omap g.1 g.2) (some none)).bind id

end Pixell
