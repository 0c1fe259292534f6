import Verif.Model.Distance
import Verif.Model.Sort
import Mathlib.Data.List.MinMax
import Mathlib.Algebra.Order.Ring.Rat

/-!
Labelled distance transforms (pixell/enmap.py, cython/distances_core.c) and the object finders (pixell/analysis.py) from the maps of
signal to noise on. Pixels are flat indices; distances are elements of a linear order, exact as in C80; ndimage.label is given by its
result. Signal to noise ratios are rational.
-/
namespace Pixell

variable {α : Type} [LinearOrder α]

/-- distances_core.c:1233-1256 (find_edges_labeled): the edge pixels of the regions of non-zero label, in the order in which they are
pushed. -/
def findEdgesLabeled (ny nx : ℕ) (lab : ℕ → ℕ) : List ℕ :=
  ((List.range nx).filter fun i => lab i ≠ 0) ++
  (((List.range nx).map fun x => (ny - 1) * nx + x).filter fun i => lab i ≠ 0) ++
  (((List.range (ny - 1)).map fun y => (y + 1) * nx).filter fun i => lab i ≠ 0) ++
  (((List.range ny).map fun y => y * nx + (nx - 1)).filter fun i => lab i ≠ 0) ++
  (List.range (ny - 2)).flatMap fun y => ((List.range (nx - 2)).map fun x => (y + 1) * nx + (x + 1)).filter
    fun i => lab i ≠ 0 ∧ (lab (i - 1) ≠ lab i ∨ lab (i + 1) ≠ lab i ∨ lab (i - nx) ≠ lab i ∨ lab (i + nx) ≠ lab i)

/-- pixell/enmap.py:2094-2112 (labeled_distance_transform) at pixel q: the distance (`none` is infinity) and the label. `d e y x` is the
distance of pixel e from (y,x); beyond rmax the distance is rmax and the domain -1 (pixell/enmap.py:2114-2121), so that the label stays
zero. -/
def labeledDist (zero : α) (d : ℕ → ℕ → ℕ → α) (rmax : Option α) (ny nx : ℕ) (lab : ℕ → ℕ) (q : ℕ) : Option α × ℕ :=
  let es := findEdgesLabeled ny nx lab
  let r : Option α × ℕ := match simpleLoop (fun j => d (es.getD j 0) (q / nx) (q % nx)) (List.range es.length) none with
    | none => (rmax, 0)
    | some (v, j) => match rmax with
      | none => (some v, lab (es.getD j 0))
      | some rm => if rm < v then (some rm, 0) else (some v, lab (es.getD j 0))
  (if lab q ≠ 0 then some zero else r.1, r.2)

/-- `mask[pixs] = inds`: the last of equal pixels wins. Used in pixell/analysis.py:1127. -/
def peakMask : List (ℕ × ℕ) → ℕ → ℕ
  | [], _ => 0
  | (p, i) :: rest, q => if peakMask rest q ≠ 0 then peakMask rest q else if p = q then i else 0

/-- pixell/analysis.py:1124-1130 (make_circle_labels): peaks are given as pixel and number. -/
def circleLabel (zero : α) (d : ℕ → ℕ → ℕ → α) (r : α) (ny nx : ℕ) (peaks : List (ℕ × ℕ)) (q : ℕ) : ℕ :=
  let t := labeledDist zero d (some r) ny nx (peakMask peaks) q
  match t.1 with
  | none => 0
  | some v => if v ≥ r then 0 else t.2

/-- The pixels of a label, for the functions of ndimage used in pixell/analysis.py:561-563, 655, 671-672, 768. -/
def labPix (npix : ℕ) (lab : ℕ → ℕ) (l : ℕ) : List ℕ := (List.range npix).filter fun q => lab q = l

/-- ndimage.maximum, used in pixell/analysis.py:563, 672. -/
def labMax (npix : ℕ) (lab : ℕ → ℕ) (snr : ℕ → ℚ) (l : ℕ) : Option ℚ := ((labPix npix lab l).map snr).max?

/-- ndimage.maximum_position, used in pixell/analysis.py:655, 754: the first of equal ones. -/
def labPeak (npix : ℕ) (lab : ℕ → ℕ) (snr : ℕ → ℚ) (l : ℕ) : Option ℕ := (labPix npix lab l).argmax snr

/-- ndimage.center_of_mass of snr**2 along one axis, whose coordinate is c; `none` is NaN. Used in pixell/analysis.py:561, 671, 768. -/
def labCom (npix : ℕ) (lab : ℕ → ℕ) (snr : ℕ → ℚ) (c : ℕ → ℚ) (l : ℕ) : Option ℚ :=
  let ps := labPix npix lab l
  let w := (ps.map fun q => snr q ^ 2).sum
  if w = 0 then none else some ((ps.map fun q => snr q ^ 2 * c q).sum / w)

/-- pixell/analysis.py:550-551, 644-645, 742-743: the effective threshold, before the multiplication by the penalty. -/
def snThreshold (npix : ℕ) (snr penalty : ℕ → ℚ) (snmin : ℚ) (snrel : Option ℚ) : Option ℚ :=
  match snrel with
  | none => some snmin
  | some r => (((List.range npix).map fun q => snr q / penalty q).max?).map fun m => max snmin (m * r)

/-- pixell/analysis.py:552-554, 646, 744: the pixels that are detected, given the effective threshold. -/
def aboveLim (snr penalty : ℕ → ℚ) (snmin : ℚ) (q : ℕ) : Bool := decide (snr q ≥ snmin * penalty q)

/-- An object: its signal to noise ratio, case and pixel coordinates (`none` is NaN). -/
structure Found where
  snr : ℚ
  case : ℕ
  y : Option ℚ
  x : Option ℚ
  deriving DecidableEq

/-- `cat[np.argsort(cat.snr)[::-1]]`, pixell/analysis.py:583, 691, 775. -/
def sortFound (cat : List Found) : List Found := (sortBy (fun a b : Found => decide (a.snr ≤ b.snr)) cat).reverse

/-- The numbers 1 to n of the labels, pixell/analysis.py:559, 647, 745. -/
def allLabels (n : ℕ) : List ℕ := (List.range n).map (· + 1)

/-- pixell/analysis.py:534-584 (FinderSimple.__call__) from the labels on; lab2 are the labels after growing. -/
def simpleFind (npix nx : ℕ) (snr : ℕ → ℚ) (lab2 : ℕ → ℕ) (n : ℕ) : Option (List Found) :=
  ((allLabels n).mapM fun l => do
    let s ← labMax npix lab2 snr l
    return (⟨s, 0, labCom npix lab2 snr (fun q => ((q / nx : ℕ) : ℚ)) l, labCom npix lab2 snr (fun q => ((q % nx : ℕ) : ℚ)) l⟩ : Found)).map sortFound

/-- pixell/analysis.py:555-558 (FinderSimple.__call__): the labels grown by `grow`, computed up to `grow0`. -/
def growLabels (zero : α) (d : ℕ → ℕ → ℕ → α) (grow grow0 : α) (ny nx : ℕ) (lab : ℕ → ℕ) (q : ℕ) : ℕ :=
  let t := labeledDist zero d (some grow0) ny nx lab q
  match t.1 with
  | none => 0
  | some v => if v ≤ grow then t.2 else 0

/-- pixell/analysis.py:655-672 (FinderMulti.__call__): position and snr of the objects, before the check of the position. -/
def multiFind (zero : α) (d : ℕ → ℕ → ℕ → α) (r : α) (ny nx : ℕ) (snr : ℕ → ℚ) (lab : ℕ → ℕ) (n : ℕ) : Option (List Found) := do
  let npix := ny * nx
  let peaks ← (allLabels n).mapM (labPeak npix lab snr)
  let circ := circleLabel zero d r ny nx (peaks.zip (allLabels n))
  ((allLabels n).mapM fun l => do
    let s ← labMax npix circ snr l
    return (⟨s, 0, labCom npix circ snr (fun q => ((q / nx : ℕ) : ℚ)) l, labCom npix circ snr (fun q => ((q % nx : ℕ) : ℚ)) l⟩ : Found)).map sortFound

/-- pixell/analysis.py:722-739 (FinderMultiSafe.__call__) at one pixel: the best snr and its case. -/
def bestCaseQ (snrs : List (ℕ → ℚ)) (q : ℕ) : ℚ × ℕ :=
  match snrs with
  | [] => (0, 0)
  | s :: rest => (rest.zipIdx 1).foldl (fun (b : ℚ × ℕ) x => if x.1 q > b.1 then (x.1 q, x.2) else b) (s q, 0)

/-- pixell/analysis.py:754-776 (FinderMultiSafe.__call__): the objects, with circles of radius `rs ca` made for each case separately. -/
def safeFind (zero : α) (d : ℕ → ℕ → ℕ → α) (rs : ℕ → α) (ny nx : ℕ) (snrs : List (ℕ → ℚ)) (lab : ℕ → ℕ) (n : ℕ) : Option (List Found) := do
  let npix := ny * nx
  let tot := fun q => (bestCaseQ snrs q).1
  let peaks ← (allLabels n).mapM (labPeak npix lab tot)
  let all := peaks.zip (allLabels n)
  return sortFound (all.map fun p =>
    let ca := (bestCaseQ snrs p.1).2
    let snr := snrs.getD ca fun _ => 0
    let circ := circleLabel zero d (rs ca) ny nx (all.filter fun x => (bestCaseQ snrs x.1).2 = ca)
    ⟨tot p.1, ca, labCom npix circ snr (fun q => ((q / nx : ℕ) : ℚ)) p.2, labCom npix circ snr (fun q => ((q % nx : ℕ) : ℚ)) p.2⟩)

end Pixell
