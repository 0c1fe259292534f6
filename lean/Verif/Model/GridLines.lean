import Verif.Model.Crop
import Verif.Model.Angles

/-
pixell/cgrid.py:7-22,66-107,124-179: the lines of a coordinate grid and the labels at the edges of the image. Floating-point
numbers are rationals. Simplified: the length of a step is any function of its ends (in pixell the Euclidean length); where the
points of a line fall in the image is left to the wcs.
-/
namespace Pixell

/-- The points of a line in the image, {x,y}; none is a point with a coordinate that is not a number. Used for cgrid.py:7-22. -/
abbrev GridPt := Option (ℚ × ℚ)

/-- pixell/cgrid.py:11: the lengths of the steps. -/
def stepLens (len : ℚ × ℚ → ℚ × ℚ → ℚ) : List GridPt → List (Option ℚ)
  | p :: q :: r => (do return len (← p) (← q)) :: stepLens len (q :: r)
  | _ => []

/-- pixell/cgrid.py:13: which steps are jumps; comparisons with NaN are false. -/
def isJump (len : ℚ × ℚ → ℚ × ℚ → ℚ) (typical : Option ℚ) (steplim : ℚ) (p q : GridPt) : Bool :=
  match p, q, typical with
  | some p, some q, some t => decide (t * steplim < len p q)
  | _, _, _ => false

/-- pixell/cgrid.py:14: np.split behind each jump. -/
def splitJumps (jump : GridPt → GridPt → Bool) : List GridPt → List (List GridPt)
  | [] => [[]]
  | [x] => [[x]]
  | x :: y :: t =>
    if jump x y then [x] :: splitJumps jump (y :: t)
    else
      match splitJumps jump (y :: t) with
      | s :: r => (x :: s) :: r
      | [] => [[x]]

/-- pixell/cgrid.py:18: the point beyond q, coming from p. -/
def beyond (e : ℚ) (p q : GridPt) : GridPt := do
  let p ← p
  let q ← q
  return (q.1 + (q.1 - p.1) * e, q.2 + (q.2 - p.2) * e)

/-- pixell/cgrid.py:16-18 (extrap). -/
def extrapSeg (e : ℚ) (seg : List GridPt) : List GridPt :=
  if seg.length < 2 then seg
  else seg ++ [beyond e (seg.getD (seg.length - 2) none) (seg.getD (seg.length - 1) none)]

/-- pixell/cgrid.py:7-22 (calc_line_segs). -/
def lineSegs (len : ℚ × ℚ → ℚ × ℚ → ℚ) (steplim e : ℚ) (pixs : List GridPt) : List (List GridPt) :=
  let typical := npMedian (stepLens len pixs)
  let segs := splitJumps (isJump len typical steplim) pixs
  let n := segs.length
  let segs := segs.mapIdx fun i s => if i + 1 < n then extrapSeg e s else s
  segs.mapIdx fun i s => if 1 ≤ i then (extrapSeg e s.reverse).reverse else s

/-- np.arange(x) for a number x. Used for cgrid.py:96 and :102. -/
def arangeQ (x : ℚ) : List ℚ := (List.range ⌈x⌉.toNat).map fun (i : Nat) => (i : ℚ)

/-- pixell/cgrid.py:81-84,96: the coordinates of the lines on a plain (flat) map whose box goes from b0 to b1. -/
def plainLines (b0 b1 step : ℚ) : List ℚ :=
  let start := ⌊b0 / step⌋ * step
  let nline : ℚ := ⌊b1 / step⌋ - ⌊b0 / step⌋ + 1
  (arangeQ nline).map fun i => start + i * step

/-- pixell/cgrid.py:86-88,102: the latitudes drawn on a map of the sky. -/
def latLines (step : ℚ) : List ℚ := (arangeQ (180 / step + 1)).map fun i => -90 + i * step

/-- pixell/cgrid.py:86-88,96-99: the longitudes drawn on a map of the sky, with their labels. -/
def lonLines (step : ℚ) (positiveRa : Bool) : List (ℚ × ℚ) :=
  (arangeQ (360 / step + 1)).map fun i =>
    let phi := 0 + i * step
    (phi, if positiveRa then phi else rewind phi 0 360)

/-- np.sign. Used for cgrid.py:144-145. -/
def npSign (x : ℚ) : ℤ := if x < 0 then -1 else if x = 0 then 0 else 1

/-- The coordinate of a point along an axis (0 for x). Used for cgrid.py:164-165. -/
def coordOf (dim : Nat) (p : ℚ × ℚ) : ℚ := if dim = 0 then p.1 else p.2

/-- pixell/cgrid.py:142-146: does the step from p to q change sides of an edge of the image of n pixels along dim? -/
def crossesEdge (n : ℚ) (dim : Nat) (p q : ℚ × ℚ) : Bool :=
  npSign (coordOf dim q) ≠ npSign (coordOf dim p) || npSign (n - coordOf dim q - 1) ≠ npSign (n - coordOf dim p - 1)

/-- pixell/cgrid.py:164-174: the place of the label of a crossing along dim. -/
def crossPos (n : ℚ) (dim : Nat) (p q : ℚ × ℚ) : ℚ × ℚ :=
  let a0 := coordOf dim p
  let a1 := coordOf dim q
  let b0 := coordOf (1 - dim) p
  let b1 := coordOf (1 - dim) q
  let slope := (b1 - b0) / (a1 - a0)
  let across := if a0 * a1 ≤ 0 then 0 else n
  let bcross := b0 + slope * (across - a0)
  if dim = 0 then (across, bcross) else (bcross, across)

/-- pixell/cgrid.py:142-157: the labels of the steps of a curve that cross an edge of the image of nx,ny pixels. -/
def stepLabels (nx ny : ℚ) : List (ℚ × ℚ) → List (ℚ × ℚ)
  | p :: q :: r =>
    ([0, 1].filterMap fun dim =>
      let n := if dim = 0 then nx else ny
      let m := if dim = 0 then ny else nx
      let other := coordOf (1 - dim) p
      if crossesEdge n dim p q && !(other < 0 || m < other) then some (crossPos n dim p q) else none) ++ stepLabels nx ny (q :: r)
  | _ => []

/-- pixell/cgrid.py:124-179 (calc_label_pos), the positions of the labels of one curve. -/
def curveLabels (nx ny : ℚ) (curve : List (ℚ × ℚ)) : List (ℚ × ℚ) :=
  match stepLabels nx ny curve with
  | [] =>
    match curve with
    | p :: _ => if 0 ≤ p.1 ∧ 0 ≤ p.2 ∧ p.1 < nx ∧ p.2 < ny then [p] else []
    | [] => []
  | l => l

end Pixell
