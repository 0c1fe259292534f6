import Verif.Model.Coordinates
import Mathlib.Analysis.SpecialFunctions.Complex.Arg
import Mathlib.Analysis.SpecialFunctions.Trigonometric.Inverse

/-
Distances from the edges of spherical polygons (pixell/utils.py).
-/
namespace Pixell

/-- `np.sum(a*b,-1)` of two vectors of length 3, as in utils.py:2156-2166. -/
noncomputable def dotV (a b : Fin 3 → ℝ) : ℝ := a 0 * b 0 + a 1 * b 1 + a 2 * b 2

/-- `np.cross`, as in utils.py:2150,2154. -/
noncomputable def cross3 (a b : Fin 3 → ℝ) : Fin 3 → ℝ := ![a 1 * b 2 - a 2 * b 1, a 2 * b 0 - a 0 * b 2, a 0 * b 1 - a 1 * b 0]

/-- Division by the length, utils.py:2151,2155. -/
noncomputable def normalize3 (a : Fin 3 → ℝ) : Fin 3 → ℝ := fun i => a i / √(dotV a a)

/-- `np.arctan2(y,x)`, as in utils.py:2156-2157. -/
noncomputable def atan2R (y x : ℝ) : ℝ := Complex.arg ⟨x, y⟩

/-- `np.arccos(np.clip(x,-1,1))`, as in utils.py:2162-2166. -/
noncomputable def acosClip (x : ℝ) : ℝ := Real.arccos (min (max x (-1)) 1)

open Classical in
/-- The distance from one edge, utils.py:2147-2168, of a point `p` given as a vector.  `none` is NaN, where the ends of the edge
are parallel and the code divides zero by zero. -/
noncomputable def edgeDist (p v1 v2 : Fin 3 → ℝ) : Option ℝ :=
  if cross3 v1 v2 = 0 then none
  else
    let vz := normalize3 (cross3 v1 v2)
    let vx := v1
    let vy := normalize3 (cross3 vz vx)
    let pang := atan2R (dotV p vy) (dotV p vx)
    let ang2 := atan2R (dotV v2 vy) (dotV v2 vx)
    if 0 ≤ pang ∧ pang < ang2 then some |acosClip (dotV p vz) - Real.pi / 2|
    else some (min (acosClip (dotV p v1)) (acosClip (dotV p v2)))

/-- np.min over the edges, utils.py:2171: NaN if one of them is. -/
noncomputable def minNan : List (Option ℝ) → Option ℝ
  | [] => none
  | [d] => d
  | d :: ds => match d, minNan ds with
    | some a, some b => some (min a b)
    | _, _ => none

/-- The consecutive pairs of vertices with the last and the first, utils.py:2147-2149. -/
def polyEdges (verts : List (Fin 3 → ℝ)) : List ((Fin 3 → ℝ) × (Fin 3 → ℝ)) := verts.zip (verts.rotate 1)

/-- poly_edge_dist, utils.py:2136-2172, for one point and one polygon. -/
noncomputable def polyEdgeDist (point : ℝ × ℝ) (poly : List (ℝ × ℝ)) : Option ℝ :=
  let p := ang2rect false point.1 point.2
  let vertices := poly.map fun v => ang2rect false v.1 v.2
  minNan ((polyEdges vertices).map fun e => edgeDist p e.1 e.2)

end Pixell
