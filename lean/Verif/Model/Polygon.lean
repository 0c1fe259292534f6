import Mathlib.Algebra.Order.Field.Rat

/-
Points in polygons (pixell/utils.py).
-/
namespace Pixell

/-- Whether the edge from `a` to `b` counts as crossed by the ray from the point to the right, utils.py:2127-2133, with the
point at the origin.  Where y1=y2 the code divides by zero; the first condition is then false. -/
def crosses (a b : ℚ × ℚ) : Bool := decide (a.2 * b.2 < 0) && decide (-a.2 * (b.1 - a.1) / (b.2 - a.2) + a.1 > 0)

/-- The vertices relative to the point, utils.py:2122. -/
def relVerts (p : ℚ × ℚ) (poly : List (ℚ × ℚ)) : List (ℚ × ℚ) := poly.map fun v => (v.1 - p.1, v.2 - p.2)

/-- The number of crossed edges, utils.py:2127-2133: for the vertices after `prev`. -/
def crossCount (prev : ℚ × ℚ) : List (ℚ × ℚ) → Nat
  | [] => 0
  | v :: vs => (crosses prev v).toNat + crossCount v vs

/-- point_in_polygon, utils.py:2112-2134, for one point and one polygon.  The edge before the first vertex comes from the last
one (index -1). -/
def pointInPolygon (p : ℚ × ℚ) (poly : List (ℚ × ℚ)) : Bool :=
  match (relVerts p poly).getLast? with
  | none => false
  | some l => decide (crossCount l (relVerts p poly) % 2 = 1)

end Pixell
