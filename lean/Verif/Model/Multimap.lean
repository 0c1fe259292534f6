import Verif.Model.Index
import Verif.Model.Ranges

/-
Model of pixell/multimap.py: several maps stored one after the other in a flat array. The pre-dimensions (all axes but the
last) ride along: an element of the flat array is a whole column of them.
-/
namespace Pixell

variable {α : Type}

/-- A two-dimensional map: its shape and rows. Used for multimap.py:69-77. -/
structure Map2 (α : Type) where
  ny : Nat
  nx : Nat
  rows : List (List α)
deriving DecidableEq

/-- The rows agree with the shape. See multimap.py:69-77. -/
def Map2.Ok (m : Map2 α) : Prop := m.rows.length = m.ny ∧ ∀ r ∈ m.rows, r.length = m.nx

/-- numpy's reshape of a flat array to two dimensions; `none` for ValueError. Used for multimap.py:51-55. -/
def reshape2 (ny nx : Nat) (l : List α) : Option (Map2 α) :=
  if l.length = ny * nx then some ⟨ny, nx, (List.range ny).map fun y => (l.drop (y * nx)).take nx⟩ else none

/-- multimap.py ndmaps, lines 5-43: flat data and shapes. -/
structure Multimap (α : Type) where
  flat : List α
  geos : List (Nat × Nat)
deriving DecidableEq

/-- multimap.py multimap, lines 69-77, for at least one map. -/
def multimap (maps : List (Map2 α)) : Multimap α :=
  ⟨(maps.map fun m => m.rows.flatten).flatten, maps.map fun m => (m.ny, m.nx)⟩

/-- multimap.py _map_view.__init__, lines 47-49: the offsets of the maps in the flat array. -/
def Multimap.offs (mm : Multimap α) : List Nat := cumsum0 (mm.geos.map fun g => g.1 * g.2) true

/-- multimap.py _map_view.__getitem__, lines 51-55, for a single integer. -/
def Multimap.get (mm : Multimap α) (i : Int) : Option (Map2 α) := do
  let a ← pyGet mm.offs i
  let b ← pyGet mm.offs (i + 1)
  let g ← pyGet mm.geos i
  reshape2 g.1 g.2 ((mm.flat.take b).drop a)

/-- multimap.py _map_view.__setitem__, lines 56-63, assigning a whole map of the same shape. -/
def Multimap.set (mm : Multimap α) (i : Int) (m : Map2 α) : Option (Multimap α) := do
  let a ← pyGet mm.offs i
  let b ← pyGet mm.offs (i + 1)
  let g ← pyGet mm.geos i
  let _ ← reshape2 g.1 g.2 ((mm.flat.take b).drop a)
  if m.ny = g.1 ∧ m.nx = g.2 then some ⟨mm.flat.take a ++ m.rows.flatten ++ mm.flat.drop b, mm.geos⟩ else none

/-- The same for one pixel, `maps[i][y,x] = v`. See multimap.py:56-60. -/
def Multimap.setPix (mm : Multimap α) (i : Int) (y x : Nat) (v : α) : Option (Multimap α) := do
  let a ← pyGet mm.offs i
  let b ← pyGet mm.offs (i + 1)
  let g ← pyGet mm.geos i
  let _ ← reshape2 g.1 g.2 ((mm.flat.take b).drop a)
  if y < g.1 ∧ x < g.2 then some ⟨mm.flat.set (a + y * g.2 + x) v, mm.geos⟩ else none

/-- multimap.py full, lines 103-124, with one value for each map. -/
def multimapFull (geos : List (Nat × Nat)) (vals : List α) : Option (Multimap α) :=
  if geos.length = vals.length then some (multimap (List.zipWith (fun g v => ⟨g.1, g.2,
    List.replicate g.1 (List.replicate g.2 v)⟩) geos vals)) else none

end Pixell
