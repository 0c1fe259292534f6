import Verif.Model.Multimap

/-
pixell/multimap.py: multimaps whose maps have several components, iteration over the maps, and the methods that pass their
arguments on. `none` is an exception.
-/
namespace Pixell

variable {α β : Type}

/-- numpy's assignment `map[:] = v` of an array of shape (np,) to one of shape (np,ny,nx): the axis of v is matched with the last
axis. Used for multimap.py:119-121. -/
def fillComponents (np _ny nx : ℕ) (v : ℕ → α) : Option (ℕ → ℕ → ℕ → α) :=
  if np = nx then some fun _ _ x => v x else if np = 1 then some fun _ _ _ => v 0 else none

/-- pixell/multimap.py:100-122 (full) for geometries with np components: `val c i` is the value for component c of map i, after
broadcasting. -/
def multimapFullC (np : ℕ) (geos : List (ℕ × ℕ)) (val : ℕ → ℕ → α) : Option (List (ℕ → ℕ → ℕ → α)) :=
  (List.range geos.length).mapM fun (i : ℕ) => fillComponents np (geos.getD i (0, 0)).1 (geos.getD i (0, 0)).2 fun c => val c i

/-- Python's iteration over mm.maps: `__getitem__` with 0, 1, ... until an IndexError. Used for multimap.py:47-57. -/
def Multimap.iterFrom (mm : Multimap α) : ℕ → ℕ → Option (List (Map2 α))
  | 0, _ => none
  | f + 1, i =>
    if (pyGet mm.offs i).isNone ∨ (pyGet mm.offs ((i : ℤ) + 1)).isNone then some []
    else do
      let m ← mm.get i
      let rest ← mm.iterFrom f (i + 1)
      return m :: rest

/-- list(mm.maps). Used for multimap.py:47-57. -/
def Multimap.iter (mm : Multimap α) : Option (List (Map2 α)) := mm.iterFrom (mm.geos.length + 1) 0

/-- pixell/multimap.py:180-202 (mean, median, max, min, var, std): `op` of the pixels of each map. -/
def Multimap.reduce (mm : Multimap α) (op : List α → β) : Option (List β) := mm.iter.map fun ms => ms.map fun m => op m.rows.flatten

/-- pixell/multimap.py:67-75 (multimap). Without maps it makes a geometry from the pair (0,0), which raises. -/
def multimapNew (maps : List (Map2 α)) : Option (Multimap α) := if maps = [] then none else some (multimap maps)

/-- A call with keywords: TypeError if the function does not have one of them. Used for multimap.py:40-45. -/
def pyCall (params given : List String) (result : β) : Option β := if given.all params.contains then some result else none

section Methods
variable {G P : Type}

/-- pixell/multimap.py:132-135 (lmap); `elmap` is enmap.lmap. -/
def mmLmap (given : List String) (elmap : G → P) (geos : List G) : Option (List P) :=
  pyCall ["geometries", "dtype"] given (geos.map elmap)

/-- pixell/multimap.py:43 (ndmaps.lmap). -/
def ndmapsLmap (elmap : G → P) (geos : List G) : Option (List P) := mmLmap ["geometries", "oversample", "dtype"] elmap geos

/-- pixell/multimap.py:44 (ndmaps.modlmap) and :137-140 (modlmap). -/
def ndmapsModlmap (emodlmap : G → P) (geos : List G) : Option (List P) :=
  pyCall ["geometries", "dtype"] ["geometries", "oversample"] (geos.map emodlmap)

/-- pixell/multimap.py:128-130 (pixmap): it passes dtype to enmap.pixmap(shape, wcs=None). -/
def mmPixmap (epixmap : G → P) (geos : List G) : Option (List P) :=
  geos.mapM fun g => pyCall ["shape", "wcs"] ["shape", "wcs", "dtype"] (epixmap g)

/-- pixell/multimap.py:40 (ndmaps.posmap) and :124-126 (posmap): the method does not pass safe on. `eposmap safe corner` is
enmap.posmap. -/
def ndmapsPosmap (eposmap : Bool → Bool → G → P) (geos : List G) (_safe corner : Bool) : List P := geos.map (eposmap true corner)

/-- pixell/multimap.py:45 (ndmaps.modrmap) and :142-146 (modrmap): the function does not pass corner on. -/
def ndmapsModrmap (emodrmap : Bool → Bool → G → P) (geos : List G) (safe _corner : Bool) : List P := geos.map (emodrmap safe false)

end Methods

end Pixell
