import Verif.Model.Tiles
import Verif.Model.Geometry
import Verif.Model.Ranges
import Mathlib.Algebra.BigOperators.Fin

/-! Views of tiled maps: tiles with their geometries, iteration, indexing of the array behind them, insertion and matrix products. Continues
Model/Tiles.lean. See pixell/tilemap.py. -/

namespace Pixell

/-! ### Geometry of a tile -/

/-- TileGeometry.ind2grid for any int: `i//nx, i%nx` round down. See tilemap.py:356-359. -/
def ind2gridZ (gx : ℕ) (i : ℤ) : ℤ × ℤ := (Int.fdiv i gx, Int.fmod i gx)

/-- One axis of `enmap.Geometry(g.shape, g.wcs)[...,y1:y2,x1:x2]` for row or column `t` of the grid. See tilemap.py:404-411. -/
def tileAxis (n ts : ℕ) (w : Axis) (t : ℤ) : ℤ × Axis :=
  sliceGeometry n w ⟨some (t * ts), some (min (t * ts + ts) n), none⟩

/-- `tile_geom.tiles[i]`: length and wcs of both axes, first y then x. See tilemap.py:401-411. -/
def tileGeom (ny nx th tw : ℕ) (wy wx : Axis) (i : ℤ) : (ℤ × Axis) × (ℤ × Axis) :=
  let g := ind2gridZ (gridLen nx tw) i
  (tileAxis ny th wy g.1, tileAxis nx tw wx g.2)

/-! ### Views -/

variable {α : Type}

/-- The array of active tile `ai`, reshaped to the shape of tile `gi`; `none` is the ValueError of reshape. See tilemap.py:182-183. -/
def TileMap.reshaped (m : TileMap α) (ai gi : ℕ) : Option (List α) :=
  if (m.sub ai).length = m.npix.getD gi 0 then some (m.sub ai) else none

/-- `tile_map.active_tiles[i]`; `none` is an exception. See tilemap.py:158-186. -/
def TileMap.activeGet (m : TileMap α) (i : ℤ) : Option (List α) :=
  (pyGet m.active i).bind fun gi => if i < 0 ∨ (m.active.length : ℤ) ≤ i then none else m.reshaped i.toNat gi

/-- `tile_map.tiles[i]` for an index that is not negative: `none` is an exception, `some none` the None of an inactive tile. See tilemap.py:158-186. -/
def TileMap.tilesGet (m : TileMap α) (i : ℕ) : Option (Option (List α)) :=
  if m.npix.length ≤ i then none
  else match lookupOf m.active i with
    | none => some none
    | some ai => (m.reshaped ai i).map some

/-- `list(tile_map.active_tiles)`, with `none` where the iteration fails. See tilemap.py:210-222. -/
def TileMap.activeIter (m : TileMap α) : List (Option (List α)) :=
  (List.range m.active.length).map fun ai => (m.active[ai]?).bind fun gi => m.reshaped ai gi

/-- `list(tile_map.tiles)`, with `none` where the iteration fails. See tilemap.py:210-222. -/
def TileMap.tilesIter (m : TileMap α) : List (Option (Option (List α))) :=
  (List.range m.npix.length).map fun gi => match lookupOf m.active gi with
    | none => some none
    | some ai => (m.active[ai]?).bind fun g => (m.reshaped ai g).map some

/-- `tile_map[...,a:b]`: numpy's indexing makes another TileMap, which gets the geometry of the old one in `__array_finalize__`. See tilemap.py:68-70,79-86. -/
def TileMap.selPix (m : TileMap α) (a b : ℕ) : TileMap α := { m with buf := (m.buf.drop a).take (b - a) }

/-- A TileMap with one axis before the pixels: one flat array per component. See tilemap.py:62-67. -/
structure PreTileMap (α : Type) where
  npix : List ℕ
  active : List ℕ
  rows : List (List α)

/-- Component number `c` as a map of its own. -/
def PreTileMap.row (m : PreTileMap α) (r : List α) : TileMap α := ⟨m.npix, m.active, r⟩

/-- `tile_map[i]`. See tilemap.py:79-91. -/
def PreTileMap.comp (m : PreTileMap α) (i : ℤ) : Option (TileMap α) := (pyGet m.rows i).map m.row

/-- `tile_map[a:b]` for `0 <= a`. See tilemap.py:79-91. -/
def PreTileMap.comps (m : PreTileMap α) (a b : ℕ) : PreTileMap α := { m with rows := (m.rows.drop a).take (b - a) }

/-- `tile_map.tiles[gi]`: the range of pixels of all components. See tilemap.py:182-183. -/
def PreTileMap.tile (m : PreTileMap α) (gi : ℕ) : Option (List (List α)) :=
  (lookupOf m.active gi).map fun ai => m.rows.map fun r => (m.row r).sub ai

/-- `tilemap.full(tile_geom, val)`. See tilemap.py:14-17. -/
def TileMap.full (npix active : List ℕ) (v : α) : TileMap α :=
  { npix := npix, active := active, buf := List.replicate (active.map fun gi => npix.getD gi 0).sum v }

/-! ### Insertion -/

/-- Where maps live: the map at each place, and the first free place. -/
structure TileHeap (α : Type) where
  at_ : ℕ → TileMap α
  next : ℕ

/-- A write through a map at place `p`: `map.tiles[gi] = val`. Failed writes change nothing. See tilemap.py:188-208. -/
def TileHeap.write (h : TileHeap α) (p gi : ℕ) (val : List α) : TileHeap α :=
  match (h.at_ p).set gi val with
  | none => h
  | some m => { h with at_ := Function.update h.at_ p m }

/-- `insert(omap, imap)` with the default `op=lambda a,b:b`, for maps with the same full geometry: the heap afterwards and the place of the result. With the same
active tiles the result is `op(omap, imap)`, which is imap itself, and `TileMap(out, geometry)` is a view of it. See tilemap.py:226-269 and 279-286. -/
def TileHeap.insert [Zero α] (h : TileHeap α) (o i : ℕ) : Option (TileHeap α × ℕ) :=
  if (h.at_ o).active = (h.at_ i).active then some (h, i)
  else ((h.at_ o).binop (fun _ b => b) (h.at_ i)).map fun out =>
    ({ at_ := Function.update h.at_ h.next out, next := h.next + 1 }, h.next)

/-! ### Compatibility -/

/-- What matters for the compatibility of two geometries. See tilemap.py:340-352. -/
structure TileGeo where
  ny : ℕ
  nx : ℕ
  th : ℕ
  tw : ℕ
  active : List ℕ
  wy : Axis
  wx : Axis

/-- TileGeometry.compatible. See tilemap.py:388-399. -/
def TileGeo.compatible (a b : TileGeo) : ℕ :=
  if (a.ny, a.nx) ≠ (b.ny, b.nx) then 0
  else if (a.th, a.tw) ≠ (b.th, b.tw) then 0
  else if a.active.length = b.active.length ∧ a.active = b.active then 2
  else 1

/-! ### Matrix products -/

/-- A TileMap with `n` components. -/
structure TileVec (n : ℕ) where
  npix : List ℕ
  active : List ℕ
  dat : Fin n → List ℚ

/-- A TileMap with `n` by `n` components. -/
structure TileMat (n : ℕ) where
  npix : List ℕ
  active : List ℕ
  dat : Fin n → Fin n → List ℚ

/-- Component `a` of a vector map. -/
def TileVec.comp {n : ℕ} (v : TileVec n) (a : Fin n) : TileMap ℚ := ⟨v.npix, v.active, v.dat a⟩

/-- Component `a,b` of a matrix map. -/
def TileMat.comp {n : ℕ} (m : TileMat n) (a b : Fin n) : TileMap ℚ := ⟨m.npix, m.active, m.dat a b⟩

/-- `map_mul(mat, vec)` for a matrix TileMap and a vector TileMap of `tot` pixels each: einsum works on the flat arrays, and samegeo takes the geometry of mat.
`none` is the ValueError for arrays of different lengths (a length of 1, which numpy broadcasts, is left out). See tilemap.py:288-309. -/
def mapMul {n : ℕ} (m : TileMat n) (v : TileVec n) (tot : ℕ) : Option (TileVec n) :=
  if (∀ a b, (m.dat a b).length = tot) ∧ ∀ b, (v.dat b).length = tot then
    some ⟨m.npix, m.active, fun a => (List.range tot).map fun p => ∑ b, (m.dat a b).getD p 0 * (v.dat b).getD p 0⟩
  else none

end Pixell
