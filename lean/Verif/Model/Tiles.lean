/-
Tiled maps (tilemap.py).  An element `α` of a tile buffer stands for all pre-dimensions of one pixel.
`none` is an exception.
-/
namespace Pixell

/-! ### Tile geometry (tilemap.py:314-399) -/

/-- Number of tiles along an axis: `(s+ts-1)//ts`, tilemap.py:324. -/
def gridLen (s ts : Nat) : Nat := (s + ts - 1) / ts

/-- Tile sizes along one axis (tilemap.py:327-330): all `ts`, except the last. -/
def tileLens (s ts : Nat) : List Nat :=
  (List.range (gridLen s ts)).map fun t =>
    if t + 1 = gridLen s ts then min ts ((s - 1) % ts + 1) else ts

/-- Pixel interval `[y1, y2)` of tile `t` along one axis, `_TileGeomHelper.__getitem__`
(tilemap.py:404-411) and to_enmap (tilemap.py:418-429). -/
def tileSpan (s ts t : Nat) : Nat × Nat := (t * ts, min (t * ts + ts) s)

/-- `npixs` (tilemap.py:331-333): flattened product of the two axes' tile sizes. -/
def tileNpix (ny nx ty tx : Nat) : List Nat :=
  (tileLens ny ty).flatMap fun h => (tileLens nx tx).map fun w => h * w

/-- TileGeometry.grid2ind, tilemap.py:353-355. -/
def grid2ind (gx ty tx : Nat) : Nat := ty * gx + tx

/-- TileGeometry.ind2grid, tilemap.py:356-359. -/
def ind2grid (gx i : Nat) : Nat × Nat := (i / gx, i % gx)

/-- `lookup` (tilemap.py:335-337): `full(ntile,-1)`, then `lookup[active] = arange(len(active))`, so that
the last occurrence of a repeated index wins. -/
def lookupOf (active : List Nat) (gi : Nat) : Option Nat :=
  ((List.range active.length).filter fun i => active[i]? == some gi).getLast?

/-! ### Tile maps -/

/-- A TileMap: pixel counts of all tiles, active tile list, flat buffer (tilemap.py:62-67). -/
structure TileMap (α : Type) where
  npix : List Nat
  active : List Nat
  buf : List α
deriving DecidableEq

variable {α : Type}

/-- `npixs[active]`. Used for tilemap.py:150. -/
def TileMap.sizes (m : TileMap α) : List Nat := m.active.map fun gi => m.npix.getD gi 0

/-- TileView.offs (tilemap.py:150): cumulative sum. -/
def TileMap.off (m : TileMap α) (ai : Nat) : Nat := (m.sizes.take ai).sum

/-- Element range of active tile `ai`. Used for tilemap.py:158-186. -/
def TileMap.sub (m : TileMap α) (ai : Nat) : List α :=
  (m.buf.drop (m.off ai)).take (m.off (ai + 1) - m.off ai)

/-- `tile_map.tiles[gi]` (TileView.__getitem__ with active=False, tilemap.py:158-186). -/
def TileMap.get (m : TileMap α) (gi : Nat) : Option (List α) :=
  (lookupOf m.active gi).map m.sub

/-- `tile_map.tiles[gi] = val` (TileView.__setitem__, tilemap.py:187-208); `none` for an inactive tile
or a value of the wrong size. -/
def TileMap.set (m : TileMap α) (gi : Nat) (val : List α) : Option (TileMap α) :=
  match lookupOf m.active gi with
  | none => none
  | some ai =>
    if val.length = m.off (ai + 1) - m.off ai then
      some { m with buf := m.buf.take (m.off ai) ++ val ++ m.buf.drop (m.off (ai + 1)) }
    else none

/-- tilemap.zeros (tilemap.py:4-7). -/
def TileMap.zeros [Zero α] (npix active : List Nat) : TileMap α :=
  { npix := npix, active := active
    buf := List.replicate (active.map fun gi => npix.getD gi 0).sum 0 }

/-- `np.unique(np.concatenate([a, b]))` for indices below `n`. Used for tilemap.py:226-269. -/
def uniqueInds (n : Nat) (a b : List Nat) : List Nat := (List.range n).filter fun i => i ∈ a ∨ i ∈ b

/-- The loop `for gi in inds: out.tiles[gi] = f(gi, out.tiles[gi])`. Used for tilemap.py:226-269. -/
def TileMap.update (f : Nat → List α → Option (List α)) : List Nat → TileMap α → Option (TileMap α)
  | [], out => some out
  | gi :: inds, out => do
    let t ← out.get gi
    let v ← f gi t
    let out' ← out.set gi v
    TileMap.update f inds out'

/-- The elementwise operation; `none` is a shape error. Used for tilemap.py:226-269. -/
def tileOp (op : α → α → α) (a b : List α) : Option (List α) :=
  if a.length = b.length then some (List.zipWith op a b) else none

/-- make_binop, not in place (tilemap.py:226-269), for maps with the same full geometry.  Equal active
lists take the fast elementwise path, all others the loop over tiles. -/
def TileMap.binop [Zero α] (op : α → α → α) (a b : TileMap α) : Option (TileMap α) :=
  if a.active = b.active then do
    let buf ← tileOp op a.buf b.buf
    return { a with buf := buf }
  else do
    let out : TileMap α := TileMap.zeros a.npix (uniqueInds a.npix.length a.active b.active)
    let out ← out.update (fun gi _ => a.get gi) a.active
    out.update (fun gi t => do
      let tb ← b.get gi
      tileOp op t tb) b.active

/-- make_binop with is_inplace=True (tilemap.py:239-249). -/
def TileMap.ibinop (op : α → α → α) (a b : TileMap α) : Option (TileMap α) :=
  if a.active = b.active then do
    let buf ← tileOp op a.buf b.buf
    return { a with buf := buf }
  else if b.active.any fun gi => (lookupOf a.active gi).isNone then none
  else a.update (fun gi t => do
      let tb ← b.get gi
      tileOp op t tb) b.active

/-- numpy's `np.all(x == y)` for one-dimensional arrays, with broadcasting.  Lengths that cannot be
broadcast raise in numpy 1.25 and later, and compare as unequal in earlier versions (`legacy`). Used for tilemap.py:108-130. -/
def npAllEq (legacy : Bool) (x y : List Nat) : Option Bool :=
  if x.length = y.length then some (decide (x = y))
  else if x.length = 1 ∨ y.length = 1 then some (x.all fun a => y.all fun b => a == b)
  else if legacy then some false else none

/-- TileMap.with_tiles (tilemap.py:108-130) with an explicit list of tiles. -/
def TileMap.withTiles [Zero α] (legacy : Bool) (m : TileMap α) (active : List Nat) (strict : Bool) :
    Option (TileMap α) := do
  if ← npAllEq legacy active m.active then return m
  else
    let act := if strict then active
      else m.active ++ active.filter fun gi => (lookupOf m.active gi).isNone
    let out : TileMap α := TileMap.zeros m.npix act
    out.update (fun gi t => some ((m.get gi).getD t)) act

/-- to_enmap (tilemap.py:418-429): `omap[y1:y2,x1:x2] = tile` for every active tile, starting from a
zero map; tiles are row-major. -/
def TileMap.toEnmap [Zero α] (m : TileMap α) (ny nx th tw : Nat) : Nat → Nat → α :=
  (List.range m.active.length).foldl (fun omap ai y x =>
    let g := ind2grid (gridLen nx tw) (m.active.getD ai 0)
    let ys := tileSpan ny th g.1
    let xs := tileSpan nx tw g.2
    if ys.1 ≤ y ∧ y < ys.2 ∧ xs.1 ≤ x ∧ x < xs.2 then
      (m.sub ai).getD ((y - ys.1) * (xs.2 - xs.1) + (x - xs.1)) 0
    else omap y x) fun _ _ => 0

/-- `np.array_split(l, size)[rank]`: the first `len % size` parts are one longer. Used for tilemap.py:447-449. -/
def arraySplit {β : Type} (l : List β) (size rank : Nat) : List β :=
  let q := l.length / size
  let r := l.length % size
  (l.drop (rank * q + min rank r)).take (q + if rank < r then 1 else 0)

/-- Default output tiles of a rank (tilemap.py:447-449): all tiles active anywhere, split over ranks. -/
def defaultActive {α : Type} (imaps : List (TileMap α)) (ntile rank : Nat) : List Nat :=
  arraySplit ((List.range ntile).filter fun gi => imaps.any fun m => gi ∈ m.active) imaps.length rank

/-! ### Redistribution over ranks (tilemap.py:437-482) -/

/-- The data rank `s` sends to a rank with active output tiles `oact`: its own tiles that are wanted
there, in the order of its own active list (steps 3 and 4). See tilemap.py:437-482. -/
def sendSeg (imap : TileMap α) (oact : List Nat) : List α :=
  ((List.range imap.active.length).filter fun ai => imap.active.getD ai 0 ∈ oact).flatMap imap.sub

/-- Step 7: loop over the received tiles of one sender with input tiles `iact`, adding each to the
output; the state is the remaining receive buffer and the output map. See tilemap.py:437-482. -/
def recvLoop [Add α] (iact : List Nat) :
    List Nat → List α × TileMap α → Option (List α × TileMap α)
  | [], st => some st
  | gi :: rest, (rbuf, out) =>
    if gi ∈ iact then do
      let t ← out.get gi
      let n := t.length
      let out' ← out.set gi (List.zipWith (· + ·) t (rbuf.take n))
      recvLoop iact rest (rbuf.drop n, out')
    else recvLoop iact rest (rbuf, out)

/-- redistribute as seen by one receiving rank with output tiles `oact`; `imaps` are the input maps of
all ranks.  Alltoallv concatenates what the ranks send (step 6). See tilemap.py:437-482. -/
def redistribute [Zero α] [Add α] (imaps : List (TileMap α)) (npix oact : List Nat) : Option (TileMap α) := do
  let rbuf := imaps.flatMap fun m => sendSeg m oact
  let st ← imaps.foldlM (fun st m => recvLoop m.active oact st) (rbuf, TileMap.zeros npix oact)
  return st.2

end Pixell
