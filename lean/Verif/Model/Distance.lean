import Mathlib.Order.Defs.LinearOrder
import Mathlib.Order.Lattice
import Mathlib.Data.List.Sort

/-
Distance transforms: enmap.py distance_transform, distance_from, grow_mask, shrink_mask, and the C code behind them
(cython/distances_core.c). Distances are elements of a linear order `α` with a zero; `d i y x` is the distance from point `i`
to pixel `(y,x)`. The points of a distance transform are pixel centres, so a point's own pixel has distance zero and
fix_point_pix (distances.pyx) has nothing to do.
-/
namespace Pixell

variable {α : Type} [LinearOrder α]

/-- A boolean mask of `ny` rows and `nx` columns, by flat index. Used for distances_core.c:1209-1231. -/
structure Mask where
  ny : Nat
  nx : Nat
  val : List Bool
deriving DecidableEq

/-- The value of pixel `i` of the flattened mask. Used for distances_core.c:1209-1231. -/
def Mask.get (m : Mask) (i : Nat) : Bool := m.val.getD i false

/-- distances_core.c find_edges, lines 1209-1231: the flat indices of the edge pixels of the False region, in the order in
which they are pushed (corner pixels appear twice). -/
def findEdges (m : Mask) : List Nat :=
  ((List.range m.nx).filter fun i => !m.get i) ++
  (((List.range m.nx).map fun x => (m.ny - 1) * m.nx + x).filter fun i => !m.get i) ++
  (((List.range (m.ny - 1)).map fun y => (y + 1) * m.nx).filter fun i => !m.get i) ++
  (((List.range m.ny).map fun y => y * m.nx + (m.nx - 1)).filter fun i => !m.get i) ++
  (List.range (m.ny - 2)).flatMap fun y => ((List.range (m.nx - 2)).map fun x => (y + 1) * m.nx + (x + 1)).filter
    fun i => !m.get i && (m.get (i - 1) || m.get (i + 1) || m.get (i - m.nx) || m.get (i + m.nx))

/-- distances_core.c distance_from_points_simple, lines 66-81, for one pixel: the loop over the points with the running
best, `dist j` being the distance to point `j` (`none` while no point was seen). -/
def simpleLoop (dist : Nat → α) : List Nat → Option (α × Nat) → Option (α × Nat)
  | [], s => s
  | j :: js, s => simpleLoop dist js (if (match s with | none => true | some (b, _) => decide (dist j < b)) then
      some (dist j, j) else s)

/-- One pixel of distance_from with method="simple": the distance and the number of the closest of `n` points; with no
points, `top` (rmax or infinity, enmap.py:2128-2132) and `none`. -/
def distSimple (top : α) (n : Nat) (dist : Nat → α) : α × Option Nat :=
  match simpleLoop dist (List.range n) none with
  | none => (top, none)
  | some (b, j) => (b, some j)

/-- distances_core.c wrap1, line 19. -/
def wrap1 (a n : Int) : Int := if a < 0 then a + n else if a ≥ n then a - n else a

/-- distances_core.c:10-13: the four neighbours. -/
def neighOffs : List (Int × Int) := [(0, -1), (0, 1), (-1, 0), (1, 0)]

/-! ### The bubble method -/

/-- State of distance_from_points_bubble: distances, closest points (`none` for -1). Used for distances_core.c:222-238. -/
structure Bubble (α : Type) where
  dists : List α
  domains : List (Option Nat)
deriving DecidableEq

/-- Body of the inner loop, distances_core.c:222-238: point `ip`, pixel `(y,x)`, neighbour offset `o`. -/
def bubbleTry (ny nx : Nat) (d : Nat → Nat → Nat → α) (rmax : α) (ip y x : Nat) (s : Bubble α × List (Nat × Nat))
    (o : Int × Int) : Bubble α × List (Nat × Nat) :=
  let y2 := (wrap1 (y + o.1) ny).toNat
  let x2 := (wrap1 (x + o.2) nx).toNat
  let pix2 := y2 * nx + x2
  if s.1.domains.getD pix2 none = some ip then s else
  if d ip y2 x2 < s.1.dists.getD pix2 rmax ∧ d ip y2 x2 < rmax then
    (⟨s.1.dists.set pix2 (d ip y2 x2), s.1.domains.set pix2 (some ip)⟩, s.2 ++ [(y2, x2)])
  else s

/-- One entry of the work list, distances_core.c:218-239. The domain is read when the entry is processed. -/
def bubbleVisit (ny nx : Nat) (d : Nat → Nat → Nat → α) (rmax : α) (s : Bubble α × List (Nat × Nat)) (p : Nat × Nat) :
    Bubble α × List (Nat × Nat) :=
  match s.1.domains.getD (p.1 * nx + p.2) none with
  | none => s
  | some ip => neighOffs.foldl (bubbleTry ny nx d rmax ip p.1 p.2) s

/-- The main loop, distances_core.c:213-243. Fuel `0` means still running. -/
def bubbleLoop (ny nx : Nat) (d : Nat → Nat → Nat → α) (rmax : α) : Nat → Bubble α → List (Nat × Nat) → Option (Bubble α)
  | _, s, [] => some s
  | 0, _, _ :: _ => none
  | f + 1, s, p :: ps =>
    let r := (p :: ps).foldl (bubbleVisit ny nx d rmax) (s, [])
    bubbleLoop ny nx d rmax f r.1 r.2

/-- Setting up the points, distances_core.c:204-211: `pts[i]` is the pixel of point `i`. Later points overwrite. -/
def bubbleInit (ny nx : Nat) (d : Nat → Nat → Nat → α) (rmax : α) (pts : List (Nat × Nat)) : Bubble α :=
  pts.zipIdx.foldl (fun s p => ⟨s.dists.set (p.1.1 * nx + p.1.2) (d p.2 p.1.1 p.1.2),
      s.domains.set (p.1.1 * nx + p.1.2) (some p.2)⟩)
    ⟨List.replicate (ny * nx) rmax, List.replicate (ny * nx) none⟩

/-- distances_core.c distance_from_points_bubble, lines 168-250. -/
def bubble (fuel ny nx : Nat) (d : Nat → Nat → Nat → α) (rmax : α) (pts : List (Nat × Nat)) : Option (Bubble α) :=
  bubbleLoop ny nx d rmax fuel (bubbleInit ny nx d rmax pts) pts

/-! ### The cellgrid method (the default) -/

/-- distances_core.c Cell, lines 370-382. `status` is 0 (unallocated), 1 (active) or 2 (done). -/
structure DCell (α : Type) where
  status : Nat
  y1 : Nat
  x1 : Nat
  ny : Nat
  nx : Nat
  dists : List α
  domains : List (Option Nat)
  current : List (Nat × Nat)
deriving DecidableEq

/-- What does not change during a run: map shape, block size, number of blocks, distance function, cap. Used for distances_core.c:668-669. -/
structure DGrid (α : Type) where
  ny : Nat
  nx : Nat
  bsize : Nat
  d : Nat → Nat → Nat → α
  rmax : α

/-- distances_core.c:668-669. -/
def DGrid.nby (g : DGrid α) : Nat := (g.ny + g.bsize - 1) / g.bsize
/-- distances_core.c:668-669. -/
def DGrid.nbx (g : DGrid α) : Nat := (g.nx + g.bsize - 1) / g.bsize

/-- A cell before allocation. Used for distances_core.c:549-592. -/
def emptyCell : DCell α := ⟨0, 0, 0, 0, 0, [], [], []⟩

/-- distances_core.c allocate_cell, lines 414-434, for block `(by,bx)`. -/
def DGrid.alloc (g : DGrid α) (by' bx : Nat) : DCell α :=
  let y1 := by' * g.bsize
  let x1 := bx * g.bsize
  let ny := min ((by' + 1) * g.bsize) g.ny + 1 - y1
  let nx := min ((bx + 1) * g.bsize) g.nx + 1 - x1
  ⟨1, y1, x1, ny, nx, List.replicate (ny * nx) g.rmax, List.replicate (ny * nx) none, []⟩

/-- The coordinates fill_cell (distances_core.c:436-459) gives local pixel `(y,x)`: those of the map pixel with wrapping. -/
def DGrid.dist (g : DGrid α) (c : DCell α) (i y x : Nat) : α :=
  g.d i (wrap1 (c.y1 + y) g.ny).toNat (wrap1 (c.x1 + x) g.nx).toNat

/-- Body of the inner loop of cell_solve_until, distances_core.c:502-531, with r_targ infinite (dr is infinite in every call from
enmap.py, so the waiting list stays empty). -/
def DGrid.tryPix (g : DGrid α) (ip y x : Nat) (s : DCell α × List (Nat × Nat)) (o : Int × Int) :
    DCell α × List (Nat × Nat) :=
  let y2 := (y : Int) + o.1
  let x2 := (x : Int) + o.2
  if y2 < 0 ∨ y2 ≥ s.1.ny ∨ x2 < 0 ∨ x2 ≥ s.1.nx then s else
  let pix2 := y2.toNat * s.1.nx + x2.toNat
  if s.1.domains.getD pix2 none = some ip then s else
  if g.dist s.1 ip y2.toNat x2.toNat < s.1.dists.getD pix2 g.rmax ∧ g.dist s.1 ip y2.toNat x2.toNat < g.rmax then
    ({ s.1 with dists := s.1.dists.set pix2 (g.dist s.1 ip y2.toNat x2.toNat),
                domains := s.1.domains.set pix2 (some ip) }, s.2 ++ [(y2.toNat, x2.toNat)])
  else s

/-- One entry of the work list, distances_core.c:498-533; `orig` are the domains at the start of the pass. -/
def DGrid.visit (g : DGrid α) (orig : List (Option Nat)) (w : Nat) (s : DCell α × List (Nat × Nat)) (p : Nat × Nat) :
    DCell α × List (Nat × Nat) :=
  match orig.getD (p.1 * w + p.2) none with
  | none => s
  | some ip => neighOffs.foldl (g.tryPix ip p.1 p.2) s

/-- distances_core.c cell_solve_until, lines 480-547. -/
def DGrid.solve (g : DGrid α) : Nat → DCell α → List (Nat × Nat) → Option (DCell α)
  | _, c, [] => some { c with current := [] }
  | 0, _, _ :: _ => none
  | f + 1, c, p :: ps =>
    let r := (p :: ps).foldl (g.visit c.domains c.nx) (c, [])
    g.solve f r.1 r.2

/-- distances_core.c fetch_edge, lines 596-632. The pixel pairs (to, from) of the shared edge in direction `dir`. -/
def edgePairs (cto cfrom : DCell α) (o : Int × Int) : List (Nat × Nat) :=
  if o.1 = 0 then (List.range cto.ny).map fun i =>
    ((if o.2 < 0 then 0 else cto.nx - 1) + i * cto.nx, (if o.2 < 0 then cfrom.nx - 1 else 0) + i * cfrom.nx)
  else (List.range cto.nx).map fun i =>
    ((if o.1 < 0 then 0 else (cto.ny - 1) * cto.nx) + i, (if o.1 < 0 then (cfrom.ny - 1) * cfrom.nx else 0) + i)

/-- The loop body of fetch_edge, distances_core.c:622-630, reading from the cell `cfrom`. -/
def DGrid.fetch1 (g : DGrid α) (cfrom cto : DCell α) (p : Nat × Nat) : DCell α :=
  if cfrom.dists.getD p.2 g.rmax < cto.dists.getD p.1 g.rmax then
    { cto with dists := cto.dists.set p.1 (cfrom.dists.getD p.2 g.rmax),
               domains := cto.domains.set p.1 (cfrom.domains.getD p.2 none),
               current := cto.current ++ [(p.1 / cto.nx, p.1 % cto.nx)] }
  else cto

/-- The run state: cells, and the output maps. Used for distances_core.c:466-478. -/
structure DState (α : Type) where
  cells : List (DCell α)
  dists : List α
  domains : List (Option Nat)
deriving DecidableEq

/-- The neighbouring block of block `ci` in direction `o`, distances_core.c:562-567 and 721-724. -/
def DGrid.neigh (g : DGrid α) (ci : Nat) (o : Int × Int) : Nat :=
  (wrap1 ((ci / g.nbx : Nat) + o.1) g.nby).toNat * g.nbx + (wrap1 ((ci % g.nbx : Nat) + o.2) g.nbx).toNat

/-- distances_core.c find_relevant_cells, lines 549-592: the sorted, deduplicated candidates. -/
def DGrid.relevant (g : DGrid α) (cells : List (DCell α)) (cur : List Nat) : List Nat :=
  ((List.range (g.nby * g.nbx)).filter fun c => cur.any fun c1 => c1 == c || neighOffs.any fun o =>
    g.neigh c1 o == c && ((cells.getD c emptyCell).status != 2))

/-- The edge exchange for one cell and direction, distances_core.c:719-727. A cell that is its own neighbour reads what it has
written so far; the two edges do not overlap, so reading from the state at the start of the loop is the same. -/
def DGrid.fetchCell (g : DGrid α) (o : Int × Int) (cells : List (DCell α)) (ci : Nat) : List (DCell α) :=
  let cto := cells.getD ci emptyCell
  let cfrom := cells.getD (g.neigh ci o) emptyCell
  if cfrom.status = 1 then cells.set ci ((edgePairs cto cfrom o).foldl (g.fetch1 cfrom) cto) else cells

/-- distances_core.c finish_cell, lines 466-478: copy out all but the overlap and mark as done. -/
def DGrid.finish (g : DGrid α) (s : DState α) (ci : Nat) : DState α :=
  let c := s.cells.getD ci emptyCell
  let pairs := (List.range (c.ny - 1)).flatMap fun y => (List.range (c.nx - 1)).map fun x =>
    ((wrap1 (c.y1 + y : Nat) g.ny).toNat * g.nx + (wrap1 (c.x1 + x : Nat) g.nx).toNat, y * c.nx + x)
  ⟨s.cells.set ci { c with status := 2 },
   pairs.foldl (fun l p => l.set p.1 (c.dists.getD p.2 g.rmax)) s.dists,
   pairs.foldl (fun l p => l.set p.1 (c.domains.getD p.2 none)) s.domains⟩

/-- The lowest distance among the work entries of the candidates, distances_core.c:732-740. -/
def DGrid.rminWork (g : DGrid α) (cells : List (DCell α)) (ucands : List Nat) : α :=
  (ucands.flatMap fun ci => let c := cells.getD ci emptyCell
    c.current.map fun p => c.dists.getD (p.1 * c.nx + p.2) g.rmax).foldl min g.rmax

/-- One round of the main loop, distances_core.c:698-769. Returns the new state and the next work list. -/
def DGrid.round (g : DGrid α) (zero : α) (fuel : Nat) (s : DState α) (cur : List Nat) : Option (DState α × List Nat) := do
  let cells1 ← cur.foldlM (fun (cs : List (DCell α)) ci => do
    let c ← g.solve fuel (cs.getD ci emptyCell) (cs.getD ci emptyCell).current
    return cs.set ci c) s.cells
  let ucands := g.relevant cells1 cur
  let cells2 := ucands.foldl (fun cs ci => if (cs.getD ci emptyCell).status = 0 then
    cs.set ci (g.alloc (ci / g.nbx) (ci % g.nbx)) else cs) cells1
  let cells3 := neighOffs.foldl (fun cs o => ucands.foldl (g.fetchCell o) cs) cells2
  let rmin := g.rminWork cells3 ucands
  let next := ucands.filter fun ci => !(cells3.getD ci emptyCell).current.isEmpty
  let done := ucands.filter fun ci => (cells3.getD ci emptyCell).current.isEmpty &&
    decide ((cells3.getD ci emptyCell).dists.foldl max zero ≤ rmin)
  return (done.foldl g.finish ⟨cells3, s.dists, s.domains⟩, next)

/-- The main loop and the final copy, distances_core.c:697-774. -/
def DGrid.loop (g : DGrid α) (zero : α) : Nat → DState α → List Nat → Option (DState α)
  | _, s, [] => some (((List.range (g.nby * g.nbx)).filter fun ci => (s.cells.getD ci emptyCell).status = 1).foldl
      g.finish s)
  | 0, _, _ :: _ => none
  | f + 1, s, c :: cs => do
    let r ← g.round zero f s (c :: cs)
    g.loop zero f r.1 r.2

/-- Setting up the cells of the points, distances_core.c:672-687: the distance at a point's own pixel is set to zero. -/
def DGrid.init (g : DGrid α) (zero : α) (pts : List (Nat × Nat)) : List (DCell α) × List Nat :=
  pts.zipIdx.foldl (fun s p =>
    let by' := p.1.1 / g.bsize
    let bx := p.1.2 / g.bsize
    let ci := by' * g.nbx + bx
    let isNew := (s.1.getD ci emptyCell).status = 0
    let c := if isNew then g.alloc by' bx else s.1.getD ci emptyCell
    let yrel := p.1.1 - by' * g.bsize
    let xrel := p.1.2 - bx * g.bsize
    (s.1.set ci { c with current := c.current ++ [(yrel, xrel)],
                         domains := c.domains.set (yrel * c.nx + xrel) (some p.2),
                         dists := c.dists.set (yrel * c.nx + xrel) zero },
     if isNew then s.2 ++ [ci] else s.2))
    (List.replicate (g.nby * g.nbx) emptyCell, [])

/-- distances_core.c distance_from_points_cellgrid, lines 634-781, for points at pixels `pts`. -/
def DGrid.run (g : DGrid α) (zero : α) (fuel : Nat) (pts : List (Nat × Nat)) : Option (DState α) :=
  let i := g.init zero pts
  g.loop zero fuel ⟨i.1, List.replicate (g.ny * g.nx) g.rmax, List.replicate (g.ny * g.nx) none⟩ i.2

/-! ### Masks -/

/-- A method of finding distances: map shape, points (pixels), distances between pixels, cap; result by pixel. Used for enmap.py:2080-2092. -/
abbrev DistMethod (α : Type) := (ny nx : Nat) → (Nat → Nat → Nat → α) → α → List (Nat × Nat) → Option (List α)

/-- enmap.py distance_transform, lines 2080-2092, for one map: `d q y x` is the distance between pixel `q` (flat) and
pixel `(y,x)`. Without edges every distance is `rmax` (enmap.py:2128-2132). Multiplying by the mask sets the False pixels to
zero. -/
def distanceTransform (meth : DistMethod α) (zero : α) (d : Nat → Nat → Nat → α) (rmax : α) (m : Mask) : Option (List α) := do
  let edges := findEdges m
  let pts := edges.map fun q => (q / m.nx, q % m.nx)
  let dist ← if edges = [] then some (List.replicate (m.ny * m.nx) rmax) else
    meth m.ny m.nx (fun i => d (edges.getD i 0)) rmax pts
  return List.zipWith (fun v b => if b then v else zero) dist m.val

/-- `~mask`. Used for enmap.py:2234-2236. -/
def Mask.not (m : Mask) : Mask := { m with val := m.val.map (!·) }

/-- enmap.py grow_mask, lines 2234-2236. -/
def growMask (meth : DistMethod α) (zero : α) (d : Nat → Nat → Nat → α) (m : Mask) (r : α) : Option Mask := do
  let t ← distanceTransform meth zero d r m.not
  return { m with val := t.map fun v => decide (v < r) }

/-- enmap.py shrink_mask, lines 2238-2240. -/
def shrinkMask (meth : DistMethod α) (zero : α) (d : Nat → Nat → Nat → α) (m : Mask) (r : α) : Option Mask := do
  let t ← distanceTransform meth zero d r m
  return { m with val := t.map fun v => decide (v ≥ r) }

/-- method="simple" as a method: no cap. See distances_core.c:171-219. -/
def simpleMethod : DistMethod α := fun ny nx d rmax pts => some ((List.range (ny * nx)).map fun q =>
  (distSimple rmax pts.length fun j => d j (q / nx) (q % nx)).1)

/-- method="bubble". See distances_core.c:222-300. -/
def bubbleMethod (fuel : Nat) : DistMethod α := fun ny nx d rmax pts => (bubble fuel ny nx d rmax pts).map (·.dists)

/-- method="cellgrid", the default, with its block size of 32 (distances.pyx:224). -/
def cellgridMethod (zero : α) (fuel : Nat) : DistMethod α := fun ny nx d rmax pts =>
  (DGrid.run ⟨ny, nx, 32, d, rmax⟩ zero fuel pts).map (·.dists)

end Pixell
