import Verif.Model.Num
import Mathlib.Data.List.Basic
import Mathlib.Algebra.Order.Floor.Ring
import Mathlib.Data.Real.Basic

/-! The source painter written in python, `sim_srcs(method="python")`: the lookup grid that says which
sources matter for which cell of the map, the loop over the cells, and the catalogue and cell utilities beside
it. See pixell/pointsrcs.py:212-489. -/

namespace Pixell

/-! ### The lookup grid -/

/-- One axis of the grid of cells: the box it covers, `cbox[:,i]`, and the resolution asked for, `cres[i]`.
See pointsrcs.py:390-401. -/
structure CellAxis where
  lo : ℚ
  hi : ℚ
  cres : ℚ

namespace CellAxis
/-- `cshape = np.ceil((cbox[1]-cbox[0])/cres)`. See pointsrcs.py:398. -/
def n (A : CellAxis) : ℕ := ⌈(A.hi - A.lo) / A.cres⌉.toNat

/-- `inv_dc = cshape/(cbox[1]-cbox[0])`. See pointsrcs.py:419. -/
def inv (A : CellAxis) : ℚ := A.n / (A.hi - A.lo)

/-- `i1` and `i2`: the half-open range of cells that the source at `wpos` hits. The conversion to int truncates
towards zero. See pointsrcs.py:431-435. -/
def span (A : CellAxis) (wpos : ℚ) : ℤ × ℤ :=
  (max (intTrunc ((wpos - A.cres - A.lo) * A.inv)) 0,
   min (intTrunc ((wpos + A.cres - A.lo) * A.inv + 1)) A.n)
end CellAxis

/-- The offsets tried along one axis: `[0]` when it does not wrap, `[-w,0,+w]` when it does. See pointsrcs.py:421-425. -/
def wrapOffs (w : ℚ) : List ℚ := if w = 0 then [0] else [-w, 0, w]

/-- `range(i1,i2)`. See pointsrcs.py:438-439. -/
def cellRange (s : ℤ × ℤ) : List ℕ := List.range' s.1.toNat (s.2 - s.1).toNat

/-- The cells one source hits at one offset, in the order in which the two inner loops visit them; none when the
source is skipped. See pointsrcs.py:430-442. -/
def offVisits (A B : CellAxis) (p : ℚ × ℚ) (o : ℚ × ℚ) : List (ℕ × ℕ) :=
  let sy := A.span (p.1 + o.1)
  let sx := B.span (p.2 + o.2)
  if (A.n : ℤ) ≤ sy.1 ∨ (B.n : ℤ) ≤ sx.1 ∨ sy.2 < 0 ∨ sx.2 < 0 then []
  else (cellRange sy).flatMap fun cy => (cellRange sx).map fun cx => (cy, cx)

/-- The pairs of offsets in the order of the two loops over `woffs`. See pointsrcs.py:428-429. -/
def offPairs (wy wx : ℚ) : List (ℚ × ℚ) :=
  (wrapOffs wy).flatMap fun oy => (wrapOffs wx).map fun ox => (oy, ox)

/-- All (cell, source) pairs visited by `build_src_cells_helper`, in order, with one position per source
(`nmid` = 1). See pointsrcs.py:426-442. -/
def cellVisits (A B : CellAxis) (wy wx : ℚ) (srcs : List (ℚ × ℚ)) : List ((ℕ × ℕ) × ℕ) :=
  srcs.zipIdx.flatMap fun ps => (offPairs wy wx).flatMap fun o =>
    (offVisits A B ps.1 o).map fun c => (c, ps.2)

/-- The first pass, with `nmax=0`: only the number of visits per cell. See pointsrcs.py:416,442. -/
def countPass (vs : List ((ℕ × ℕ) × ℕ)) : ℕ × ℕ → ℕ :=
  vs.foldl (fun n v => Function.update n v.1 (n v.1 + 1)) (fun _ => 0)

/-- `cells[mi,cy,cx,ncell[mi,cy,cx]] = si; ncell[mi,cy,cx] += 1`; `none` is the IndexError of a cell with
more than `nmax` sources. See pointsrcs.py:440-442. -/
def fillStep (nmax : ℕ) (st : Option ((ℕ × ℕ → ℕ) × (ℕ × ℕ → ℕ → ℕ))) (v : (ℕ × ℕ) × ℕ) :
    Option ((ℕ × ℕ → ℕ) × (ℕ × ℕ → ℕ → ℕ)) :=
  st.bind fun s => if s.1 v.1 < nmax
    then some (Function.update s.1 v.1 (s.1 v.1 + 1),
               Function.update s.2 v.1 (Function.update (s.2 v.1) (s.1 v.1) v.2))
    else none

/-- The second pass. See pointsrcs.py:417-442. -/
def fillPass (nmax : ℕ) (vs : List ((ℕ × ℕ) × ℕ)) : Option ((ℕ × ℕ → ℕ) × (ℕ × ℕ → ℕ → ℕ)) :=
  vs.foldl (fillStep nmax) (some (fun _ => 0, fun _ _ => 0))

/-- `max(1,np.max(...))` over the grid. See pointsrcs.py:404. -/
def gridMax (ny nx : ℕ) (n : ℕ × ℕ → ℕ) : ℕ :=
  (((List.range ny).flatMap fun cy => (List.range nx).map fun cx => n (cy, cx))).foldl max 1

/-- `build_src_cells`: the number of sources and the sources of every cell; `none` is an exception (`np.max` of an
empty grid, or an index out of range). See pointsrcs.py:390-408. -/
def buildSrcCells (A B : CellAxis) (wy wx : ℚ) (srcs : List (ℚ × ℚ)) :
    Option ((ℕ × ℕ → ℕ) × (ℕ × ℕ → ℕ → ℕ)) :=
  if A.n = 0 ∨ B.n = 0 then none else
  let vs := cellVisits A B wy wx srcs
  fillPass (gridMax A.n B.n (countPass vs)) vs

/-- `cell_srcs[cy,cx,:nsrc]` with `nsrc = nhit[cy,cx]`. See pointsrcs.py:324-327. -/
def cellList (g : (ℕ × ℕ → ℕ) × (ℕ × ℕ → ℕ → ℕ)) (c : ℕ × ℕ) : List ℕ :=
  (List.range (g.1 c)).map (g.2 c)

/-! ### The loop over the cells -/

/-- One pass through the loop of `eval_srcs_loop` for `op=np.add`: the sources of the cell are summed, and the
sum added to the pixels of the cell. `val y x s` is amplitude times beam of source `s` at pixel `(y,x)`, the
distance and the interpolation of the beam not being modelled. See pointsrcs.py:322-339. -/
def evalCell (cy cx : ℕ) (g : (ℕ × ℕ → ℕ) × (ℕ × ℕ → ℕ → ℕ)) (val : ℕ → ℕ → ℕ → ℚ)
    (model : ℕ → ℕ → ℚ) (c : ℕ × ℕ) : ℕ → ℕ → ℚ :=
  if g.1 c = 0 then model
  else fun y x =>
    if (c.1 * cy ≤ y ∧ y < (c.1 + 1) * cy) ∧ (c.2 * cx ≤ x ∧ x < (c.2 + 1) * cx)
    then model y x + ((cellList g c).map (val y x)).sum
    else model y x

/-- `eval_srcs_loop`. See pointsrcs.py:318-340. -/
def evalLoop (cy cx ncy ncx : ℕ) (g : (ℕ × ℕ → ℕ) × (ℕ × ℕ → ℕ → ℕ)) (val : ℕ → ℕ → ℕ → ℚ) : ℕ → ℕ → ℚ :=
  ((List.range ncy).flatMap fun i => (List.range ncx).map fun j => (i, j)).foldl
    (evalCell cy cx g val) (fun _ _ => 0)

/-! ### The painter -/

/-- The pixels looked at to find the smallest pixel: `5:-5:10` of an axis of `n` pixels. See pointsrcs.py:287. -/
def sampleIdx (n : ℕ) : List ℕ := (List.range n).filter fun i => decide (5 ≤ i ∧ i + 5 < n ∧ (i - 5) % 10 = 0)

/-- `np.min`; `none` is the ValueError for an empty array. See pointsrcs.py:287. -/
def npMinQ : List ℚ → Option ℚ
  | [] => none
  | a :: l => some (l.foldl min a)

/-- `cres` along one axis: `np.maximum(1,nint(rmax/minshape))`, where `h y x` is the size along this axis of
pixel `(y,x)`. See pointsrcs.py:287-288. -/
def cellRes (ny nx : ℕ) (h : ℕ → ℕ → ℚ) (rmax : ℚ) : Option ℕ :=
  (npMinQ ((sampleIdx ny).flatMap fun y => (sampleIdx nx).map fun x => h y x)).map fun m =>
    (max 1 (rint (rmax / m))).toNat

/-- The size of the padded map: `n + 2*cres + epix` with `epix = cres-(n+2*cres)%cres`. See pointsrcs.py:289-291. -/
def paddedSize (n c : ℕ) : ℕ := n + 2 * c + (c - (n + 2 * c) % c)

/-- The axis of the grid over the padded map. See pointsrcs.py:296-297. -/
def paddedAxis (n c : ℕ) : CellAxis := ⟨0, paddedSize n c, c⟩

/-- `op(wmap, model, wmap)` for `np.add`: which amplitude goes to component `k`. Numpy repeats a single amplitude for all
the components; any other mismatch is an exception. See pointsrcs.py:277,308. -/
def ampOf (ncomp namp k : ℕ) : Option ℕ :=
  if namp = ncomp then some k else if namp = 1 then some 0 else none

/-- `sim_srcs(method="python")` with `op=np.add` and without pixel window, for a map of `ncomp` components
and sources `(y,x)` (pixel positions in the map) with `namp` amplitudes each. `val k y x s` is the `k`th amplitude times the
beam of source `s` at pixel `(y,x)` of the map, which may lie in the padding. See pointsrcs.py:254-316. -/
def simSrcsPy (ncomp ny nx : ℕ) (hy hx : ℕ → ℕ → ℚ) (rmax wy wx : ℚ) (srcs : List (ℚ × ℚ)) (ncol : ℕ)
    (val : ℕ → ℤ → ℤ → ℕ → ℚ) (smul : ℚ) (omap : ℕ → ℕ → ℕ → ℚ) : Option (ℕ → ℕ → ℕ → ℚ) := do
  let cy ← cellRes ny nx hy rmax
  let cx ← cellRes ny nx hx rmax
  let g ← buildSrcCells (paddedAxis ny cy) (paddedAxis nx cx) wy wx (srcs.map fun p => (p.1 + cy, p.2 + cx))
  let namp := min (ncol - 2) ncomp
  let _ ← ampOf ncomp namp 0
  some fun k y x =>
    omap k y x + smul * evalLoop cy cx (paddedAxis ny cy).n (paddedAxis nx cx).n g
      (fun y' x' s => val ((ampOf ncomp namp k).getD 0) ((y' : ℤ) - cy) ((x' : ℤ) - cx) s) (y + cy) (x + cx)

/-- The amplitudes `sim_srcs(method="c")` paints with: `amps = zeros((ncomp,nobj)); amps[:ncol-2] = srcs.T[2:2+ncomp]`.
See pointsrcs.py:243-247. -/
def ampsC (ncomp ncol : ℕ) (amp : ℕ → ℚ) (k : ℕ) : ℚ := if k < min (ncol - 2) ncomp then amp k else 0

/-- The amplitude that reaches component `k` with method "python". See pointsrcs.py:277,308. -/
def ampsPy (ncomp ncol : ℕ) (amp : ℕ → ℚ) (k : ℕ) : Option ℚ := (ampOf ncomp (min (ncol - 2) ncomp) k).map amp

/-! ### Cells of a map -/

/-- `cellify(map, [ry,rx])`: the shape and the values of the cells, for a two-dimensional map. `map[:cy*ry,:cx*rx]` is
reshaped to `(cy,ry,cx,rx)` and the two middle axes are swapped. See pointsrcs.py:447-456. -/
def cellify (ny nx ry rx : ℕ) (m : ℕ → ℕ → ℚ) : (ℕ × ℕ × ℕ × ℕ) × (ℕ → ℕ → ℕ → ℕ → ℚ) :=
  let cy := ny / ry
  let cx := nx / rx
  -- the flat index of the reshaped (truncated) map, then back to row and column
  let at4 : ℕ → ℕ → ℕ → ℕ → ℚ := fun i r j s =>
    let f := ((i * ry + r) * cx + j) * rx + s
    m (f / (cx * rx)) (f % (cx * rx))
  ((cy, cx, ry, rx), fun i j r s => at4 i r j s)

/-- `uncellify(cmap)`. See pointsrcs.py:458-461. -/
def uncellify (c : (ℕ × ℕ × ℕ × ℕ) × (ℕ → ℕ → ℕ → ℕ → ℚ)) : (ℕ × ℕ) × (ℕ → ℕ → ℚ) :=
  let cy := c.1.1
  let cx := c.1.2.1
  let ry := c.1.2.2.1
  let rx := c.1.2.2.2
  ((cy * ry, cx * rx), fun y x =>
    let f := y * (cx * rx) + x
    -- unravel in shape (cy,ry,cx,rx)
    c.2 (f / rx / cx / ry) (f / rx % cx) (f / rx / cx % ry) (f % rx))

/-! ### Matching catalogues -/

/-- `np.argmin` of the distances of a group: the first of the smallest. See pointsrcs.py:484. -/
noncomputable def bestOf (d : ℕ → ℝ) : List ℕ → Option ℕ
  | [] => none
  | j :: l => some (l.foldl (fun b k => if d k < d b then k else b) j)

/-- `pointsrcs.crossmatch` for catalogues of `n1` and `n2` sources. `chord` is the straight distance of two unit
vectors and `dist` their angle; the k-d tree returns the sources with `chord ≤ tol*safety`, in some order
`perm` of its own. See pointsrcs.py:465-489. -/
noncomputable def crossmatchSrc (n1 : ℕ) (near : ℕ → List ℕ) (dist : ℕ → ℕ → ℝ) (tol : ℝ) : List (ℕ × ℕ) :=
  (List.range n1).filterMap fun i =>
    (bestOf (dist i) (near i)).bind fun j => if tol < dist i j then none else some (i, j)

/-- The shape of `np.array(matches)` for a list of `n` pairs. See pointsrcs.py:487. -/
def matchesShape (n : ℕ) : List ℕ := if n = 0 then [0] else [n, 2]

end Pixell
