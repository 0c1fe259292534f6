import Mathlib.Data.Rat.Floor
import Mathlib.Algebra.Order.Ring.Rat
import Mathlib.Algebra.Order.Field.Basic
import Mathlib.Data.List.Range
import Mathlib.Logic.Function.Basic
import Mathlib.Algebra.BigOperators.Intervals

/-!
# Painting objects on a map and radial sums around them

`pixell/pointsrcs.py:sim_objects, radial_sum` and the C code they call,
`cython/srcsim_core.c`.  Line numbers of C code refer to that file.

Simplifications.  `float` is ℚ.  The angular distance between a pixel and an
object (`calc_dist`) and the pixel box around an object
(`estimate_bounding_box`) are inputs of the model, so nothing is claimed about
spherical geometry.  A map is a function of component, row and column that is
only ever read and written inside its shape.  Times, memory management and the
`ncomp == 0` shortcut are left out.
-/

namespace Pixell

/-! ## Integer helpers -/

/-- `floor_div` (`srcsim_core.c:430`): C division truncates, the correction makes it round down. -/
def cFloorDiv (a b : ℤ) : ℤ :=
  let c := a.tdiv b
  if c * b > a then c - 1 else c

/-- `mod` (`srcsim_core.c:429`). -/
def cMod (a b : ℤ) : ℤ :=
  let c := a.tmod b
  if c < 0 then c + b else c

/-- A half-open box `{y1,y2,x1,x2}` of pixels or cells. Used for srcsim_core.c:434-441. -/
structure Box4 where
  y1 : ℤ
  y2 : ℤ
  x1 : ℤ
  x2 : ℤ
deriving DecidableEq

/-- `pixbox2cellbox` (`srcsim_core.c:434-441`). -/
def pixbox2cellbox (b : Box4) (csize : ℤ) : Box4 where
  y1 := cFloorDiv b.y1 csize
  y2 := cFloorDiv (b.y2 - 1) csize + 1
  x1 := cFloorDiv b.x1 csize
  x2 := cFloorDiv (b.x2 - 1) csize + 1

/-- `wrap_box` (`srcsim_core.c:445-453`). -/
def wrapBox (b : Box4) (ny nx : ℤ) : Box4 :=
  let h := if b.y2 - b.y1 > ny then ny else b.y2 - b.y1
  let w := if b.x2 - b.x1 > nx then nx else b.x2 - b.x1
  let y1 := cMod b.y1 ny
  let x1 := cMod b.x1 nx
  ⟨y1, y1 + h, x1, x1 + w⟩

/-- The loop `for(int i = a; i < b; i++)`. Used for srcsim_core.c:380-387. -/
def cRange (a b : ℤ) : List ℤ := (List.range (b - a).toNat).map fun (k : ℕ) => a + (k : ℤ)

/-- `i >= n ? i-n : i` (`srcsim_core.c:381`, `:383`, `:821`, `:823`). -/
def wrapOnce (n i : ℤ) : ℤ := if i ≥ n then i - n else i

/-- The doubly nested loop over a wrapped box, giving the wrapped row and column
of every visit in order (`srcsim_core.c:380-387`, `:819-824`). -/
def wrapVisits (b : Box4) (ny nx : ℤ) : List (ℤ × ℤ) :=
  (cRange b.y1 b.y2).flatMap fun y => (cRange b.x1 b.x2).map fun x => (wrapOnce ny y, wrapOnce nx x)

/-! ## Cells -/

/-- `(n+csize-1)/csize` (`srcsim_core.c:354-355`). -/
def ncell (n csize : ℕ) : ℕ := (n + csize - 1) / csize

/-- The cells an object with the given pixel box is pushed on, one entry per push
(`srcsim_core.c:364-388`). -/
def objCells (ny nx csize : ℕ) (b : Box4) : List (ℤ × ℤ) :=
  let ncy : ℤ := ncell ny csize
  let ncx : ℤ := ncell nx csize
  wrapVisits (wrapBox (pixbox2cellbox b csize) ncy ncx) ncy ncx

/-- `intlist_push(cell_list[ci], oi)` (`srcsim_core.c:384-385`); cells are named by row and column
instead of `cy*ncx+cx`. -/
def pushCell (lists : ℤ × ℤ → List ℕ) (p : ℕ × (ℤ × ℤ)) : ℤ × ℤ → List ℕ :=
  Function.update lists p.2 (lists p.2 ++ [p.1])

/-- Step 3 of `assign_cells` (`srcsim_core.c:375-388`): the objects of each cell. -/
def assignCells (ny nx csize : ℕ) (boxes : List Box4) : ℤ × ℤ → List ℕ :=
  ((List.range boxes.length).flatMap fun oi =>
      ((boxes[oi]?).toList.flatMap (objCells ny nx csize)).map fun c => (oi, c)).foldl
    pushCell (fun _ => [])

/-- Step 4 of `assign_cells` (`srcsim_core.c:389-397`): the cells with at least one object, in
order. -/
def activeCells (ny nx csize : ℕ) (boxes : List Box4) : List (ℕ × ℕ) :=
  ((List.range (ncell ny csize)).flatMap fun (cy : ℕ) =>
    (List.range (ncell nx csize)).map fun (cx : ℕ) => (cy, cx)).filter fun (c : ℕ × ℕ) =>
      decide (0 < (assignCells ny nx csize boxes ((c.1 : ℤ), (c.2 : ℤ))).length)

/-- Is the pixel in the box of the cell?  Step 5 of `assign_cells` (`srcsim_core.c:399-412`):
`y1 = cy*csize, y2 = min((cy+1)*csize, ny)` and the same in `x`. -/
def inCell (ny nx csize : ℕ) (c : ℕ × ℕ) (y x : ℕ) : Bool :=
  decide (c.1 * csize ≤ y ∧ y < min ((c.1 + 1) * csize) ny ∧
    c.2 * csize ≤ x ∧ x < min ((c.2 + 1) * csize) nx)

/-! ## Painting one cell -/

/-- The merge operation (`OP_ADD`, `OP_MAX`, `OP_MIN`). Used for srcsim_core.c:590-605. -/
inductive MergeOp
  | add | max | min
deriving DecidableEq

/-- One element of `merge_cell` (`srcsim_core.c:590-605`). -/
def mergeOp (op : MergeOp) (source target : ℚ) : ℚ :=
  match op with
  | .add => target + source
  | .max => if source > target then source else target
  | .min => if source < target then source else target

/-- A map: component, row, column. Used for srcsim_core.c:478-512. -/
abbrev CMap := ℕ → ℕ → ℕ → ℚ

/-- Steps 1-4 of `process_cell` (`srcsim_core.c:478-512`) for one pixel of the cell: read the
pixel, then for each object of the cell in turn paint `amp*prof` on the work space and merge it.
`prof o y x` is the profile of object `o` at its distance from the pixel. -/
def cellData (op : MergeOp) (amps : ℕ → ℕ → ℚ) (prof : ℕ → ℕ → ℕ → ℚ) (objs : List ℕ)
    (imap : CMap) : CMap :=
  fun c y x => objs.foldl (fun t o => mergeOp op (amps c o * prof o y x) t) (imap c y x)

/-- `insert_map` (`srcsim_core.c:545-559`): overwrite the pixels of the cell. -/
def insertCell (ny nx csize : ℕ) (cell : ℕ × ℕ) (data omap : CMap) : CMap :=
  fun c y x => if inCell ny nx csize cell y x then data c y x else omap c y x

/-! ## The parallel loop over cells

`#pragma omp parallel for` (`srcsim_core.c:213-215`): every iteration copies the pixels of its cell
out of the shared map, works on the private copy and copies it back.  Reading and writing back are
separate steps, and those of different cells may be interleaved in any way. -/

/-- A step of one of the threads. Used for srcsim_core.c:159-231. -/
inductive CellStep
  | read (cell : ℕ × ℕ)
  | write (cell : ℕ × ℕ)
deriving DecidableEq

/-- The shared map and the private copies of the cells. See srcsim_core.c:159-231. -/
structure PaintState where
  map : CMap
  data : ℕ × ℕ → CMap

/-- One step: `read` is steps 1-4 of `process_cell`, `write` is step 5. Used for srcsim_core.c:159-231. -/
def paintStep (ny nx csize : ℕ) (op : MergeOp) (amps : ℕ → ℕ → ℚ) (prof : ℕ → ℕ → ℕ → ℚ)
    (boxes : List Box4) (s : PaintState) : CellStep → PaintState
  | .read c => ⟨s.map, Function.update s.data c
      (cellData op amps prof (assignCells ny nx csize boxes ((c.1 : ℤ), (c.2 : ℤ))) s.map)⟩
  | .write c => ⟨insertCell ny nx csize c (s.data c) s.map, s.data⟩

/-- `sim_objects` of `srcsim_core.c:159-231` without `transpose`, run with one schedule of the
steps. -/
def simObjectsC (ny nx csize : ℕ) (op : MergeOp) (amps : ℕ → ℕ → ℚ) (prof : ℕ → ℕ → ℕ → ℚ)
    (boxes : List Box4) (sched : List CellStep) (omap : CMap) : CMap :=
  (sched.foldl (paintStep ny nx csize op amps prof boxes) ⟨omap, fun _ => omap⟩).map

/-- `pointsrcs.sim_objects` (`pixell/pointsrcs.py:35-122`): takes `op`, but the call at `:117` does
not pass it on, so `srcsim.sim_objects` uses its default `"add"` (`cython/srcsim.pyx:11`) and the
default cell size 8. -/
def simObjectsPy (ny nx : ℕ) (_op : MergeOp) (amps : ℕ → ℕ → ℚ) (prof : ℕ → ℕ → ℕ → ℚ)
    (boxes : List Box4) (sched : List CellStep) (omap : CMap) : CMap :=
  simObjectsC ny nx 8 .add amps prof boxes sched omap

/-! ## The transposed operation -/

/-- `amps[ci][obj] += amp[ci]` after `paint_object` with `transpose` (`srcsim_core.c:491-501`,
`:582`) for one cell: every object of the cell collects `map*prof` over the pixels of the cell. -/
def collectCell (ny nx csize : ℕ) (prof : ℕ → ℕ → ℕ → ℚ) (boxes : List Box4) (m : CMap)
    (amps : ℕ → ℕ → ℚ) (cell : ℕ × ℕ) : ℕ → ℕ → ℚ :=
  (assignCells ny nx csize boxes ((cell.1 : ℤ), (cell.2 : ℤ))).foldl (fun a o => fun c o' =>
    if o' = o then a c o' + ∑ y ∈ Finset.range ny, ∑ x ∈ Finset.range nx,
      (if inCell ny nx csize cell y x then m c y x * prof o y x else 0)
    else a c o') amps

/-- `sim_objects` with `transpose` (`srcsim_core.c:199-211`): thread `t` works through the cells
`assign t` with its own buffer, and `reduce_amps` (`:773-780`) adds all buffers to `amps`. -/
def simTransposeC (ny nx csize : ℕ) (prof : ℕ → ℕ → ℕ → ℚ) (boxes : List Box4)
    (assign : List (List (ℕ × ℕ))) (m : CMap) (amps : ℕ → ℕ → ℚ) : ℕ → ℕ → ℚ :=
  (assign.map fun cells => cells.foldl (collectCell ny nx csize prof boxes m) fun _ _ => 0).foldl
    (fun a w => fun c o => a c o + w c o) amps

/-! ## Radial profiles -/

/-- The loop of `binary_search` (`srcsim_core.c:623-628`); the counter bounds the number of rounds
and `b - a` is enough. -/
def bsLoop (rs : ℕ → ℚ) (r : ℚ) : ℕ → ℕ → ℕ → ℕ
  | 0, a, _ => a
  | k + 1, a, b =>
    if b > a + 1 then
      let c := (a + b) / 2
      if r < rs c then bsLoop rs r k a c else bsLoop rs r k c b
    else a

/-- `binary_search` (`srcsim_core.c:618-629`). -/
def binarySearch (n : ℕ) (rs : ℕ → ℚ) (r : ℚ) : ℤ :=
  if r < rs 0 then -1
  else if r ≥ rs (n - 1) then n
  else bsLoop rs r n 0 (n - 1)

/-- `equi_search` (`srcsim_core.c:630-635`); `r` is not negative, so the conversion to `int` rounds
down.  The second test compares `r`, not `i`, with `n`. -/
def equiSearch (n : ℕ) (rs : ℕ → ℚ) (r : ℚ) : ℤ :=
  let i := ⌊r / rs 1⌋
  if i < 0 then -1
  else if r ≥ n then n
  else i

/-- `evaluate_profile` (`srcsim_core.c:607-614`). -/
def evaluateProfile (n : ℕ) (rs vs : ℕ → ℚ) (r : ℚ) (equi : Bool) : ℚ :=
  let i1 := if equi then equiSearch n rs r else binarySearch n rs r
  if i1 < 0 then vs 0
  else if i1 + 1 ≥ n then 0
  else
    let i := i1.toNat
    let x := (r - rs i) / (rs (i + 1) - rs i)
    vs i + (vs (i + 1) - vs i) * x

/-- `is_equi` (`pixell/pointsrcs.py:124-128`), with the tolerance of `np.allclose` set to zero. -/
def isEqui (n : ℕ) (rs : ℕ → ℚ) : Bool :=
  decide (1 < n ∧ rs 0 = 0 ∧ rs (n - 1) = ((n : ℚ) - 1) * rs 1)

/-! ## How far out an object is painted -/

/-- `for(; ri > stop && fabsf(vs[ri]) < v; ri--);` (`srcsim_core.c:272`, `:305`). -/
def scanDown (vs : ℕ → ℚ) (v : ℚ) (stop : ℕ) : ℕ → ℕ
  | 0 => 0
  | i + 1 => if i + 1 > stop ∧ |vs (i + 1)| < v then scanDown vs v stop i else i + 1

/-- The position and value of the largest `|vs|` (`srcsim_core.c:252-260`). -/
def profMax (n : ℕ) (vs : ℕ → ℚ) : ℕ × ℚ :=
  (List.range n).foldl (fun st i => if |vs i| > st.2 then (i, |vs i|) else st) (0, |vs 0|)

/-- Levels `li, ..., 1` of one row of `build_prof_info`, from the outside in
(`srcsim_core.c:268-274`).  Returns the values `prof_info[k]` for `k = 1..li`, last level first. -/
def profLevels (vs : ℕ → ℚ) (imax : ℕ) (vmax : ℚ) : ℕ → ℕ → List ℕ
  | 0, _ => []
  | li + 1, ri =>
    let ri' := scanDown vs (vmax * (1 / 10) ^ (li + 1)) imax ri
    ri' :: profLevels vs imax vmax li ri'

/-- One row of `build_prof_info` (`srcsim_core.c:244-277`): eleven entries. -/
def buildProfInfo (n : ℕ) (vs : ℕ → ℚ) : List ℕ :=
  let mx := profMax n vs
  1 :: (profLevels vs mx.1 mx.2 9 (n - 1)).reverse ++ [n]

/-- `ceil(-log(vrel)/log(10))` clamped to `0..10` (`srcsim_core.c:282-285`), written without
logarithms: the first power of ten that is at most `vrel`. -/
def profLevel (vrel : ℚ) : ℕ := ((List.range 10).find? fun k => (1 / 10 : ℚ) ^ k ≤ vrel).getD 10

/-- `prof_info_lookup` (`srcsim_core.c:279-288`). -/
def profInfoLookup (info : List ℕ) (vrel : ℚ) : ℕ := info.getD (profLevel vrel) 0

/-- The index `i` whose radius `rs[i]` is the extent of an object (`srcsim_core.c:293-306`).
`table` says whether the precomputed table is used, which is the case when there are more than ten
times as many objects as profiles (`:190`).  `none` is the index −1: `rs[-1]` is read. -/
def extentIndex (n : ℕ) (vs : ℕ → ℚ) (vrel : ℚ) (table : Bool) : Option ℕ :=
  let i : ℤ := if table then (profInfoLookup (buildProfInfo n vs) vrel : ℤ) - 1 else (n : ℤ) - 1
  if i < 0 then none else some (scanDown vs vrel 0 i.toNat)

/-! ## Radial sums -/

/-- `radial_sum` for one object and one component (`srcsim_core.c:809-833`): `pixbox` is the box
`estimate_bounding_box` gives for the radius `rs[nbin-1]`, and `dist y x` the distance of a pixel.
`nbin` is the number of bins and `rs` has `nbin+1` edges. -/
def radialSum (nbin : ℕ) (rs : ℕ → ℚ) (equi : Bool) (ny nx : ℕ) (pixbox : Box4)
    (dist imap : ℤ → ℤ → ℚ) (bins : ℕ → ℚ) : ℕ → ℚ :=
  (wrapVisits (wrapBox pixbox ny nx) ny nx).foldl (fun b p =>
    let i := if equi then equiSearch nbin rs (dist p.1 p.2) else binarySearch nbin rs (dist p.1 p.2)
    if i < 0 ∨ i ≥ nbin then b
    else Function.update b i.toNat (b i.toNat + imap p.1 p.2)) bins

end Pixell
