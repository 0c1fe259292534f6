import Verif.Model.MapOps
import Verif.Model.Sort
import Verif.Model.Number

/-
Rolling rows (pixell/array_ops.py, fortran/array_ops.F90), cropping blank edges (pixell/enmap.py) and mapping values to
colours (pixell/colorize.py, fortran/colorize.f90).
-/
namespace Pixell
open PySpec (Slice npGet npSet)

/-! ### roll_rows -/

/-- The target column for source column ix (both one-based), fortran/array_ops.F90:121-126. -/
def rollTarget (nx : Nat) (off ix : ℤ) : ℤ :=
  let ox := ix + off
  if ox < 1 then ox + nx else if ox > nx then ox - nx else ox

/-- One row of roll_rows, fortran/array_ops.F90:120-128: write each element of the row into the output row.  `none`
is a write outside the row. -/
def rollRow {α : Type} (row : List α) (off : ℤ) (out : List α) : Option (List α) :=
  (List.range row.length).foldlM (fun (o : List α) (i : Nat) =>
    let ox := rollTarget row.length off ((i : ℤ) + 1)
    match row[i]? with
    | some v => if 1 ≤ ox ∧ ox ≤ (o.length : ℤ) then some (o.set (ox - 1).toNat v) else none
    | none => none) out

/-- roll_rows, pixell/array_ops.py:19-25, for one map: each row with its own offset, into zeros. -/
def rollRows {α : Type} [Zero α] (rows : List (List α)) (offs : List ℤ) : Option (List (List α)) :=
  (rows.zip offs).mapM fun (ro : List α × ℤ) => rollRow ro.1 ro.2 (List.replicate ro.1.length 0)

/-! ### Blank edges -/

/-- `np.isclose(a, v, equal_nan=True, rtol=1e-6, atol=0)` for finite numbers and NaN (`none`), pixell/enmap.py:2287. -/
def isBlank (v a : Option ℚ) : Bool :=
  match a, v with
  | some a, some v => decide (|a - v| ≤ 1 / 10 ^ 6 * |v|)
  | none, none => true
  | _, _ => false

/-- A pixel is blank when all its components are, pixell/enmap.py:2287. -/
def isBlankPixel (v a : List (Option ℚ)) : Bool := (List.zipWith isBlank v a).all id

/-- `np.where(~hit)[0][[0,-1]]` and the conversion to widths, pixell/enmap.py:2291-2295; `none` is the IndexError when
every line is blank. -/
def edgeWidths (hit : List Bool) : Option (Nat × Nat) := do
  let idx := (List.range hit.length).filter fun i => !hit.getD i true
  let first ← idx.head?
  let last ← idx.getLast?
  some (first, hit.length - last - 1)

/-- find_blank_edges for a given blank value, pixell/enmap.py:2285-2295.  The map is a list of rows of width nx; `blank`
tells whether a pixel has the blank value.  The result is (front, back) for y and for x. -/
def findBlankEdges {α : Type} (blank : α → Bool) (rows : List (List α)) (nx : Nat) : Option ((Nat × Nat) × (Nat × Nat)) := do
  let hitrows := rows.map fun r => r.all blank
  let hitcols := (List.range nx).map fun (x : Nat) => rows.all fun r => (r[x]?).all blank
  let by_ ← edgeWidths hitrows
  let bx ← edgeWidths hitcols
  some (by_, bx)

/-- The "auto" choice, pixell/enmap.py:2275-2280, among the results for candidate values (in pixell the medians of the
left, right, lower and upper edge): the first with the largest product of blank heights and widths.  One failing
candidate makes all fail. -/
def findBlankAuto {α : Type} (cands : List (α → Bool)) (rows : List (List α)) (nx : Nat) :
    Option ((Nat × Nat) × (Nat × Nat)) := do
  let bs ← cands.mapM fun b => findBlankEdges b rows nx
  let nb := bs.map fun b => (b.1.1 + b.1.2) * (b.2.1 + b.2.2)
  let best := nb.foldl max 0
  bs[nb.findIdx (· = best)]?

/-- `np.median` of finite numbers and NaNs: NaN if there is any; the middle value or the mean of the two middle values of
the sorted list. Used for enmap.py:2276. -/
def npMedian (l : List (Option ℚ)) : Option ℚ := do
  let xs ← l.mapM id
  let s := sortBy (fun a b => decide (a ≤ b)) xs
  let lo ← s[(s.length - 1) / 2]?
  let hi ← s[s.length / 2]?
  some ((lo + hi) / 2)

/-- The candidate blank values, pixell/enmap.py:2276: medians per component along the first and last column and the
first and last row. -/
def edgeMedians (nc : Nat) (rows : List (List (List (Option ℚ)))) : List (List (Option ℚ)) :=
  let med := fun (line : List (List (Option ℚ))) => (List.range nc).map fun c => npMedian (line.map fun p => p.getD c none)
  [med (rows.map fun r => r.headD []), med (rows.map fun r => r.getLastD []), med (rows.headD []), med (rows.getLastD [])]

/-- find_blank_edges with value="auto", pixell/enmap.py:2274-2280. -/
def findBlankEdgesAuto (nc : Nat) (rows : List (List (List (Option ℚ)))) (nx : Nat) :
    Option ((Nat × Nat) × (Nat × Nat)) :=
  findBlankAuto ((edgeMedians nc rows).map isBlankPixel) rows nx

/-- The arithmetic of autocrop for one axis, pixell/enmap.py:2304-2324: from the length, the blank widths, the margin and
the rule for good lengths to the padding in front and the slice to keep. -/
def autocropAxis (goodLen : ℤ → ℤ) (margin : ℤ) (n b0 b1 : Nat) : ℤ × ℤ × ℤ :=
  let minshape := (n : ℤ) - (b0 + b1) + margin
  let good := goodLen minshape
  let adiff := max 0 (good - n)
  let n' := n + adiff
  let tocrop := n' - good
  let lower := min tocrop (b0 + adiff)
  let upper := tocrop - lower
  (adiff, lower, n' - upper)

/-- autocrop and padcrop on data, pixell/enmap.py:2312-2335: pad in front with zeros, then cut. -/
def padcrop {α : Type} [Zero α] (rows : List (List α)) (nx : Nat) (ay ax : ℤ × ℤ × ℤ) : Option (List (List α)) := do
  let padded ← rows.mapM fun r => padData r ax.1.toNat 0 0
  let padded ← padData padded ay.1.toNat 0 (List.replicate (nx + ax.1.toNat) 0)
  let cut ← npGet padded ⟨some ay.2.1, some ay.2.2, none⟩
  cut.mapM fun r => npGet r ⟨some ax.2.1, some ax.2.2, none⟩

/-- autocrop with a given blank value, pixell/enmap.py:2297-2332. -/
def autocrop {α : Type} [Zero α] (blank : α → Bool) (goodLen : ℤ → ℤ) (margin : ℤ) (rows : List (List α)) (nx : Nat) :
    Option (List (List α)) := do
  let b ← findBlankEdges blank rows nx
  padcrop rows nx (autocropAxis goodLen margin rows.length b.1.1 b.1.2) (autocropAxis goodLen margin nx b.2.1 b.2.2)

/-! ### Colours -/

/-- Rounding half away from zero (Fortran's nint). See colorize.f90:1-33. -/
def nintAway (x : ℚ) : ℤ := if 0 ≤ x then ⌊x + 1 / 2⌋ else -⌊-x + 1 / 2⌋

/-- `np.minimum(np.maximum(c,0),0xff)`. Used for colorize.py:121-139. -/
def clamp255 (c : ℤ) : ℤ := min (max c 0) 255

/-- colorize_scalar_python for one value and one colour channel, pixell/colorize.py:121-139.  `none` as input is NaN; a
`none` result would be an index error. -/
def colorPython (vals : List ℚ) (cols : List ℤ) (a : Option ℚ) : Option ℤ :=
  match a with
  | none => some 0
  | some v => do
    let i0 := vals.countP fun x => decide (x < v)
    let i := min (max i0 1) (vals.length - 1)
    let v0 ← vals[i - 1]?
    let v1 ← vals[i]?
    let c0 ← cols[i - 1]?
    let c1 ← cols[i]?
    let x := (v - v0) / (v1 - v0)
    let x := min (max x 0) 1
    some (clamp255 (rint (c0 * (1 - x) + c1 * x)))

/-- The remap subroutine for one value and one channel, fortran/colorize.f90:1-33. `j` is one-based. See colorize.f90:1-33. -/
def colorFortran (vals : List ℚ) (cols : List ℤ) (a : Option ℚ) : Option ℤ :=
  match a with
  | none => some 0
  | some v =>
    let j := vals.findIdx (fun x => decide (x > v)) + 1
    if j ≤ 1 then cols[j - 1]?
    else if vals.length < j then cols[vals.length - 1]?
    else do
      let x1 ← vals[j - 2]?
      let x2 ← vals[j - 1]?
      let y1 ← cols[j - 2]?
      let y2 ← cols[j - 1]?
      some (clamp255 (nintAway (y1 + (v - x1) * (y2 - y1) / (x2 - x1))))

end Pixell
