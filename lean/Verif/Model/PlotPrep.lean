import Verif.Model.Num
import Mathlib.Data.List.Sort
import Mathlib.Data.Nat.Sqrt

/-
pixell/enplot.py:610-668 and 843-950, pixell/cgrid.py:24-47 and 226-234: what is done with maps before they are drawn: color
ranges, tiling, names of files, placing images over each other, curves of the grid. Rational numbers.
-/
namespace Pixell

/-- pixell/enplot.py:610-612 (parse_range), after parse_list; none if it raises. -/
def parseRange (l : List ℚ) (n : ℕ) : Option (List ℚ) :=
  let res := l.take n
  match res.getLast? with
  | none => none
  | some v => some (res ++ List.replicate (n - res.length) v)

/-- pixell/enplot.py:643: the index of the quantile (q ≥ 0). -/
def quantileIndex (n : ℕ) (q : ℚ) : ℕ := min (n - 1) (rint (n * q)).toNat

/-- pixell/enplot.py:626-649 (get_color_range): pairs of limits for each component. `vals` are the finite values of the map;
the limits given are not NaN. -/
def colorRange (ncomp : ℕ) (range mn mx : Option (List ℚ)) (q : ℚ) (vals : List ℚ) : Option (List (ℚ × ℚ)) := do
  let r ← match range with
    | none => some none
    | some l => (parseRange l ncomp).map some
  let lo ← match mn with
    | none => some (r.map fun l => l.map fun x => -x)
    | some l => (parseRange l ncomp).map some
  let hi ← match mx with
    | none => some r
    | some l => (parseRange l ncomp).map some
  match lo, hi with
  | some a, some b => some (a.zip b)
  | _, _ =>
    let vals := vals.insertionSort (· ≤ ·)
    let n := vals.length
    if n = 0 then some (List.replicate ncomp (-1, 1))
    else
      let i := quantileIndex n q
      let v1 := vals.getD i 0
      let v2 := vals.getD (n - 1 - i) 0
      let (v1, v2) := if v2 = v1 then (v1 - 1, v2 + 1) else (v1, v2)
      some ((lo.getD (List.replicate ncomp v1)).zip (hi.getD (List.replicate ncomp v2)))

/-! ### tiling -/

/-- pixell/enplot.py:934-937 (hwexpand): rows and columns for n maps; none if it divides by zero. -/
def tileDims (n : ℕ) (nrow ncol : ℤ) : Option (ℤ × ℤ) :=
  let ncol := if nrow < 0 ∧ ncol < 0 then (if n.sqrt * n.sqrt = n then (n.sqrt : ℤ) else n.sqrt + 1) else ncol
  if nrow < 0 then (if ncol = 0 then none else some ((n + ncol - 1).fdiv ncol, ncol))
  else if ncol < 0 then (if nrow = 0 then none else some (nrow, (n + nrow - 1).fdiv nrow))
  else some (nrow, ncol)

/-- pixell/enplot.py:923-945 (hwexpand) of maps m[n,ny,nx], as a function of row and column; none if it raises. -/
def hwexpand {α : Type} (zero : α) (m : ℕ → α) (n : ℕ) (nrow ncol : ℤ) (transpose : Bool) : Option (ℕ × ℕ × (ℕ → ℕ → α)) :=
  match tileDims n nrow ncol with
  | none => none
  | some (r, c) =>
    if r < 0 ∨ c < 0 ∨ (r.toNat * c.toNat < n ∧ n ≠ 1) then none
    else some (r.toNat, c.toNat, fun i j =>
      let k := if transpose then j * r.toNat + i else i * c.toNat + j
      if k < n then m k else zero)

/-- pixell/enplot.py:947-949 (hwstack): the pixel (Y,X) of the stack. moveaxis gives [nr,ny,nc,nx]; reshape keeps the number
of a pixel in memory. -/
def hwstack {α : Type} (mexp : ℕ → ℕ → ℕ → ℕ → α) (ny nc nx : ℕ) (Y X : ℕ) : α :=
  let k := Y * (nc * nx) + X
  let x := k % nx
  let c := k / nx % nc
  let y := k / nx / nc % ny
  let r := k / nx / nc / ny
  mexp r c y x

/-! ### names of files -/

/-- str.rfind of a character, for lists of characters; none for -1. -/
def rfindChar (ch : Char) : List Char → Option ℕ
  | [] => none
  | a :: as => match rfindChar ch as with
    | some i => some (i + 1)
    | none => if a = ch then some 0 else none

/-- posixpath.dirname and basename. -/
def dirBase (p : List Char) : List Char × List Char :=
  match rfindChar '/' p with
  | none => ([], p)
  | some i =>
    let head := p.take (i + 1)
    (if head.all (· = '/') then head else (head.reverse.dropWhile (· = '/')).reverse, p.drop (i + 1))

/-- pixell/enplot.py:652-668 (split_file_name). -/
def splitFileName (p : List Char) : List Char × List Char × List Char :=
  let (dir, be) := dirBase p
  let dir := if dir.length = 0 then ['.'] else dir
  let dot := if ['.', 'g', 'z'] <:+ be then rfindChar '.' (be.take (be.length - 3)) else rfindChar '.' be
  let dot := dot.getD be.length
  (dir, be.take dot, be.drop (dot + 1))

/-! ### images over each other -/

/-- pixell/cgrid.py:226-229 (calc_bounds), one coordinate. -/
def calcBounds1 (boxes : List (ℤ × ℤ)) (size : ℤ) : ℤ × ℤ :=
  (boxes.foldl (fun a b => min a b.1) 0, boxes.foldl (fun a b => max a b.2) size)

/-- pixell/enplot.py:843-856 (standardize_images), one coordinate: where pixel p of the image with bounds b is in the
canvas. -/
def pastedAt (full b : ℤ × ℤ) (p : ℤ) : ℤ := p + (b.1 - full.1)

/-! ### curves of the grid -/

/-- pixell/cgrid.py:24-47 (prune_bad_segs), one curve; points that are not finite are none. The result is none if the curve is
dropped. -/
def pruneSeg (inside : ℚ × ℚ → Bool) (seg : List (Option (ℚ × ℚ))) : Option (List (ℚ × ℚ)) :=
  if seg.length ≤ 1 then none
  else
    let fin := seg.filterMap id
    let ins := fin.map inside
    let good := (List.range fin.length).map fun i =>
      ins.getD i false || ((false :: ins.dropLast).getD i false) || ((ins.drop 1 ++ [false]).getD i false)
    let kept := (fin.zip good).filterMap fun p => if p.2 then some p.1 else none
    if kept.length > 1 then some kept else none

/-- pixell/cgrid.py:33-34 and :40: the area that counts as inside. -/
def segInside (ny nx tol : ℚ) (p : ℚ × ℚ) : Bool :=
  decide (-tol ≤ p.1 ∧ -tol ≤ p.2 ∧ p.1 ≤ nx + tol ∧ p.2 ≤ ny + tol)

end Pixell
