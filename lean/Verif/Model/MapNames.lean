import Verif.Model.Geometry

/-
pixell/enmap.py:2642-2745: which file and format write_map, read_map and read_map_geometry use for a name, and the selections
that may follow a name.
-/
namespace Pixell
open PySpec (Slice)

/-- The formats of pixell/enmap.py:2649-2659, :2676-2689, :2699-2711; fitsgz is fits without the quick way to read the header. -/
inductive MapFormat | fits | fitsgz | hdf | npy
  deriving DecidableEq, Repr

/-- str.split(":") for lists of characters. Used for enmap.py:2674, 2697. -/
def splitColons : List Char → List (List Char)
  | [] => [[]]
  | ':' :: cs => [] :: splitColons cs
  | c :: cs => match splitColons cs with
    | [] => [[c]]
    | w :: ws => (c :: w) :: ws

/-- ":".join. -/
def joinColons : List (List Char) → List Char
  | [] => []
  | [w] => w
  | w :: ws => w ++ ':' :: joinColons ws

/-- The endings of pixell/enmap.py:2650-2653, :2677-2681. -/
def sufHdf : List Char := ['.', 'h', 'd', 'f']
def sufNpy : List Char := ['.', 'n', 'p', 'y']
def sufFits : List Char := ['.', 'f', 'i', 't', 's']
def sufFitsGz : List Char := ['.', 'f', 'i', 't', 's', '.', 'g', 'z']
def sufGz : List Char := ['.', 'g', 'z']

def endsWith (suffix name : List Char) : Bool := decide (suffix <:+ name)

/-- pixell/enmap.py:2642-2659 (write_map) with fmt=None: the file written and its format. -/
def writeMapTarget (name : List Char) : List Char × MapFormat :=
  (name,
    if endsWith sufHdf name then .hdf
    else if endsWith sufFits name then .fits
    else if endsWith sufFitsGz name then .fits
    else .fits)

/-- pixell/enmap.py:2674-2692 (read_map) with fmt=None: the file read, its format, and the selection evaluated on the result. -/
def readMapTarget (name : List Char) : List Char × MapFormat × Option (List Char) :=
  let toks := splitColons name
  let fname := toks.headD []
  (fname,
    (if endsWith sufHdf fname then .hdf
    else if endsWith sufNpy fname then .npy
    else if endsWith sufFits fname then .fits
    else if endsWith sufFitsGz fname then .fits
    else .fits),
    if toks.length > 1 then some (joinColons (toks.drop 1)) else none)

/-- pixell/enmap.py:2693-2715 (read_map_geometry) with fmt=None. -/
def readGeometryTarget (name : List Char) : List Char × MapFormat × Option (List Char) :=
  let toks := splitColons name
  let fname := toks.headD []
  (fname,
    (if endsWith sufHdf fname then .hdf
    else if endsWith sufFits fname then .fits
    else if endsWith sufFitsGz fname then .fitsgz
    else .fits),
    if toks.length > 1 then some (joinColons (toks.drop 1)) else none)

/-- What is in a file: the format it was written in, and whether it is compressed (astropy compresses fits files with a name
ending in .gz). -/
structure StoredFile where
  hdf : Bool
  gz : Bool
  deriving DecidableEq, Repr

/-- The file that write_map leaves behind, pixell/enmap.py:2649-2659. -/
def storedBy (name : List Char) : StoredFile :=
  match (writeMapTarget name).2 with
  | .hdf => ⟨true, false⟩
  | _ => ⟨false, endsWith sufGz name⟩

/-- Whether a reader for a format can read a file. astropy decompresses, but reading the first 2880 bytes of the file as the
header (pixell/enmap.py:2799-2807) does not. -/
def canRead (quick : Bool) (f : MapFormat) (s : StoredFile) : Bool :=
  match f with
  | .hdf => s.hdf
  | .npy => false
  | .fits => !s.hdf && (!s.gz || !quick)
  | .fitsgz => !s.hdf

/-! ### selections -/

/-- One item of a selection after a name: an ellipsis, a slice or an index (inside the array). -/
inductive NameItem
  | ell
  | sl (s : Slice)
  | idx
  deriving DecidableEq

/-- A dimension with one item. The leading dimensions have no wcs; a dummy is used. The size after slicing is that of
slice_geometry (pixell/enmap.py:264-284), which is the one of the data except for empty slices. -/
def itemDim (d : ℤ × Axis) : NameItem → Option (ℤ × Axis)
  | .sl s => some (sliceGeometry d.1 d.2 s)
  | .idx => none
  | .ell => some d

/-- Indexing a map with dimensions `dims`, pixell/enmap.py:2690-2691 (`eval("res"+...)`): an ellipsis stands for as many
dimensions as are missing, missing items at the end are whole dimensions, and a dimension with an index is gone; none for too
many indices or two ellipses. -/
def readSel (dims : List (ℤ × Axis)) (sel : List NameItem) : Option (List (ℤ × Axis)) :=
  let left := sel.takeWhile (· ≠ .ell)
  let right := (sel.dropWhile (· ≠ .ell)).drop 1
  if .ell ∈ right ∨ left.length + right.length > dims.length then none
  else
    let all := left ++ List.replicate (dims.length - left.length - right.length) .ell ++ right
    some ((List.zipWith itemDim dims all).filterMap id)

/-- The geometry with a selection, pixell/enmap.py:2712-2714 and :264-284 (slice_geometry): the last two items are for the
pixels, in order from the first pixel dimension. A single ellipsis or index cannot be sliced, and slice_geometry cannot take
one: none. -/
def geometrySel (dims : List (ℤ × Axis)) (sel : List NameItem) : Option (List (ℤ × Axis)) :=
  let last := sel.drop (sel.length - 2)
  if .ell ∈ last ∨ .idx ∈ last then none
  else
    let pre := dims.take (dims.length - 2)
    let pix := dims.drop (dims.length - 2)
    some (pre ++ (List.zipWith itemDim pix last).filterMap id ++ pix.drop last.length)

end Pixell
