import Verif.Model.Num
import Verif.Model.SBox
import Mathlib.Data.List.InsertIdx
import Mathlib.Algebra.Module.Basic
/-
Reading maps from fits files: polarization conventions, proxies that read parts of a file, headers.
-/
namespace Pixell

/-! ### Polarization convention -/

/-- The header cards of one axis of a fits image that decide on its Stokes parameters (enmap.py:3051-3062); `none` is a
missing card. -/
structure StokesAxis where
  ctype : Option (List Char)
  crpix : Option ℚ
  crval : Option ℚ
  cdelt : Option ℚ

/-- The part of a fits header read by get_stokes_flips (enmap.py:3042-3075): the axes in the order of the header (axis
1 first), and the two spellings of the convention. -/
structure StokesHeader where
  axes : List StokesAxis
  polcconv : Option (List Char)
  polconv : Option (List Char)

/-- Python's `str.strip` for blanks. Used for enmap.py:3056,3068. -/
def stripBlanks (s : List Char) : List Char :=
  ((s.dropWhile (· = ' ')).reverse.dropWhile (· = ' ')).reverse

/-- Whether an axis is a Stokes axis, enmap.py:3055-3056. -/
def StokesAxis.isStokes (a : StokesAxis) : Bool := decide (stripBlanks (a.ctype.getD []) = "STOKES".toList)

/-- The index of U along an axis, or -1; enmap.py:3049, 3054-3061.  `cdelt = 0` is outside the model. -/
def StokesAxis.uInd (a : StokesAxis) : ℤ :=
  if a.isStokes then rint ((3 - a.crval.getD 1) / a.cdelt.getD 1 + a.crpix.getD 1) - 1 else -1

/-- The cards of array axis `i` are those of header axis `ndim - i`, enmap.py:3051-3053. -/
def StokesHeader.axis (h : StokesHeader) (i : ℕ) : StokesAxis :=
  h.axes.getD (h.axes.length - i - 1) ⟨none, none, none, none⟩

/-- enmap.get_stokes_flips, enmap.py:3042-3075. -/
def getStokesFlips (h : StokesHeader) : List ℤ :=
  let ndim := h.axes.length
  let noflip := List.replicate ndim (-1)
  let inds := (List.range ndim).map fun i => (h.axis i).uInd
  if inds.all (· = -1) then noflip
  else
    match h.polcconv.or h.polconv with
    | none => inds
    | some c =>
      if stripBlanks c = "COSMO".toList then noflip
      else if stripBlanks c = "IAU".toList then inds
      else noflip

/-- The sign of one leading index: the elements `signs[..., ind]` are multiplied by -1 for each axis with an index to
flip inside the map; enmap.py:3008-3011. -/
def signFun (flips : List ℤ) (shape : List ℕ) (pre : List ℕ) : ℤ :=
  ((List.range flips.length).map fun i =>
    if 0 ≤ flips.getD i (-1) ∧ flips.getD i (-1) < shape.getD i 0 then
      (if (pre.getD i 0 : ℤ) = flips.getD i (-1) then (-1 : ℤ) else 1) else 1).prod

/-- The array of signs built in ndmap_proxy_fits.__getitem__ (enmap.py:3008-3011), by leading index; `none` is numpy's
IndexError for an axis that is not a leading one. -/
def signArray (flips : List ℤ) (shape : List ℕ) : Option (List ℕ → ℤ) :=
  if (List.range flips.length).all (fun i =>
      decide (0 ≤ flips.getD i (-1) ∧ flips.getD i (-1) < shape.getD i 0 → i + 2 < shape.length)) then
    some (signFun flips shape)
  else none

/-! ### Reading through a proxy -/

/-- How numbers are stored: `dec` and `enc` in the byte order of the file, `swap` reverses the bytes.  Used for
enmap.py:3034-3040. -/
structure Codec (B V : Type) where
  dec : B → V
  enc : V → B
  swap : B → B

/-- ndmap_proxy_fits.__getitem__ (enmap.py:2994-3014) with fix_endian (enmap.py:3034-3040).  `mem` holds the stored
numbers; `L` is the list of elements selected by a basic slice.  `big`: the file's byte order is not the machine's;
`flip`: some axis has a sign to flip; `inMem`: the file is small or has no sections, so that the selection is a view of
the array kept by the file object, and both the multiplication and the swapping of bytes happen in place in it.
Sections are taken to be new arrays.  Returns the values and the array kept by the file object. -/
def proxyRead {P B V : Type} [DecidableEq P] [AddCommGroup V] (C : Codec B V) (big flip inMem : Bool) (sgn : P → ℤ)
    (mem : P → B) (L : List P) : List V × (P → B) :=
  let m1 := if flip then fun p => if p ∈ L then C.enc (sgn p • C.dec (mem p)) else mem p else mem
  let m2 := if big then fun p => if p ∈ L then C.swap (m1 p) else m1 p else m1
  let out := L.map fun p => if big then C.dec (C.swap (m2 p)) else C.dec (m2 p)
  (out, if inMem then m2 else mem)

/-- A history of reads through one proxy (`delayed=True`), enmap.py:2994-3014. -/
def proxyReads {P B V : Type} [DecidableEq P] [AddCommGroup V] (C : Codec B V) (big flip inMem : Bool) (sgn : P → ℤ) :
    (P → B) → List (List P) → List (List V)
  | _, [] => []
  | mem, L :: Ls =>
    let r := proxyRead C big flip inMem sgn mem L
    r.1 :: proxyReads C big flip inMem sgn r.2 Ls

/-- The pieces of enmap.extract_pixbox's loop (enmap.py:694-698), each a list of (input, output) positions. -/
def piecesOf (ys xs : List (List (ℤ × ℤ))) : List (List ((ℤ × ℤ) × (ℤ × ℤ))) :=
  ys.flatMap fun py => xs.map fun px => py.flatMap fun y => px.map fun x => ((y.1, x.1), (y.2, x.2))

/-- One piece: one read from the proxy, then the assignment to the output (enmap.py:698). -/
def extractStep {B V : Type} [AddCommGroup V] (C : Codec B V) (big flip inMem : Bool) (sgn : ℤ × ℤ → ℤ)
    (st : (ℤ × ℤ → B) × Arr V) (piece : List ((ℤ × ℤ) × (ℤ × ℤ))) : (ℤ × ℤ → B) × Arr V :=
  let r := proxyRead C big flip inMem sgn st.1 (piece.map Prod.fst)
  (r.2, ((piece.map Prod.snd).zip r.1).foldl (fun o p => upd o p.1 p.2) st.2)

/-- `read_map(fname, pixbox=...)` for one component of a map: enmap.read_helper (enmap.py:2939-2948) calling
extract_pixbox (enmap.py:677-702) with the proxy as the map. -/
def readPixbox {B V : Type} [AddCommGroup V] (C : Codec B V) (big flip inMem : Bool) (sgn : ℤ × ℤ → ℤ)
    (mem : ℤ × ℤ → B) (nIn : ℕ × ℕ) (omap : Arr V) (nOut : ℕ × ℕ) (boxY boxX : SBox) (wrapY wrapX : ℕ) :
    Option (Arr V) := do
  let ys ← axisPairs nIn.1 nOut.1 boxY wrapY
  let xs ← axisPairs nIn.2 nOut.2 boxX wrapX
  return ((piecesOf ys xs).foldl (extractStep C big flip inMem sgn) (mem, omap)).2

/-! ### Headers -/

/-- Header cards: the keyword, its number (0: none) and an integer standing for the value.  Used for
enmap.py:2768-2778. -/
abbrev FitsCard := (String × ℕ) × ℤ

/-- The value of a keyword. Used for enmap.py:2813-2825. -/
def cardGet (cards : List FitsCard) (k : String × ℕ) : Option ℤ := (cards.find? fun c => c.1 = k).map Prod.snd

/-- enmap.write_fits_geometry, enmap.py:2768-2778; `wcs` are the cards of `wcs.to_header`. -/
def writeFitsGeometry (shape : List ℕ) (wcs : List FitsCard) : List FitsCard :=
  let h := wcs.insertIdx 0 (("SIMPLE", 0), 1)
  let h := h.insertIdx 1 (("BITPIX", 0), -32)
  let h := h.insertIdx 2 (("NAXIS", 0), shape.length)
  (List.range shape.length).foldl
    (fun h i => h.insertIdx (3 + i) (("NAXIS", i + 1), (shape.reverse.getD i 0 : ℤ))) h

/-- enmap.read_fits_header (enmap.py:2798-2811): the quick way reads the first 2880 bytes, which are 36 cards of 80. -/
def readFitsHeader (quick : Bool) (cards : List FitsCard) : List FitsCard :=
  if quick then cards.take (2880 / 80) else cards

/-- The shape in enmap.read_fits_geometry, enmap.py:2813-2825.  `none` is a missing card or a map with less than two
axes. -/
def readFitsShape (quick : Bool) (cards : List FitsCard) : Option (List ℤ) := do
  let h := readFitsHeader quick cards
  let n ← cardGet h ("NAXIS", 0)
  if n < 2 then none
  else (List.range n.toNat).reverse.mapM fun i => cardGet h ("NAXIS", i + 1)

/-- Types of the elements of a map. Used for enmap.py:2827-2833. -/
inductive ElemType where
  | float32 | float64 | int8 | uint8 | int16 | int32 | int64
deriving DecidableEq, Repr

/-- enmap.read_fits_dtype, enmap.py:2827-2833. -/
def readFitsDtype (bitpix : ℤ) : Option ElemType :=
  if bitpix = -32 then some .float32 else if bitpix = -64 then some .float64 else if bitpix = 8 then some .int8
  else if bitpix = 16 then some .int16 else if bitpix = 32 then some .int32 else if bitpix = 64 then some .int64
  else none

end Pixell
