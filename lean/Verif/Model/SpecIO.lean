import Verif.Model.Powspec
import Verif.Model.Wavelets
import Mathlib.Analysis.SpecialFunctions.Pow.Real
import Mathlib.Analysis.SpecialFunctions.Trigonometric.Basic
import Mathlib.Data.Int.Log

/-! Files with power spectra and correlation functions. See pixell/powspec.py:114-208. -/

namespace Pixell

/-- `expand_inds(x, y)` for one row `y` of `nrow` entries: entry `k` is the last `y[i]` with `x[i] = k`, or zero. See
powspec.py:114-118. -/
def expandInds {R : Type} [Zero R] (nrow : ℕ) (x : ℕ → ℕ) (y : ℕ → R) : ℕ → R := fun k =>
  (List.range nrow).foldl (fun r i => if x i = k then y i else r) 0

/-- `n = np.max(x)+1`; `none` is the ValueError for no rows. See powspec.py:115. -/
def expandLen (nrow : ℕ) (x : ℕ → ℕ) : Option ℕ :=
  if nrow = 0 then none else some (((List.range nrow).map x).foldl max 0 + 1)

/-- `scale_spectrum(a, direction, extra, l)` of one row. See powspec.py:120-125. -/
noncomputable def scaleSpectrum (dir : ℤ) (extra : ℝ) (l : ℕ → ℝ) (a : ℕ → ℝ) : ℕ → ℝ := fun i =>
  if i = 0 then 0 else a i * (2 * Real.pi / (l i * (l i + 1)) ^ (1 + extra)) ^ dir

/-- `scale_camb_scalar_phi(a, direction, l)`. See powspec.py:127-132. -/
noncomputable def scaleCambPhi (dir : ℤ) (l : ℕ → ℝ) (a : ℕ → ℝ) : ℕ → ℝ := fun i =>
  if i = 0 then 0 else a i / (l i ^ 4 * (2.726e6) ^ 2) ^ dir

/-- `fmt="%15.7e"`: rounding to eight significant digits. See powspec.py:190. -/
noncomputable def sig8 (x : ℝ) : ℝ :=
  if x = 0 then 0 else
  let u : ℝ := (10 : ℝ) ^ (Int.log 10 |x| - 7)
  rintR (x / u) * u

/-- A table in a text file: the number of lines, and the columns. -/
structure TextTable where
  nrow : ℕ
  cols : List (ℕ → ℝ)

/-- The last part of `write_spectrum`, for rows `spec` of `nl` entries. See powspec.py:189-190. -/
noncomputable def writeCols (inds : Bool) (nl : ℕ) (spec : List (ℕ → ℝ)) : TextTable :=
  let spec := if inds then (fun (l : ℕ) => (l : ℝ)) :: spec else spec
  ⟨nl, spec.map fun c l => sig8 (c l)⟩

/-- `np.atleast_2d(np.loadtxt(fname).T)`: the array has its axes of length one removed, so that a table of a single line comes out as
one row holding its columns. See powspec.py:143. -/
def loadTable (t : TextTable) : TextTable :=
  if t.nrow = 1 then ⟨t.cols.length, [fun k => (t.cols.getD k (fun _ => 0)) 0]⟩ else t

/-- The rows of the table, with `inds=True` each entry at the index given in the first column; `none` is an exception. See
powspec.py:143-144. -/
noncomputable def readRows (inds : Bool) (t : TextTable) : Option (ℕ × List (ℕ → ℝ)) :=
  let t := loadTable t
  if inds then
    match t.cols with
    | [] => none
    | x :: ys =>
      let xi := fun i => ⌊x i⌋.toNat
      (expandLen t.nrow xi).map fun n => (n, ys.map (expandInds t.nrow xi))
  else some (t.nrow, t.cols)

/-- `read_spectrum(fname, inds, scale, expand=None)`: number of multipoles and rows. See powspec.py:143-147. -/
noncomputable def readCols (inds scale : Bool) (t : TextTable) : Option (ℕ × List (ℕ → ℝ)) :=
  (readRows inds t).map fun p => (p.1, if scale then p.2.map (scaleSpectrum 1 0 (fun l => l)) else p.2)

/-- `write_spectrum(fname, spec, inds, scale, expand)` for an N×N spectrum with `nl` multipoles. See powspec.py:186-190. -/
noncomputable def writeSpectrum (inds scale : Bool) (sch : Scheme) (N nl : ℕ) (spec : ℕ → ℕ → ℕ → ℝ) : TextTable :=
  let spec := if scale then fun i j => scaleSpectrum (-1) 0 (fun l => l) (spec i j) else spec
  writeCols inds nl (symCompress N spec sch false)

/-- `read_spectrum(fname, inds, scale, expand=scheme)` with `ncol` and `ncomp` absent: number of multipoles and expanded
spectrum. See powspec.py:134-149. -/
noncomputable def readSpectrum (inds scale : Bool) (sch : Scheme) (t : TextTable) : Option (ℕ × ℕ × (ℕ → ℕ → ℕ → ℝ)) := do
  let (n, rows) ← readCols inds scale t
  let (N, m) ← symExpand rows sch false
  some (n, N, m)

/-- `sym_expand(mat, scheme=..., ncomp=...)` for a given `ncomp` (large enough): the matrix. See powspec.py:22-37. -/
def symExpandN {α : Type} [Zero α] (mat : List α) (sch : Scheme) : ℕ → ℕ → α :=
  let res := ((compressedOrder mat.length sch).zip mat).foldl expandStep fun _ _ => 0
  fun i j => res j i

/-- `read_camb_scalar(fname, inds=True, scale=True, expand, ncmb=3)`. With `expand=False`, `read_spectrum` gets `expand=False`, which
is not None: the scheme False is unknown and the error message cannot be put together (TypeError). See powspec.py:151-166. -/
noncomputable def readCambScalar (expand : Bool) (t : TextTable) : Option (ℕ × (ℕ → ℕ → ℕ → ℝ) × (ℕ → ℝ)) := do
  if !expand then none else
  let (n, rows) ← readCols true true t
  let (_, raw) ← readCols true false t
  let phi ← raw[3]?
  some (n, symExpandN (rows.take 3) .diag, scaleCambPhi 1 (fun l => l) phi)

/-- The Legendre polynomials, by Bonnet's recursion. -/
noncomputable def legendreP : ℕ → ℝ → ℝ
  | 0, _ => 1
  | 1, x => x
  | l + 2, x => ((2 * l + 3) * x * legendreP (l + 1) x - (l + 1) * legendreP l x) / (l + 2)

/-- `legval(x, weight*cl)` with `weight = (2*l+1)/(4*np.pi)`. See powspec.py:202-206. -/
noncomputable def corrRow (nl : ℕ) (cl : ℕ → ℝ) (x : ℝ) : ℝ :=
  ∑ l ∈ Finset.range nl, (2 * l + 1) / (4 * Real.pi) * cl l * legendreP l x

/-- `spec2corr(spec, pos, iscos)` with `symmetric=True`. See powspec.py:192-208. -/
noncomputable def spec2corr (N nl : ℕ) (spec : ℕ → ℕ → ℕ → ℝ) (iscos : Bool) (pos : ℝ) : Option (ℕ × (ℕ → ℕ → ℝ)) :=
  let x := if iscos then pos else Real.cos pos
  symExpand ((symCompress N spec .diag false).map fun cl => corrRow nl cl x) .diag false

end Pixell
