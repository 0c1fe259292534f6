import Verif.Model.FlatFourier
import Verif.Model.Fourier
import Verif.Model.Num
import Verif.Model.MultiPre

/-
pixell/resample.py and pixell/fft.py: resampling of arrays. Values are complex numbers, along one axis; shapes are lists of
lengths for any number of axes.
-/
namespace Pixell
open Complex

/-! ### Values along one axis -/

/-- The fft of one line. Used for resample.py:72. -/
noncomputable def dftLine (a : List ℂ) : List ℂ := (List.range a.length).map (dftRaw a.length fun i => a.getD i 0)

/-- The unnormalized inverse fft of one line. Used for resample.py:98. -/
noncomputable def idftLine (f : List ℂ) : List ℂ := (List.range f.length).map (idftRaw f.length fun k => f.getD k 0)

/-- pixell/resample.py:56-101 (resample_fft) for a complex array of one axis. -/
noncomputable def resampleLine (n : ℕ) (a : List ℂ) : List ℂ :=
  if n = a.length then a
  else (idftLine (resampleAxis (dftLine a) n)).map fun v => v / n * ((n : ℂ) / a.length)

/-- pixell/resample.py:101: the real part of the result is returned for a real array. -/
noncomputable def resampleLineReal (n : ℕ) (a : List ℝ) : List ℝ := (resampleLine n (a.map fun (v : ℝ) => (v : ℂ))).map Complex.re

/-- pixell/resample.py:103-119 (resample_fft_simple) for one row; used for arrays of two axes resampled along the last one
(resample.py:70-71). -/
noncomputable def resampleRow (n : ℕ) (a : List ℂ) : List ℂ :=
  if n = a.length then a
  else (idftLine (resampleAxis (dftLine a) n)).map fun (v : ℂ) => (((v / (n : ℂ)).re : ℝ) : ℂ) * ((n : ℂ) / a.length)

/-- pixell/fft.py:363-379 (fft.resample) for a complex array of one axis. -/
noncomputable def fftResampleLine (n : ℕ) (a : List ℂ) : Option (List ℂ) :=
  (resampleFft (dftLine a) n fun v => v * (1 / (a.length : ℂ))).map idftLine

/-! ### Shapes -/

/-- A place in a list of `ndim` elements; negative ones count from the end. `none`: IndexError. Used for resample.py:29. -/
def axPlace (ndim : ℕ) (ax : ℤ) : Option ℕ :=
  if 0 ≤ ax ∧ ax < ndim then some ax.toNat else if -(ndim : ℤ) ≤ ax ∧ ax < 0 then some (ax + ndim).toNat else none

/-- `for ax, v in zip(axes, vals): l[ax] = v`. Used for resample.py:29, 47 and fft.py:404-406. -/
def setAxesVals (l : List ℕ) : List (ℤ × ℕ) → Option (List ℕ)
  | [] => some l
  | (ax, v) :: rest => match axPlace l.length ax with
    | none => none
    | some i => setAxesVals (l.set i v) rest

/-- range(-k,0). Used for resample.py:9, 26. -/
def lastAxes (k : ℕ) : List ℤ := (List.range k).map fun (i : ℕ) => (i : ℤ) - k

/-- np.arange(-1,-k-1,-1). Used for resample.py:43. -/
def lastAxesRev (k : ℕ) : List ℤ := (List.range k).map fun (i : ℕ) => -(i : ℤ) - 1

/-- pixell/resample.py:24-38 (downsample_bin), the shape. `none`: an assertion or index error. -/
def downBinShape (shape steps : List ℕ) (axes : Option (List ℤ)) : Option (List ℕ) :=
  let axes := axes.getD (lastAxes steps.length)
  if steps.length ≤ shape.length ∧ axes.length = steps.length then
    (setAxesVals (List.replicate shape.length 1) (axes.zip steps)).map (List.zipWith (· / ·) shape)
  else none

/-- pixell/resample.py:40-54 (upsample_bin), the shape. -/
def upBinShape (shape steps : List ℕ) (axes : Option (List ℤ)) : Option (List ℕ) :=
  let axes := axes.getD (lastAxesRev steps.length)
  if steps.length ≤ shape.length ∧ axes.length = steps.length then
    (setAxesVals (List.replicate shape.length 1) (axes.zip steps)).map (List.zipWith (· * ·) shape)
  else none

/-- pixell/resample.py:17-22 (resample_bin), the shape, for factors that are not zero. -/
def resampleBinShape (shape : List ℕ) (factors : List ℚ) (axes : Option (List ℤ)) : Option (List ℕ) :=
  if factors.all (allclose · 1) then some shape
  else
    let down := factors.map fun f => (max 1 (rint (1 / f))).toNat
    let up := factors.map fun f => (max 1 (rint f)).toNat
    (downBinShape shape down axes).bind fun s => upBinShape s up axes

/-- pixell/resample.py:56-101 (resample_fft), the shape. -/
def resampleFftShape (shape n : List ℕ) (axes : Option (List ℤ)) : Option (List ℕ) :=
  let axes := axes.getD (lastAxes n.length)
  let n? := if n.length = 1 then some (List.replicate axes.length (n.headD 0)) else if n.length = axes.length then some n else none
  n?.bind fun n =>
    if n.length ≤ shape.length then
      -- `d.shape[-len(n):] == n`; with len(n) = 0 the slice is the whole shape, which is compared with nothing
      if shape.drop (shape.length - n.length) = n then some shape
      else setAxesVals shape (axes.zip n)
    else none

/-- pixell/resample.py:5-15 (resample), the shape for method="fft". int() truncates; lengths and factors are not negative. -/
def resampleShape (shape : List ℕ) (factors : List ℚ) (axes : Option (List ℤ)) : Option (List ℕ) :=
  if factors.all (allclose · 1) then some shape
  else
    let axes := axes.getD (lastAxes factors.length)
    ((axes.zip factors).mapM fun (p : ℤ × ℚ) => (axPlace shape.length p.1).map fun i => ⌊(shape.getD i 0 : ℚ) * p.2 + 1 / 2⌋.toNat).bind
      fun lens => resampleFftShape shape lens (some axes)

/-- The argument `axes` of pixell/fft.py:363: None, a number, or a tuple. -/
inductive AxesArg where
  | default
  | one (ax : ℤ)
  | many (axes : List ℤ)

/-- pixell/fft.py:363-379 (fft.resample), the shape; `n` after utils.astuple. len() of a number raises. -/
def fftResampleShape (shape n : List ℕ) (axes : AxesArg) : Option (List ℕ) :=
  let axes? : Option (List ℤ) := match axes with
    | .default => some (lastAxes n.length)
    | .one _ => none
    | .many l => some l
  axes?.bind fun axes => if n.length = axes.length then setAxesVals shape (axes.zip n) else none

/-- The parameters of utils.interpol (pixell/utils.py:536-537). -/
def interpolParams : List String := ["arr", "inds", "out", "mode", "border", "order", "cval", "epsilon", "ip"]

/-- pixell/resample.py:121-139 (make_equispaced): its last step, the call of utils.interpol with the keywords written there. -/
def makeEquispaced {β : Type} (result : β) : Option β :=
  pyCall interpolParams ["arr", "inds", "mode", "order", "mask_nan"] result

end Pixell
