import Mathlib.Analysis.SpecialFunctions.Trigonometric.Basic
import Mathlib.Data.Real.Sqrt
import Verif.Model.FlatFourier

/-
pixell/fft.py:186-319 and pixell/enmap.py:1262-1307: real transforms (cosine and sine transforms of types I-IV, half-
complex transforms, Chebyshev transforms). Floating-point numbers are real numbers.
-/
namespace Pixell

/-- pixell/fft.py:271-280 (_dct_names): REDFT00, 10, 01, 11 and RODFT00, 10, 01, 11. -/
inductive R2R | c1 | c2 | c3 | c4 | s1 | s2 | s3 | s4
  deriving DecidableEq, Repr

/-- pixell/fft.py:281-286 (_dct_inverses). -/
def R2R.inv : R2R → R2R
  | .c1 => .c1 | .c2 => .c3 | .c3 => .c2 | .c4 => .c4
  | .s1 => .s1 | .s2 => .s3 | .s3 => .s2 | .s4 => .s4

/-- pixell/fft.py:287-290 (_dct_sizes). -/
def R2R.off : R2R → ℤ
  | .c1 => -1 | .s1 => 1 | _ => 0

/-- The weight of input j in the library's definition. Used for fft.py:41-46. -/
def r2rWeight (t : R2R) (n j : Nat) : ℝ :=
  match t with
  | .c1 => if j = 0 ∨ j + 1 = n then 1 else 2
  | .c3 => if j = 0 then 1 else 2
  | .s3 => if j + 1 = n then 1 else 2
  | _ => 2

/-- The wave of input j at output k in the library's definition. Used for fft.py:41-46. -/
noncomputable def r2rWave (t : R2R) (n j k : Nat) : ℝ :=
  match t with
  | .c1 => Real.cos (Real.pi * (j * k) / (n - 1 : ℕ))
  | .c2 => Real.cos (Real.pi * ((j + 1 / 2) * k) / n)
  | .c3 => Real.cos (Real.pi * (j * (k + 1 / 2)) / n)
  | .c4 => Real.cos (Real.pi * ((j + 1 / 2) * (k + 1 / 2)) / n)
  | .s1 => Real.sin (Real.pi * ((j + 1) * (k + 1)) / (n + 1))
  | .s2 => Real.sin (Real.pi * ((j + 1 / 2) * (k + 1)) / n)
  | .s3 => Real.sin (Real.pi * ((j + 1) * (k + 1 / 2)) / n)
  | .s4 => Real.sin (Real.pi * ((j + 1 / 2) * (k + 1 / 2)) / n)

/-- The unnormalized real-to-real transform of FFTW and ducc0 along one axis (pixell/fft.py:41-46, 64), by its documented
definition. -/
noncomputable def r2rRaw (t : R2R) (n : Nat) (x : Nat → ℝ) (k : Nat) : ℝ :=
  ∑ j ∈ Finset.range n, r2rWeight t n j * x j * r2rWave t n j k

/-- pixell/fft.py:213-233 (dct) along one axis. The argument normalize is not used by the code. -/
noncomputable def fftDct (t : R2R) (n : Nat) (x : Nat → ℝ) : Nat → ℝ := r2rRaw t n x

/-- pixell/fft.py:235-269 (idct) along one axis. -/
noncomputable def fftIdct (t : R2R) (normalize : Bool) (n : Nat) (y : Nat → ℝ) (j : Nat) : ℝ :=
  let type := t.inv
  let off := type.off
  let r := r2rRaw type n y j
  if normalize then r / (2 * ((n : ℝ) + off)) else r

/-- dct along axes [-2,-1]. Used for enmap.py:1294-1295. -/
noncomputable def fftDct2 (t : R2R) (ny nx : Nat) (x : Nat → Nat → ℝ) (ky kx : Nat) : ℝ :=
  r2rRaw t ny (fun jy => r2rRaw t nx (x jy) kx) ky

/-- idct along axes [-2,-1] (pixell/fft.py:268: the factor is the product over the axes). -/
noncomputable def fftIdct2 (t : R2R) (normalize : Bool) (ny nx : Nat) (y : Nat → Nat → ℝ) (jy jx : Nat) : ℝ :=
  let type := t.inv
  let off := type.off
  let r := r2rRaw type ny (fun ky => r2rRaw type nx (y ky) jx) jy
  if normalize then r / (2 * ((ny : ℝ) + off) * (2 * ((nx : ℝ) + off))) else r

/-- pixell/enmap.py:1273, 1286: the factor of enmap.dct and of enmap.idct, for normalize=True. -/
noncomputable def enmapDctNorm (ny nx : Nat) : ℝ := 1 / Real.sqrt ((2 * ny - 1) * (2 * nx - 1))

/-- pixell/enmap.py:1294-1295 (enmap.dct) with normalize=True. -/
noncomputable def enmapDct (ny nx : Nat) (x : Nat → Nat → ℝ) (ky kx : Nat) : ℝ := fftDct2 .c1 ny nx x ky kx * enmapDctNorm ny nx

/-- pixell/enmap.py:1296-1297 (enmap.idct) with normalize=True. Also 1306-1307 (dct_adjoint), which is the same without a
physical normalization. -/
noncomputable def enmapIdct (ny nx : Nat) (y : Nat → Nat → ℝ) (jy jx : Nat) : ℝ := fftIdct2 .c1 false ny nx y jy jx * enmapDctNorm ny nx

/-! ### Half-complex transforms -/

/-- pixell/fft.py:186-196 (rfft) along one axis: the first n/2+1 coefficients. -/
noncomputable def fftRfft (n : Nat) (x : Nat → ℝ) : List ℂ := (List.range (n / 2 + 1)).map fun k => dftRaw n (fun j => (x j : ℂ)) k

/-- The library's complex-to-real transform of length n (pixell/fft.py:28-32, 61): the half spectrum is completed by
symmetry, the imaginary parts of the first and (even n) middle coefficient are ignored. -/
noncomputable def c2rRaw (n : Nat) (F : List ℂ) (j : Nat) : ℝ :=
  (idftRaw n (fun k =>
    if k ≤ n / 2 then (if k = 0 ∨ 2 * k = n then ((F.getD k 0).re : ℂ) else F.getD k 0)
    else (starRingEnd ℂ) (F.getD (n - k) 0)) j).re

/-- pixell/fft.py:198-211 (irfft): `n or (len-1)*2` samples. n = none and n = some 0 both mean the default. -/
noncomputable def fftIrfft (normalize : Bool) (n : Option Nat) (F : List ℂ) : List ℝ :=
  let m := match n with
    | some (k + 1) => k + 1
    | _ => (F.length - 1) * 2
  (List.range m).map fun j => if normalize then c2rRaw m F j / m else c2rRaw m F j

/-! ### Chebyshev transforms -/

/-- pixell/fft.py:301-304 (redft00): the even extension of length 2(n-1): a followed by a[-2:0:-1]. -/
def evenExt (n : Nat) (a : Nat → ℝ) (j : Nat) : ℝ := if j < n then a j else a (2 * (n - 1) - j)

/-- pixell/fft.py:292-307 (redft00) along the last axis of length n ≥ 2. -/
noncomputable def redft00 (normalize : Bool) (n : Nat) (a : Nat → ℝ) (k : Nat) : ℝ :=
  let v := (dftRaw (2 * (n - 1)) (fun j => ((evenExt n a j : ℝ) : ℂ)) k).re
  if normalize then v / (2 * ((n : ℝ) - 1)) else v

/-- pixell/fft.py:309-313 (chebt) of a one-dimensional array. -/
noncomputable def chebt1 (n : Nat) (a : Nat → ℝ) (k : Nat) : ℝ :=
  let b := redft00 true n a k
  if 1 ≤ k ∧ k + 1 < n then b * 2 else b

/-- pixell/fft.py:315-319 (ichebt) of a one-dimensional array. -/
noncomputable def ichebt1 (n : Nat) (a : Nat → ℝ) (k : Nat) : ℝ :=
  redft00 false n (fun i => if 1 ≤ i ∧ i + 1 < n then a i * (1 / 2) else a i) k

/-- chebt of a two-dimensional array of shape (m,n): b[1:-1] selects rows. See fft.py:309-313. -/
noncomputable def chebt2 (m n : Nat) (a : Nat → Nat → ℝ) (r k : Nat) : ℝ :=
  let b := redft00 true n (a r) k
  if 1 ≤ r ∧ r + 1 < m then b * 2 else b

/-- ichebt of a two-dimensional array of shape (m,n). See fft.py:315-320. -/
noncomputable def ichebt2 (m n : Nat) (a : Nat → Nat → ℝ) (r k : Nat) : ℝ :=
  redft00 false n (fun i => if 1 ≤ r ∧ r + 1 < m then a r i * (1 / 2) else a r i) k

/-! ### The numpy engine -/

/-- pixell/fft.py:15-32 (numpy_FFTW): a cosine or sine transform asked of the numpy engine. The direction is a list, not
'FFTW_FORWARD', so the backward complex transform is computed, times n, its real part stored in the real output. -/
noncomputable def numpyDct (_t : R2R) (n : Nat) (x : Nat → ℝ) (k : Nat) : ℝ := (idftRaw n (fun j => (x j : ℂ)) k).re

end Pixell
