import Verif.Model.RandMap

/-
Smoothing and expansion of power spectra: enmap.smooth_spectrum, _convolute_sym, massage_spectrum, spec2flat with its default
smoothing, and the rolling and transforming of spec2flat_corr. Floats are real numbers; `none` is a result that is not a
number, or an exception. Spectra have `nl` multipoles.
-/
namespace Pixell
open Complex Matrix

/-- The length of an array extended by its reflection, pixell/enmap.py:1969: a[:,-2:0:-1] has the entries nl-2 to 1. -/
def symLen (nl : ℕ) : ℕ := nl + (nl - 2)

/-- The array extended by its reflection, pixell/enmap.py:1969-1970. -/
def symExt (nl : ℕ) (a : ℕ → ℝ) (j : ℕ) : ℝ := if j < nl then a j else a (nl - 2 - (j - nl))

/-- enmap._convolute_sym, pixell/enmap.py:1968-1974, for one spectrum. The transforms of real arrays are written with all
coefficients (C95). -/
noncomputable def convSym (nl : ℕ) (a b : ℕ → ℝ) (l : ℕ) : ℝ :=
  let sa := fun (j : ℕ) => ((symExt nl a j : ℝ) : ℂ)
  let sb := fun (j : ℕ) => ((symExt nl b j : ℝ) : ℂ)
  (idftRaw (symLen nl) (fun k => dftRaw (symLen nl) sa k * dftRaw (symLen nl) sb k) l / (symLen nl : ℂ)).re

/-- The argument `kernel` of enmap.smooth_spectrum; an array is given as a list. Used for enmap.py:1879. -/
inductive SmoothKernel | gauss | step | array (k : List ℝ)

/-- The kernel array, pixell/enmap.py:1884-1896. -/
noncomputable def smoothK (kern : SmoothKernel) (width : ℝ) (l : ℕ) : ℝ :=
  match kern with
  | .gauss => Real.exp (-(1 / 2) * ((l : ℝ) / width) ^ 2)
  | .step => if (l : ℤ) < (if 0 ≤ width then ⌊width⌋ else ⌈width⌉) then 1 else 0
  | .array k => k.getD l 0

/-- The argument `weight` of enmap.smooth_spectrum. Used for enmap.py:1879. -/
inductive SmoothWeight | mode | uniform | array (w : List ℝ)

/-- The weights, pixell/enmap.py:1898-1908: an array is compared with the length of the spectrum and not copied into W. -/
noncomputable def smoothW (nl : ℕ) : SmoothWeight → Option (ℕ → ℝ)
  | .mode => some fun l => (l : ℝ) ^ 2
  | .uniform => some fun _ => 1
  | .array w => if w.length = nl then some fun _ => 0 else none

/-- pixell/enmap.py:1909-1912: the smoothed spectrum at one multipole. -/
noncomputable def smoothAt (nl : ℕ) (K W p : ℕ → ℝ) (l : ℕ) : Option ℝ :=
  let wk := convSym nl W K l
  if wk = 0 then none else some (convSym nl (fun l => p l * W l) K l / wk)

/-- enmap.smooth_spectrum, pixell/enmap.py:1879-1912, for one spectrum; the outer `none` is the failed assertion. -/
noncomputable def smoothSpectrum (nl : ℕ) (kern : SmoothKernel) (wt : SmoothWeight) (width : ℝ) (p : ℕ → ℝ) : Option (ℕ → Option ℝ) :=
  (smoothW nl wt).map fun W l => smoothAt nl (smoothK kern width) W p l

/-- enmap.massage_spectrum for a map with n components, pixell/enmap.py:861-867, at one multipole; `cov` has nc components. -/
def massageSpectrum {nc : ℕ} (n : ℕ) (cov : Matrix (Fin nc) (Fin nc) ℝ) : Matrix (Fin n) (Fin n) ℝ := fun i j =>
  let nmin := min nc n
  if h : i.1 < nmin ∧ j.1 < nmin then cov ⟨i.1, lt_of_lt_of_le h.1 (min_le_left _ _)⟩ ⟨j.1, lt_of_lt_of_le h.2 (min_le_left _ _)⟩ else 0

/-- enmap.spec2flat of a single spectrum with exp=1 and smooth="auto", pixell/enmap.py:1831-1852, without oversampling. `none`
is the IndexError of ls[1,0] or ls[0,1]. -/
noncomputable def spec2flat (nl ny nx : ℕ) (sy sx area : ℝ) (p : ℕ → ℝ) : Option (ℕ → ℕ → ℝ) :=
  if ny < 2 ∨ nx < 2 then none else
  let smooth := 1 / 2 * (modL ny nx sy sx 1 0 + modL ny nx sy sx 0 1) / (341 / 100)
  let q := fun (l : ℕ) => if 0 < smooth then smoothAt nl (smoothK .gauss smooth) (fun l => (l : ℝ) ^ 2) p l else some (p l)
  some fun ky kx => linInterpConst nl (fun l => ((q l).map (· * ((ny : ℝ) * nx / area))).getD 0) (modL ny nx sy sx ky kx)

/-- np.roll(a, -n//2) of an array of length n, pixell/enmap.py:1874-1875. -/
def rollHalf (n : ℕ) (i : ℕ) : ℕ := (((i : ℤ) - Int.fdiv (-(n : ℤ)) 2).fmod n).toNat

/-- The end of enmap.spec2flat_corr, pixell/enmap.py:1870-1877: `corr dy dx` is the correlation at that offset in pixels, dpos
is measured from pixel (ny//2,nx//2). The result in units of the spectrum. -/
noncomputable def corr2flat (ny nx : ℕ) (corr : ℤ → ℤ → ℝ) (ky kx : ℕ) : ℝ :=
  let arr := fun (y x : ℕ) => corr ((y : ℤ) - (ny / 2 : ℕ)) ((x : ℤ) - (nx / 2 : ℕ))
  let rolled := fun (y x : ℕ) => ((arr (rollHalf ny y) (rollHalf nx x) : ℝ) : ℂ)
  (enmapFft .unit false ny nx 1 rolled ky kx).re * Real.sqrt ((ny : ℝ) * nx)

end Pixell
