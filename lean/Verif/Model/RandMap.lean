import Verif.Model.MapFilter
import Verif.Model.MatPow

/-
Random maps on the flat sky: enmap.rand_gauss_harm, rand_gauss_iso_harm, massage_spectrum, spec2flat, smooth_spectrum,
spec2flat_corr and rand_map with scalar=True. Floats are real and complex numbers. The standard normal numbers of numpy are
arguments. Components are numbered by Fin n, multipoles and pixels by natural numbers.
-/
namespace Pixell
open Complex Matrix

/-- enmap.rand_gauss_harm, pixell/enmap.py:835, with `a` and `b` the two arrays of np.random.standard_normal. -/
noncomputable def randGaussHarm {n : ℕ} (a b : Fin n → ℕ → ℕ → ℝ) (d : Fin n) (ky kx : ℕ) : ℂ := (a d ky kx : ℂ) + I * (b d ky kx : ℂ)

/-- pixell/enmap.py:852: map_mul of the matrices `S` and the random numbers. -/
noncomputable def randHarm {n : ℕ} (S : ℕ → ℕ → Matrix (Fin n) (Fin n) ℝ) (a b : Fin n → ℕ → ℕ → ℝ) (c : Fin n) (ky kx : ℕ) : ℂ :=
  ∑ d, (S ky kx c d : ℂ) * randGaussHarm a b d ky kx

/-- The matrices used by enmap.rand_gauss_iso_harm for a spectrum in two dimensions, pixell/enmap.py:847-848: `E` and `V` are
the eigenvalues and eigenvectors that np.linalg.eigh returns for the matrix it is given. -/
noncomputable def covScaled {n : ℕ} (pixelUnits : Bool) (ny nx : ℕ) (area : ℝ) (cov : Matrix (Fin n) (Fin n) ℝ) : Matrix (Fin n) (Fin n) ℝ :=
  if pixelUnits then cov else (((ny : ℝ) * nx) / area) • cov

/-- enmap.rand_map with scalar=True, pixell/enmap.py:820-822: the map from the harmonic coefficients. -/
noncomputable def randMapScalar {n : ℕ} (ny nx : ℕ) (S : ℕ → ℕ → Matrix (Fin n) (Fin n) ℝ) (a b : Fin n → ℕ → ℕ → ℝ) (c : Fin n)
    (y x : ℕ) : ℝ :=
  (enmapIfft .unit false ny nx 1 (randHarm S a b c) y x).re

/-- scipy.ndimage.map_coordinates of order 1 with mode="constant" and cval=0 of an array of `nl` numbers. Used for
enmap.py:1849. -/
noncomputable def linInterpConst (nl : ℕ) (f : ℕ → ℝ) (x : ℝ) : ℝ :=
  if 0 ≤ x ∧ x ≤ (nl : ℝ) - 1 then f ⌊x⌋₊ + (x - ⌊x⌋₊) * (f (⌊x⌋₊ + 1) - f ⌊x⌋₊) else 0

/-- The length of the wave vector of mode (ky,kx), pixell/enmap.py:1834. `sy` and `sx` are the steps between pixels. -/
noncomputable def modL (ny nx : ℕ) (sy sx : ℝ) (ky kx : ℕ) : ℝ := Real.sqrt (lAxis ny sy ky ^ 2 + lAxis nx sx kx ^ 2)

/-- enmap.spec2flat after the power was taken, pixell/enmap.py:1849, without oversampling: each entry of the matrices is
interpolated. -/
noncomputable def specExpand {n : ℕ} (nl ny nx : ℕ) (sy sx : ℝ) (root : ℕ → Matrix (Fin n) (Fin n) ℝ) (ky kx : ℕ) :
    Matrix (Fin n) (Fin n) ℝ :=
  fun c d => linInterpConst nl (fun l => root l c d) (modL ny nx sy sx ky kx)

end Pixell
