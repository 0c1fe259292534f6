import Verif.Model.Matched
import Verif.Model.RandMap
import Verif.Model.Profile1d

/-
pixell/uharm.py: the profiles, spectra and random draws of the unified harmonic transform, and how it decides between the flat
and the curved sky. Floats are real and complex numbers.
-/
namespace Pixell
open Complex Matrix

/-! ### Deciding between flat and curved -/

/-- uharm.estimate_distortion, pixell/uharm.py:271-276, from the declinations of the two corners. -/
noncomputable def estimateDistortion (dec1 dec2 : ℝ) : ℝ :=
  let rmin := min (Real.cos dec1) (Real.cos dec2)
  let rmax := open Classical in if ¬ (dec1 * dec2 > 0) then 1 else max (Real.cos dec1) (Real.cos dec2)
  rmax / rmin - 1

/-- UHT.__init__ with mode="auto", pixell/uharm.py:67-70: whether the flat sky is used. -/
noncomputable def autoFlat (maxDistortion dec1 dec2 : ℝ) : Prop := estimateDistortion dec1 dec2 ≤ maxDistortion

/-! ### Profiles -/

/-- UHT.lprof2hprof on the curved sky, pixell/uharm.py:146-149. -/
def lprofCurved (lmax : ℕ) (lprof : List ℝ) : List ℝ :=
  if lprof.length ≥ lmax + 1 then lprof.take (lmax + 1) else lprof ++ List.replicate (lmax + 1 - lprof.length) 0

/-- UHT.lprof2hprof on the flat sky, pixell/uharm.py:143-144: linear interpolation, zero outside. -/
noncomputable def lprofFlat (ny nx : ℕ) (sy sx : ℝ) (lprof : List ℝ) (ky kx : ℕ) : ℝ :=
  linInterpConst lprof.length (fun l => lprof.getD l 0) (modL ny nx sy sx ky kx)

/-- UHT.sum_hprof on the curved sky, pixell/uharm.py:88 and 190. -/
def sumCurved (lmax : ℕ) (H : ℕ → ℝ) : ℝ := ∑ l ∈ Finset.range (lmax + 1), H l * (2 * l + 1)

/-- UHT.mean_hprof on the curved sky, pixell/uharm.py:89 and 191. -/
noncomputable def meanCurved (lmax : ℕ) (H : ℕ → ℝ) : ℝ := sumCurved lmax H / ∑ l ∈ Finset.range (lmax + 1), (2 * (l : ℝ) + 1)

/-- UHT.mean_hprof on the flat sky, pixell/uharm.py:79-80 and 191. -/
noncomputable def meanFlat (ny nx : ℕ) (A : ℝ) (H : ℕ → ℕ → ℝ) : ℝ :=
  let fsky := A * (ny * nx) / (4 * Real.pi)
  uSumHprof ny nx A H / (1 / fsky * ny * nx)

/-- UHT.harm2powspec on the flat sky, pixell/uharm.py:178-179 with enmap.calc_ps2d (pixell/enmap.py:1914-1974), for one
component of each map: the real part of one times the conjugate of the other. -/
noncomputable def powspecFlat (h1 h2 : ℕ → ℕ → ℂ) (ky kx : ℕ) : ℝ := (h1 ky kx * star (h2 ky kx)).re

/-- `cpix` along an axis of n pixels, pixell/uharm.py:238. -/
def profCenter (n : ℕ) : ℤ := (n : ℤ) / 2 - 1

/-- The offset from cpix of the pixel that enmap.shift(...,-cpix) moves to index i, pixell/uharm.py:240 and enmap.py:3084. -/
def profOff (n : ℕ) (i : ℕ) : ℤ := ((i : ℤ) + profCenter n) % n - profCenter n

/-- The shifted map of the profile, pixell/uharm.py:240-241. `dist` gives the distance of two pixels from their offset. -/
noncomputable def profMap (ny nx : ℕ) (dist : ℤ → ℤ → ℝ) (nr : ℕ) (r br : ℕ → ℝ) (y x : ℕ) : ℝ :=
  npInterp nr r br none (some 0) (dist (profOff ny y) (profOff nx x))

/-- uharm.profile2harm_flat_2d, pixell/uharm.py:232-246. -/
noncomputable def profile2harmFlat2d (ny nx : ℕ) (A : ℝ) (dist : ℤ → ℤ → ℝ) (nr : ℕ) (r br : ℕ → ℝ) (ky kx : ℕ) : ℝ :=
  (enmapFft .off false ny nx A (cplx (profMap ny nx dist nr r br)) ky kx).re * A

/-- uharm.harm2profile_flat_2d up to the radial binning, pixell/uharm.py:251-255: the map that is binned. -/
noncomputable def harm2profMap (ny nx : ℕ) (A : ℝ) (harm : ℕ → ℕ → ℝ) (y x : ℕ) : ℝ :=
  let src (n : ℕ) (p : ℕ) : ℕ := (((p : ℤ) - profCenter n) % n).toNat
  (enmapIfft .off false ny nx A (cplx harm) (src ny y) (src nx x)).re / (A * (ny * nx))

/-- uharm.beam2rmax with return_index=True, pixell/uharm.py:265-268: the last sample that reaches the fraction tol of the first;
`none` is an IndexError. -/
def beam2rmax (tol : ℚ) (br : List ℚ) : Option ℕ :=
  ((List.range br.length).filter fun i => decide (br.getD i 0 ≥ br.getD 0 0 * tol)).getLast?

/-- uharm.beam2res, pixell/uharm.py:260-263. -/
def beam2res (br r : List ℚ) : Option ℚ := (beam2rmax (1 / 2) br).map fun i => 2 * r.getD i 0 / 3

/-! ### Random draws -/

/-- What np.linalg.eigh makes of a matrix: it reads the lower triangle. Used for uharm.py:170. -/
def lowerSym {n : ℕ} (M : Matrix (Fin n) (Fin n) ℝ) : Matrix (Fin n) (Fin n) ℝ := fun i j => if j ≤ i then M i j else M j i

/-- The factor of each mode in UHT.hrand on the flat sky for a profile of shape [n,n], pixell/uharm.py:170: enmap.multi_pow
takes the first two axes for those of the matrices (pixell/enmap.py:1976-1979), so that the whole array is one matrix. `E` and
`V` are what eigh returns for it. -/
noncomputable def hrandFactor2 {n : ℕ} (E : Fin n → ℝ) (V : Matrix (Fin n) (Fin n) ℝ) (rlim alim : ℝ) (ky kx : Fin n) : ℝ :=
  eigpow E V (1 / 2) rlim alim ky kx

/-- UHT.hrand on the flat sky for a profile of shape [n,n,ny,nx], pixell/uharm.py:169-170. `E` and `V` are what eigh returns
for the matrix of each mode divided by the mean pixel area. -/
noncomputable def hrandFlat {n : ℕ} (E : ℕ → ℕ → Fin n → ℝ) (V : ℕ → ℕ → Matrix (Fin n) (Fin n) ℝ) (rlim alim : ℝ)
    (a b : Fin n → ℕ → ℕ → ℝ) : Fin n → ℕ → ℕ → ℂ :=
  randHarm (fun ky kx => eigpow (E ky kx) (V ky kx) (1 / 2) rlim alim) a b

end Pixell
