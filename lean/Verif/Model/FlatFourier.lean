import Mathlib.Analysis.SpecialFunctions.Complex.Circle
import Verif.Model.Sht

/-
pixell/fft.py and pixell/enmap.py: discrete Fourier transforms of maps. Floating-point numbers are real and complex
numbers. The transform library (numpy, pyfftw or ducc) is represented by the sums it is documented to compute.
-/
namespace Pixell
open Complex

/-- exp(2πi t). Used for fft.py:19. -/
noncomputable def cis (t : ℝ) : ℂ := exp (2 * Real.pi * t * I)

/-- The forward transform of the library along one axis of length n (np.fft.fftn, pixell/fft.py:19). -/
noncomputable def dftRaw (n : Nat) (x : Nat → ℂ) (k : Nat) : ℂ :=
  ∑ j ∈ Finset.range n, x j * cis (-((j : ℝ) * k / n))

/-- The backward transform without normalization (pixell/fft.py:26-32: np.fft.ifftn times the length). -/
noncomputable def idftRaw (n : Nat) (y : Nat → ℂ) (j : Nat) : ℂ :=
  ∑ k ∈ Finset.range n, y k * cis ((j : ℝ) * k / n)

/-- pixell/fft.py:133-156 (fft) with axes=[-2,-1] of an array of shape (ny,nx). -/
noncomputable def fft2 (ny nx : Nat) (x : Nat → Nat → ℂ) (ky kx : Nat) : ℂ :=
  dftRaw ny (fun jy => dftRaw nx (x jy) kx) ky

/-- pixell/fft.py:158-184 (ifft) with axes=[-2,-1] and normalize=False. -/
noncomputable def ifft2 (ny nx : Nat) (y : Nat → Nat → ℂ) (jy jx : Nat) : ℂ :=
  idftRaw ny (fun ky => idftRaw nx (y ky) jx) jy

/-- The argument `normalize`: False, True, or one of "phy", "phys", "physical". Used for enmap.py:1271-1277. -/
inductive FNorm | off | unit | phys
  deriving DecidableEq

/-- pixell/enmap.py:1271-1277: the factor applied by enmap.fft. `A` is pixsize(), the mean pixel area. -/
noncomputable def fftNorm (nm : FNorm) (adjointIfft : Bool) (ny nx : Nat) (A : ℝ) : ℝ :=
  let norm := 1
  let norm := if nm ≠ .off then norm / Real.sqrt (ny * nx) else norm
  if nm = .phys then (if adjointIfft then norm / Real.sqrt A else norm * Real.sqrt A) else norm

/-- pixell/enmap.py:1262-1279 (enmap.fft) for one component. -/
noncomputable def enmapFft (nm : FNorm) (adjointIfft : Bool) (ny nx : Nat) (A : ℝ) (x : Nat → Nat → ℂ) (ky kx : Nat) : ℂ :=
  fft2 ny nx x ky kx * (fftNorm nm adjointIfft ny nx A : ℂ)

/-- pixell/enmap.py:1284-1291: the factor applied by enmap.ifft. -/
noncomputable def ifftNorm (nm : FNorm) (adjointFft : Bool) (ny nx : Nat) (A : ℝ) : ℝ :=
  let norm := 1
  let norm := if nm ≠ .off then norm / Real.sqrt (ny * nx) else norm
  if nm = .phys then (if adjointFft then norm * Real.sqrt A else norm / Real.sqrt A) else norm

/-- pixell/enmap.py:1280-1293 (enmap.ifft) for one component. -/
noncomputable def enmapIfft (nm : FNorm) (adjointFft : Bool) (ny nx : Nat) (A : ℝ) (y : Nat → Nat → ℂ) (jy jx : Nat) : ℂ :=
  ifft2 ny nx y jy jx * (ifftNorm nm adjointFft ny nx A : ℂ)

/-- pixell/enmap.py:1299-1300 (fft_adjoint). -/
noncomputable def fftAdjoint (nm : FNorm) (ny nx : Nat) (A : ℝ) (y : Nat → Nat → ℂ) : Nat → Nat → ℂ := enmapIfft nm true ny nx A y

/-- pixell/enmap.py:1301-1302 (ifft_adjoint). -/
noncomputable def ifftAdjoint (nm : FNorm) (ny nx : Nat) (A : ℝ) (x : Nat → Nat → ℂ) : Nat → Nat → ℂ := enmapFft nm true ny nx A x

/-- pixell/enmap.py:1346-1355 (queb_rotmat), the angle: spin*arctan2(sign*lmap[1],lmap[0]). arctan2(y,x) is the argument
of x+iy (0 at the origin, as in numpy). -/
noncomputable def quebAngle (inverse iau : Bool) (spin : ℤ) (ly lx : ℝ) : ℝ :=
  let sign : ℝ := 1
  let sign := if iau then -sign else sign
  let sign := if inverse then -sign else sign
  spin * arg (⟨ly, sign * lx⟩ : ℂ)

/-- One matrix-vector product [[c,-s],[s,c]]·v of map_mul (pixell/enmap.py:1381) on the components i1, i1+1 of a map. -/
noncomputable def rotateComps (ang : Nat → Nat → ℝ) (i1 : Nat) (m : Nat → Nat → Nat → ℂ) : Nat → Nat → Nat → ℂ :=
  fun c y x =>
    if c = i1 then Real.cos (ang y x) * m i1 y x - Real.sin (ang y x) * m (i1 + 1) y x
    else if c = i1 + 1 then Real.sin (ang y x) * m i1 y x + Real.cos (ang y x) * m (i1 + 1) y x
    else m c y x

/-- pixell/enmap.py:1321-1325 and :1331-1335: the loop over the groups of spin_helper. The matrix kept from an earlier
group of the same spin is the same matrix. -/
noncomputable def quebLoop (inverse iau : Bool) (ly lx : Nat → ℝ) (groups : List (ℤ × Nat × Nat)) (m : Nat → Nat → Nat → ℂ) :
    Nat → Nat → Nat → ℂ :=
  groups.foldl (fun m g => if g.1 = 0 then m else rotateComps (fun y x => quebAngle inverse iau g.1 (ly y) (lx x)) g.2.1 m) m

/-- pixell/enmap.py:1313-1326 (map2harm) for a map with `n` components; `none` if spin_helper raises. `ly`, `lx` are the
wavenumbers along the axes (laxes). A map without component axis is one component of spin 0. -/
noncomputable def map2harm (nm : FNorm) (adj iau : Bool) (spin : List ℤ) (n ny nx : Nat) (A : ℝ) (ly lx : Nat → ℝ)
    (m : Nat → Nat → Nat → ℂ) : Option (Nat → Nat → Nat → ℂ) :=
  let f := fun c => enmapFft nm adj ny nx A (m c)
  let g := spinHelper (n + 1) spin n
  if g.2 = some true then some (quebLoop false iau ly lx g.1 f) else none

/-- pixell/enmap.py:1327-1338 (harm2map). -/
noncomputable def harm2map (nm : FNorm) (adj iau : Bool) (spin : List ℤ) (n ny nx : Nat) (A : ℝ) (ly lx : Nat → ℝ) (keepImag : Bool)
    (h : Nat → Nat → Nat → ℂ) : Option (Nat → Nat → Nat → ℂ) :=
  let g := spinHelper (n + 1) spin n
  if g.2 = some true then
    let r := quebLoop true iau ly lx g.1 h
    some fun c y x =>
      let v := enmapIfft nm adj ny nx A (r c) y x
      if keepImag then v else (v.re : ℂ)
  else none

/-! ### Shifting -/

/-- np.fft.fftfreq(n)[k]. Used for enmap.py:1327-1338. -/
noncomputable def fftfreq (n k : Nat) : ℝ := if k < (n - 1) / 2 + 1 then (k : ℝ) / n else ((k : ℝ) - n) / n

/-- pixell/fft.py:351-356 (shift): the factor for one axis; `deriv` if this is the axis to differentiate. -/
noncomputable def shiftPhase (n : Nat) (s : ℝ) (deriv : Bool) (k : Nat) : ℂ :=
  let phase := cis (-(fftfreq n k * s))
  if deriv then phase * (-2 * Real.pi * I * fftfreq n k) else phase

/-- pixell/fft.py:342-361 (shift) along one axis of a complex array: fft, multiply, normalized ifft. -/
noncomputable def fftShift (n : Nat) (s : ℝ) (deriv : Bool) (a : Nat → ℂ) (j : Nat) : ℂ :=
  idftRaw n (fun k => dftRaw n a k * shiftPhase n s deriv k) j / n

/-- pixell/fft.py:361: for a real array the real part of the result is returned. -/
noncomputable def fftShiftReal (n : Nat) (s : ℝ) (deriv : Bool) (a : Nat → ℝ) (j : Nat) : ℝ :=
  (fftShift n s deriv (fun i => (a i : ℂ)) j).re

end Pixell
