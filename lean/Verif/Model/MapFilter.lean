import Verif.Model.FlatFourier
import Mathlib.Analysis.SpecialFunctions.Pow.Real

/-
Operations on real maps by multiplication in Fourier space: enmap.grad, div, laplace, smooth_gauss, apply_window, and the
wavenumbers of enmap.laxes. Maps are functions of the row and the column; only their values for y < ny, x < nx count. `sy` and
`sx` are the steps between pixels in radians, extent(signed=True)/shape.
-/
namespace Pixell
open Complex

/-- enmap.laxes without oversampling along one axis, pixell/enmap.py:1230-1235: np.fft.fftfreq(n, step)*2*pi. -/
noncomputable def lAxis (n : Nat) (step : ℝ) (k : Nat) : ℝ := fftfreq n k / step * 2 * Real.pi

/-- enmap.laxes with oversampling along one axis, pixell/enmap.py:1234-1247; `none` where the index `oversample` is beyond the
array. -/
noncomputable def lAxisOver (n os : Nat) (step : ℝ) (k : Nat) : Option ℝ :=
  let l := lAxis (n * os) step
  if os ≤ 1 then some (l k) else
  if n * os ≤ os then none else
  some (l k + l os / 2 * (-1 + 1 / os))

/-- fft, multiplication and the real part of ifft, as in pixell/enmap.py:2339, 2359, 1390-1394 and 1447-1450; normalize=True. -/
noncomputable def filterMap (ny nx : Nat) (p : Nat → Nat → ℂ) (m : Nat → Nat → ℝ) (jy jx : Nat) : ℝ :=
  (enmapIfft .unit false ny nx 1 (fun ky kx => enmapFft .unit false ny nx 1 (fun y x => (m y x : ℂ)) ky kx * p ky kx) jy jx).re

/-- enmap.grad, pixell/enmap.py:2337-2339: the two components. -/
noncomputable def gradY (ny nx : Nat) (sy : ℝ) (m : Nat → Nat → ℝ) : Nat → Nat → ℝ :=
  filterMap ny nx (fun ky _ => (lAxis ny sy ky : ℂ) * I) m
noncomputable def gradX (ny nx : Nat) (sx : ℝ) (m : Nat → Nat → ℝ) : Nat → Nat → ℝ :=
  filterMap ny nx (fun _ kx => (lAxis nx sx kx : ℂ) * I) m

/-- enmap.div, pixell/enmap.py:2349-2351. -/
noncomputable def divMap (ny nx : Nat) (sy sx : ℝ) (vy vx : Nat → Nat → ℝ) (jy jx : Nat) : ℝ :=
  (enmapIfft .unit false ny nx 1 (fun ky kx =>
    enmapFft .unit false ny nx 1 (fun y x => (vy y x : ℂ)) ky kx * (lAxis ny sy ky : ℂ) * I +
    enmapFft .unit false ny nx 1 (fun y x => (vx y x : ℂ)) ky kx * (lAxis nx sx kx : ℂ) * I) jy jx).re

/-- enmap.laplace, pixell/enmap.py:2358-2359. -/
noncomputable def laplaceMap (ny nx : Nat) (sy sx : ℝ) (m : Nat → Nat → ℝ) (jy jx : Nat) : ℝ :=
  -filterMap ny nx (fun ky kx => ((lAxis ny sy ky ^ 2 + lAxis nx sx kx ^ 2 : ℝ) : ℂ)) m jy jx

/-- enmap.smooth_gauss, pixell/enmap.py:1384-1394. -/
noncomputable def smoothGauss (ny nx : Nat) (sy sx sigma : ℝ) (m : Nat → Nat → ℝ) (jy jx : Nat) : ℝ :=
  if sigma = 0 then m jy jx else
  let x2 (ky kx : Nat) := lAxis ny sy ky ^ 2 * sigma ^ 2 + lAxis nx sx kx ^ 2 * sigma ^ 2
  if 0 ≤ sigma then filterMap ny nx (fun ky kx => (Real.exp (-(1 / 2) * x2 ky kx) : ℂ)) m jy jx
  else filterMap ny nx (fun ky kx => ((1 - Real.exp (-(1 / 2) * x2 ky kx) : ℝ) : ℂ)) m jy jx

/-- np.sinc. Used in pixell/utils.py:765. -/
noncomputable def npSinc (f : ℝ) : ℝ := if f = 0 then 1 else Real.sin (Real.pi * f) / (Real.pi * f)

/-- The argument `order` of utils.pixwin_1d, pixell/utils.py:762-769. -/
inductive WinOrder | no | nearest | linear

/-- utils.pixwin_1d, pixell/utils.py:755-769. -/
noncomputable def pixwin1d (order : WinOrder) (f : ℝ) : ℝ :=
  match order with
  | .no => f * 0 + 1
  | .nearest => npSinc f
  | .linear => npSinc f ^ 2 / (1 / 3 * (2 + Real.cos (2 * Real.pi * f)))

/-- enmap.calc_window along one axis, pixell/enmap.py:1427-1438. -/
noncomputable def calcWindow (order : WinOrder) (scale : ℝ) (n k : Nat) : ℝ := pixwin1d order (fftfreq n k / scale)

/-- enmap.apply_window, pixell/enmap.py:1440-1451. -/
noncomputable def applyWindow (order : WinOrder) (scale pow : ℝ) (ny nx : Nat) (m : Nat → Nat → ℝ) : Nat → Nat → ℝ :=
  filterMap ny nx (fun ky kx => ((calcWindow order scale ny ky ^ pow * calcWindow order scale nx kx ^ pow : ℝ) : ℂ)) m

/-- enmap.unapply_window, pixell/enmap.py:1453-1455. -/
noncomputable def unapplyWindow (order : WinOrder) (scale pow : ℝ) (ny nx : Nat) (m : Nat → Nat → ℝ) : Nat → Nat → ℝ :=
  applyWindow order scale (-pow) ny nx m

end Pixell
