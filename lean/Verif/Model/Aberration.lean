import Mathlib.Analysis.SpecialFunctions.Log.Basic
import Mathlib.Analysis.SpecialFunctions.Trigonometric.Basic
import Mathlib.Data.Real.Sqrt

/-
pixell/aberration.py, pixell/utils.py:2312-2336, pixell/enmap.py:1357-1371: Doppler boosts, Planck spectra and rotations of
polarization. Floating-point numbers are real numbers; maps are treated pixel by pixel, as the loops do.
-/
namespace Pixell
open Real

/-- np.clip(x,lo,hi). Used for aberration.py:197-207. -/
noncomputable def clipR (x lo hi : ℝ) : ℝ := min (max x lo) hi

/-- pixell/aberration.py:197-207 (calc_boost_1d): (z_obs, A). -/
noncomputable def calcBoost1d (z beta : ℝ) : ℝ × ℝ :=
  let gamma := 1 / √(1 - beta ^ 2)
  let zObs := (z + beta) / (1 + z * beta)
  let zObs := clipR zObs (-1) 1
  (zObs, 1 / (gamma * (1 - zObs * beta)))

/-- The constants h, c, k of pixell/utils.py. Used for utils.py:2312-2316. -/
structure PlanckConst where
  h : ℝ
  c : ℝ
  k : ℝ

/-- pixell/utils.py:2312-2316 (planck). -/
noncomputable def planckI (u : PlanckConst) (f T : ℝ) : ℝ := 2 * u.h * f * f * f / u.c ^ 2 / (exp (u.h * f / (u.k * T)) - 1) * 10 ^ 26

/-- pixell/utils.py:2319-2321 (iplanck_T). -/
noncomputable def iplanckT (u : PlanckConst) (f I : ℝ) : ℝ :=
  u.h * f / u.k / log (1 + 1 / (I / 10 ^ 26 * u.c ^ 2 / (2 * u.h * f ^ 3)))

/-- pixell/utils.py:2323-2336 (dplanck). -/
noncomputable def dplanck (u : PlanckConst) (f T : ℝ) : ℝ :=
  let x := u.h * f / (u.k * T)
  2 * x ^ 4 * u.k ^ 3 * T ^ 2 / (u.h ^ 2 * u.c ^ 2) / (4 * sinh (x / 2) ^ 2) * 10 ^ 26

/-- pixell/aberration.py:317-331 (_modulate_T2lin), one pixel. -/
noncomputable def modulateT2lin (u : PlanckConst) (T0 freq unit : ℝ) (spin : ℤ) (dipole : Bool) (a ival : ℝ) : ℝ :=
  let scale := dplanck u freq T0
  let off := planckI u freq T0 / scale
  let oval := planckI u freq (a * (ival * unit + T0)) / scale
  let oval := if spin = 0 ∧ dipole then oval - off else oval - planckI u freq (a * T0) / scale
  oval / unit

/-- pixell/aberration.py:333-355 (_modulate_lin2T), one pixel. `Tcmb` is utils.T_cmb. -/
noncomputable def modulateLin2T (u : PlanckConst) (Tcmb T0 freq unit : ℝ) (spin : ℤ) (dipole : Bool) (a ival : ℝ) : ℝ :=
  let scale := dplanck u freq T0
  let off := planckI u freq T0
  let oval := ival * unit * scale
  let oval := if spin = 0 ∧ dipole then oval + off else oval + planckI u freq (1 / a * T0)
  let oval := iplanckT u freq oval
  let oval := oval * a
  let oval := oval - Tcmb
  oval / unit

/-- pixell/aberration.py:291-295 (apply_modulation, mode "plain"), one pixel; `first` if the pixel is of the first
component. -/
noncomputable def modulatePlain (T0 unit : ℝ) (dipole first : Bool) (a ival : ℝ) : ℝ :=
  let v := ival * a
  if dipole && first then v + (a - 1) * (T0 / unit) else v

/-- pixell/enmap.py:1357-1371 (rotate_pol), the values at one pixel, for two different components p and q. -/
noncomputable def rotatePol (angle : ℝ) (p q : Nat) (spin : ℤ) (m : Nat → ℝ) : Nat → ℝ :=
  if spin = 0 then m
  else
    let c := cos (spin * angle)
    let s := sin (spin * angle)
    fun i => if i = q then s * m p + c * m q else if i = p then c * m p - s * m q else m i

/-- pixell/aberration.py:272-283 (rotate_pol), one pixel (q,u). -/
noncomputable def rotatePolAb (gamma : ℝ) (spin : ℤ) (qu : ℝ × ℝ) : ℝ × ℝ :=
  if spin = 0 then qu
  else
    let c := cos (spin * gamma)
    let s := sin (spin * gamma)
    (qu.1 * c + qu.2 * s, -qu.1 * s + qu.2 * c)

/-- pixell/aberration.py:357-366 (fast_rewind), one number; ref = none is the default. -/
noncomputable def fastRewind (period : ℝ) (ref : Option ℝ) (a : ℝ) : ℝ :=
  let ref := ref.getD (period / 2)
  let off := a - ref
  let a := if off ≥ period then a - period else a
  if off < 0 then a + period else a

/-- pixell/aberration.py:248-253 (interpol_map with ydouble): row y, column x of the doubled map of an (ny,nx) map. The
lower half is np.roll(imap[...,::-1],nx//2,-1), whose row j, column x is column nx-1-((x-nx//2) mod nx) of row j. -/
def yDouble (ny nx : Nat) (m : Nat → Nat → ℝ) (y x : Nat) : ℝ :=
  if y < ny then m y x else m (y - ny) (nx - 1 - (x + (nx - nx / 2)) % nx)

end Pixell
