import Verif.Model.Aberration
import Mathlib.Analysis.SpecialFunctions.Trigonometric.Inverse

/-
pixell/old_aberration.py: the older Doppler boosts, with the modulation expanded to second order, Newton's method for the
inverse of the Planck spectrum, and the oldest functions at the end of the file. The sky is described in the frame whose
pole is the direction of travel; simplified: the rotation of the sphere to that frame and back and the interpolation of
the map are taken as exact, recenter=False. Floating-point numbers are real numbers.
-/
namespace Pixell
open Real

/-- pixell/old_aberration.py:195-203 (planck). -/
noncomputable def planckOld (u : PlanckConst) (nu T : ℝ) (deriv : Bool) : ℝ :=
  let a := 2 * u.h * nu ^ 3 / u.c ^ 2
  let x := u.h * nu / (u.k * T)
  let e := exp x
  let b := 1 / (exp x - 1)
  if deriv then a * b ^ 2 * e * x / T else a * b

/-- pixell/old_aberration.py:205-211 (inv_planck). -/
noncomputable def invPlanck (u : PlanckConst) (nu I T0 : ℝ) : Nat → ℝ
  | 0 => T0
  | n + 1 =>
    let T := invPlanck u nu I T0 n
    T - (planckOld u nu T false - I) / planckOld u nu T true

/-- pixell/old_aberration.py:125-146 (apply_modulation, mode "thermo"), one pixel of component `idx` of the flattened map. -/
noncomputable def oldThermo (u : PlanckConst) (T0 freq unit : ℝ) (dipole pol tiny : Bool) (idx : Nat) (a ival : ℝ) : ℝ :=
  let t0 := if pol then (if idx = 0 then T0 / unit else 0) else T0 / unit
  let xh := 5 / 10 * u.h * freq / (u.k * T0)
  let f := xh / tanh xh - 1
  let a1 := a - 1
  let o := a * ival
  let o := o + f * (a1 ^ 2 * t0 + 2 * a * a1 * ival)
  let o := if dipole then o + a1 * t0 else o
  if tiny then o + f * a ^ 2 * ival ^ 2 / (T0 / unit) else o

/-- pixell/old_aberration.py:10-52,178-190 (boost_map, mode "plain", with calc_boost_1d), one component as a function of the cosine z of the angle from
the direction of travel. -/
noncomputable def oldBoostPlain (beta : ℝ) (m : ℝ → ℝ) (z : ℝ) : ℝ :=
  let za := calcBoost1d z (-beta)
  m za.1 * za.2⁻¹

/-- pixell/old_aberration.py:116-123 (apply_aberration), the rotation of the polarization of a map whose first axis has n
entries: row i, and column j of the axes that follow. -/
noncomputable def oldRotate (n : Nat) (psi : ℝ) (m : Nat → Nat → ℝ) : Option (Nat → Nat → ℝ) :=
  if n < 3 then none
  else
    let c := cos (2 * psi)
    let s := sin (2 * psi)
    some fun i j => if i = 1 then c * m 1 j + s * m 2 j else if i = 2 then -s * m 1 j + c * m 2 j else m i j

/-- pixell/old_aberration.py:98-105 (Aberrator.aberrate), the rotation of the polarization of a stack of maps with ncomp
components each: entry i of the stack, component j. -/
noncomputable def aberratorRotate (ncomp : Nat) (psi : ℝ) (m : Nat → Nat → ℝ) : Option (Nat → Nat → ℝ) :=
  if ncomp < 3 then none
  else
    let c := cos (2 * psi)
    let s := sin (2 * psi)
    some fun i j => if j = 1 then c * m i 1 + s * m i 2 else if j = 2 then -s * m i 1 + c * m i 2 else m i j

/-- pixell/old_aberration.py:265-273 (aber_angle). -/
noncomputable def aberAngle (theta beta : ℝ) : ℝ :=
  let c := cos theta
  let gamma := 1 / √(1 - beta ^ 2)
  arccos ((c + (gamma - 1) * c + gamma * beta) / (gamma * (1 + c * beta)))

/-- pixell/old_aberration.py:275-279 (mod_amplitude). -/
noncomputable def modAmplitude (theta beta : ℝ) : ℝ :=
  let gamma := 1 / √(1 - beta ^ 2)
  1 / (gamma * (1 - cos theta * beta))

/-- pixell/old_aberration.py:281-284 (aber_deriv). -/
noncomputable def aberDeriv (theta beta : ℝ) : ℝ := √(1 - beta ^ 2) / (1 - beta * cos theta)

/-- pixell/old_aberration.py:220-239 (remap): where the map is read for the observed angle theta from the direction of
travel, and the amplitude it is multiplied with; pos[1] has been overwritten by the time the amplitude is computed. -/
noncomputable def remapOld (theta beta : ℝ) : ℝ × ℝ :=
  let theta := aberAngle theta (-beta)
  (theta, modAmplitude theta beta)

/-- pixell/old_aberration.py:241-245 (distortion). -/
noncomputable def distortionOld (theta beta : ℝ) : ℝ := aberDeriv theta (-beta) - 1

/-- pixell/old_aberration.py:257-260 (aberrate), the rotation of the polarization (q,u) of one pixel: omap[1] is overwritten
before omap[2] is computed from it. -/
noncomputable def aberratePol (psi : ℝ) (qu : ℝ × ℝ) : ℝ × ℝ :=
  let c := cos (2 * psi)
  let s := sin (2 * psi)
  let q := c * qu.1 + s * qu.2
  (q, -s * q + c * qu.2)

end Pixell
