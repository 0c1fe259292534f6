import Verif.Model.Aberration
import Verif.Model.Coordinates
import Mathlib.Analysis.SpecialFunctions.Trigonometric.Inverse
import Mathlib.Analysis.SpecialFunctions.Complex.Arg

/-
pixell/lensing.py and pixell/utils.py:1368-1385: moving positions on the sphere along gradients, and wrapping at the poles.
Floating-point numbers are real numbers; positions one at a time.
-/
namespace Pixell
open Real

/-- pixell/lensing.py:332-335: zero gradients become 1e-20 in both directions. -/
noncomputable def fixGrad (g : ℝ × ℝ) : ℝ × ℝ := if g.1 = 0 ∧ g.2 = 0 then ((1 / 10 : ℝ) ^ 20, (1 / 10 : ℝ) ^ 20) else g

/-- pixell/lensing.py:336: the length of a gradient. -/
noncomputable def gradLen (g : ℝ × ℝ) : ℝ := √(g.1 ^ 2 + g.2 ^ 2)

/-- pixell/lensing.py:337: the direction of a gradient. -/
noncomputable def gradDir (g : ℝ × ℝ) : ℝ × ℝ := (g.1 / gradLen g, g.2 / gradLen g)

/-- pixell/lensing.py:327-357 (offset_by_grad_helper) with pol=True: ((theta,phi),(cosgam,singam)). -/
noncomputable def offsetHelper (ipos grad : ℝ × ℝ) : (ℝ × ℝ) × (ℝ × ℝ) :=
  let grad := fixGrad grad
  let d := gradLen grad
  let g := gradDir grad
  let cosd := cos d
  let sind := sin d
  let cost := cos ipos.1
  let sint := sin ipos.1
  let ocost := cosd * cost - sind * sint * g.1
  let osint := √(1 - ocost ^ 2)
  let ophi := ipos.2 + arcsin (sind * g.2 / osint)
  let A := g.2 / (sind * cost / sint + g.1 * cosd)
  let nom1 := g.1 + g.2 * A
  let denom := 1 + A ^ 2
  let cosgam := 2 * nom1 ^ 2 / denom - 1
  let singam := 2 * nom1 * (g.2 - g.1 * A) / denom
  ((arccos ocost, ophi), (cosgam, singam))

/-- pixell/lensing.py:288-325 (offset_by_grad), geodesic=True with polarization: (dec,ra,angle) of one position. (The
chunks of the loop treat every position by itself.) -/
noncomputable def offsetByGrad (ipos grad : ℝ × ℝ) : ℝ × ℝ × ℝ :=
  let r := offsetHelper (π / 2 - ipos.1, ipos.2) (-grad.1, grad.2)
  (π / 2 - r.1.1, r.1.2, atan2 r.2.2 r.2.1)

/-- pixell/lensing.py:359-368 (pole_wrap), one position (dec,ra). -/
noncomputable def lensPoleWrap (a : ℝ × ℝ) : ℝ × ℝ :=
  let a := if a.1 > π / 2 then (π - a.1, a.2 + π) else a
  if a.1 < -π / 2 then (-π - a.1, a.2 + π) else a

/-- pixell/utils.py:1368-1385 (pole_wrap), one position (lat,lon). -/
noncomputable def poleWrap (p : ℝ × ℝ) : ℝ × ℝ :=
  let halforbit : ℤ := ⌊(p.1 + π / 2) / π⌋
  let front := halforbit % 2 = 0
  let lat := p.1 - π * halforbit
  if front then (lat, p.2) else (-lat, p.2 + π)

/-- pixell/lensing.py:318-324 (offset_by_grad), geodesic=False. -/
noncomputable def offsetFlat (ipos grad : ℝ × ℝ) : ℝ × ℝ :=
  lensPoleWrap (ipos.1 + grad.1, ipos.2 + grad.2 / cos ipos.1)

/-- pixell/lensing.py:230-232 (lens_map_curved): what happens to Q and U at a position, in the notation of `rotatePol`. -/
noncomputable def lensRotate (ipos grad : ℝ × ℝ) (m : Nat → ℝ) : Nat → ℝ :=
  rotatePol (offsetByGrad ipos grad).2.2 1 2 2 m

/-- pixell/lensing.py:80-95 (phi_to_kappa), one coefficient of degree l. -/
noncomputable def phiToKappa (l : Nat) (a : ℂ) : ℂ := a * ((l * (l + 1) / 2 : ℝ) : ℂ)

/-- pixell/lensing.py:118-134 (kappa_to_phi, the second definition, which is the one in effect), one coefficient of degree l;
for l=0 the factor is infinite and the result is set to zero. -/
noncomputable def kappaToPhi (l : Nat) (a : ℂ) : ℂ := if l = 0 then 0 else a * ((1 / (l * (l + 1) / 2) : ℝ) : ℂ)

end Pixell
