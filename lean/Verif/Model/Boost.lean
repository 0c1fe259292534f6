import Verif.Model.Aberration
import Mathlib.Analysis.SpecialFunctions.Pow.Real

/-
pixell/aberration.py:20-110,165-195,285-310: boosting a whole map. The sky is described by the cosine z of the angle from
the direction of travel and the azimuth φ around it; a component of a map is a function of (z,φ). Simplified: the
interpolation of the map (nufft) and the synthesis of the two boost fields from their spherical harmonics are taken as
exact, so a map is a function on the sphere and not on pixels; only components of spin zero (or polarization in the frame
aligned with the direction of travel, where the rotation angle gamma is zero) are followed.
-/
namespace Pixell
open Real

/-- One component of a map as a function of z and φ. Used for aberration.py:20-55. -/
abbrev SkyFun := ℝ → ℝ → ℝ

/-- The settings of a modulation (pixell/aberration.py:180-193). `Tcmb` is utils.T_cmb; `first` tells if the component is
the first of its map. -/
structure ModSet where
  u : PlanckConst
  Tcmb : ℝ
  T0 : ℝ
  freq : ℝ
  unit : ℝ
  dipole : Bool
  spin : ℤ
  first : Bool

/-- The names of the modulation modes (pixell/aberration.py:287-310). -/
inductive ModMode where
  | none | plain | T2lin | lin2T | lin2lin
  deriving DecidableEq

/-- pixell/aberration.py:113-163 (Aberrator): the deflection field is that of calc_boost_1d(z,-beta), added to the
position of the output pixel, and the map is read there. -/
noncomputable def aberrateSky (beta : ℝ) (m : SkyFun) : SkyFun := fun (z φ : ℝ) => m (calcBoost1d z (-beta)).1 φ

/-- pixell/aberration.py:181-184 (Modulator): calc_boost_field(-beta,...,mod_exp=-1)[1] at z. -/
noncomputable def modField (beta z : ℝ) : ℝ := ((calcBoost1d z (-beta)).2)⁻¹

/-- pixell/aberration.py:285-310 (apply_modulation), one pixel. -/
noncomputable def applyModulation (s : ModSet) (mode : ModMode) (a x : ℝ) : ℝ :=
  match mode with
  | .none => x
  | .plain => modulatePlain s.T0 s.unit s.dipole s.first a x
  | .T2lin => modulateT2lin s.u s.T0 s.freq s.unit s.spin s.dipole a x
  | .lin2T => modulateLin2T s.u s.Tcmb s.T0 s.freq s.unit s.spin s.dipole a x
  | .lin2lin =>
    modulateT2lin s.u s.T0 s.freq s.unit s.spin s.dipole a
      (modulateLin2T s.u s.Tcmb s.T0 s.freq s.unit s.spin s.dipole (a * 0 + 1) x)

/-- pixell/aberration.py:83-96 (modulate_map): the result, and the caller's map afterwards (apply_modulation works in the
array it is given). -/
noncomputable def modulateSky (s : ModSet) (mode : ModMode) (beta : ℝ) (m : SkyFun) : SkyFun × SkyFun :=
  let r : SkyFun := fun (z φ : ℝ) => applyModulation s mode (modField beta z) (m z φ)
  (r, r)

/-- pixell/aberration.py:20-55 (boost_map): the result, and the caller's map afterwards. -/
noncomputable def boostSky (s : ModSet) (mode : ModMode) (aberrate modulate : Bool) (beta : ℝ) (m : SkyFun) :
    SkyFun × SkyFun :=
  let m1 := if aberrate then aberrateSky beta m else m
  let r := if modulate then (modulateSky s mode beta m1).1 else m1
  let own := if aberrate then m else if modulate then (modulateSky s mode beta m).2 else m
  (r, own)

/-- pixell/aberration.py:57-66 (deboost_map). -/
noncomputable def deboostSky (s : ModSet) (mode : ModMode) (aberrate modulate : Bool) (beta : ℝ) (m : SkyFun) :
    SkyFun × SkyFun := boostSky s mode aberrate modulate (-beta) m

/-- pixell/aberration.py:217-222 (beta2lmax), for speeds below that of light. -/
noncomputable def beta2lmax (beta : ℝ) : ℤ :=
  let b := |beta|
  let gamma := 1 / √(1 - b ^ 2)
  ⌈1 / (4 / 1000 + 1 / gamma) ^ (62 / 100 : ℝ) * 14 + 7 / 2⌉

end Pixell
