import Verif.Model.Num
import Mathlib.Analysis.SpecialFunctions.Trigonometric.Inverse
import Mathlib.Analysis.Complex.Basic

/-! Conversions between times, scales and chords, the complex-step derivative, overlaps of discs and Airy beams. See pixell/utils.py. -/

namespace Pixell

/-! ### Times -/

/-- `ctime2mjd`. See utils.py:327-329. -/
def ctime2mjd (t : ℚ) : ℚ := t / 86400 + 40587
/-- `mjd2ctime`. See utils.py:342-344, which replaces the same definition at 330-332. -/
def mjd2ctime (m : ℚ) : ℚ := (m - 40587) * 86400
/-- `mjd2djd`. See utils.py:333. -/
def mjd2djd (m : ℚ) : ℚ := m + 24000005/10 - 2415020
/-- `djd2mjd`. See utils.py:334. -/
def djd2mjd (d : ℚ) : ℚ := d - 24000005/10 + 2415020
/-- `mjd2jd`. See utils.py:335. -/
def mjd2jd (m : ℚ) : ℚ := m + 24000005/10
/-- `jd2mjd`. See utils.py:336. -/
def jd2mjd (j : ℚ) : ℚ := j - 24000005/10
/-- `ctime2djd`. See utils.py:337. -/
def ctime2djd (t : ℚ) : ℚ := mjd2djd (ctime2mjd t)
/-- `djd2ctime`. See utils.py:338. -/
def djd2ctime (d : ℚ) : ℚ := mjd2ctime (djd2mjd d)
/-- `ctime2jd`. See utils.py:339. -/
def ctime2jd (t : ℚ) : ℚ := mjd2jd (ctime2mjd t)
/-- `jd2ctime`. See utils.py:340. -/
def jd2ctime (j : ℚ) : ℚ := mjd2ctime (jd2mjd j)

/-! ### Scales -/

/-- `l2ang`. See utils.py:62-65. -/
noncomputable def l2ang (l : ℝ) : ℝ := Real.sqrt (4 * Real.pi) / (l + 1)
/-- `ang2l`. See utils.py:66-69. -/
noncomputable def ang2l (a : ℝ) : ℝ := Real.sqrt (4 * Real.pi) / a - 1
/-- `res2nside`. See utils.py:3517-3518. -/
noncomputable def res2nside (r : ℝ) : ℝ := Real.sqrt (Real.pi / 3) / r
/-- `nside2res`. See utils.py:3519-3520. -/
noncomputable def nside2res (n : ℝ) : ℝ := Real.sqrt (Real.pi / 3) / n
/-- `ang2chord`. See utils.py:3189-3191. -/
noncomputable def ang2chord (a : ℝ) : ℝ := 2 * Real.sin (a / 2)
/-- `chord2ang`; `none` is the NaN of an arcsine that does not exist. See utils.py:3193-3195. -/
noncomputable def chord2ang (c : ℝ) : Option ℝ := if |c / 2| ≤ 1 then some (2 * Real.arcsin (c / 2)) else none

/-! ### Derivatives and ranges -/

/-- `D(f, eps)(x)`. See utils.py:71-77. -/
noncomputable def stepDeriv (f : ℂ → ℂ) (eps x : ℝ) : ℝ := (f (x + eps * Complex.I)).im / eps

/-- `rescale(a, range)`; `none` are the NaNs of dividing 0 by 0, or the ValueError of the minimum of nothing. See utils.py:1925-1928. -/
def rescale (a : List ℚ) (r0 r1 : ℚ) : Option (List ℚ) :=
  match a.min?, a.max? with
  | some mi, some ma => if ma - mi = 0 then none else some (a.map fun x => (x - mi) / (ma - mi) * (r1 - r0) + r0)
  | _, _ => none

/-! ### Discs -/

/-- `disk_overlap(d, R)`. See utils.py:3656-3660. -/
noncomputable def diskOverlap (d R : ℝ) : ℝ :=
  let x := min (max (d / (2 * R)) 0) 1
  (Real.arccos x - x * Real.sqrt (1 - x ^ 2)) * (2 * R ^ 2)

/-- `lairy(x)`. See utils.py:3637-3647. -/
noncomputable def lairy (x : ℝ) : ℝ :=
  let x := min (max x 0) 1
  (Real.arccos x - x * Real.sqrt (1 - x ^ 2)) / (Real.pi / 2)

/-- `airy(x)` for any function `j1`. See utils.py:3625-3635. -/
noncomputable def airy (j1 : ℝ → ℝ) (x : ℝ) : ℝ := if x < 1/10^6 then 1 - 1/4 * x ^ 2 else (2 * j1 x / x) ^ 2

/-- `airy_lmax(D, λ)`. See utils.py:3649. -/
noncomputable def airyLmax (D lam : ℝ) : ℝ := 2 * Real.pi * D / lam

/-- `airy_area(D, λ)`. See utils.py:3651-3654. -/
noncomputable def airyArea (D lam : ℝ) : ℝ := (2 * lam / D) ^ 2 / Real.pi

/-- numpy's arccos; `none` is NaN. -/
noncomputable def npArccos (x : ℝ) : Option ℝ := if |x| ≤ 1 then some (Real.arccos x) else none

/-- `_disk_overlap_curved_main`. See utils.py:3691-3693. -/
noncomputable def curvedMain (d R : ℝ) : Option ℝ :=
  (npArccos ((1 - Real.cos d) / Real.sin R ^ 2 - 1)).bind fun a =>
    (npArccos (Real.cos R / Real.sin R * Real.tan (d / 2))).map fun b => 2 * a - 4 * Real.cos R * b

/-- `_disk_overlap_curved_tiny`. See utils.py:3695-3698. -/
noncomputable def curvedTiny (d R : ℝ) : ℝ := 2 * Real.pi * (1 - Real.cos R) - 4 * Real.sin R * Real.sin (d / 2)

/-- `disk_overlap_curved(d, R)` for one distance with the default tolerances, where `isInt` says whether `d` is an int: `zeros_like(d)` then makes an array of
ints, into which the result is truncated. `none` is NaN. See utils.py:3662-3689. -/
noncomputable def diskOverlapCurved (isInt : Bool) (d R : ℝ) : Option ℝ :=
  let res : Option ℝ :=
    if 2 * R ≤ d ∨ R = 0 then some 0
    else if d < 1/10^10 then some (curvedTiny d R)
    else if R < 1/10^4 then some (diskOverlap d R)
    else curvedMain d R
  if isInt then res.map fun v => if 0 ≤ v then (⌊v⌋ : ℝ) else (⌈v⌉ : ℝ) else res

end Pixell
