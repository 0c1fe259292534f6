import Mathlib.LinearAlgebra.Matrix.Notation
import Mathlib.Analysis.SpecialFunctions.Complex.Arg
import Mathlib.Analysis.SpecialFunctions.Trigonometric.Arctan

/-
pixell/coordinates.py and pixell/utils.py:1804-1888: rotations of the sphere. Floating-point numbers are real numbers; an
array of positions is treated one position at a time. arctan2(y,x) is the argument of the complex number x+iy (which is 0
for x = y = 0, as in IEEE arithmetic without signed zeros).
-/
namespace Pixell
open Real

/-- np.arctan2(y,x). Used for utils.py:1817-1825. -/
noncomputable def atan2 (y x : ℝ) : ℝ := Complex.arg ⟨x, y⟩

/-- pixell/utils.py:1804-1815 (ang2rect). -/
noncomputable def ang2rect (zenith : Bool) (phi theta : ℝ) : Fin 3 → ℝ :=
  if zenith then ![sin theta * cos phi, sin theta * sin phi, cos theta]
  else ![cos theta * cos phi, cos theta * sin phi, sin theta]

/-- pixell/utils.py:1817-1825 (rect2ang): (phi, theta) and, with return_r, r. -/
noncomputable def rect2ang (zenith : Bool) (v : Fin 3 → ℝ) : ℝ × ℝ :=
  let r := √(v 0 ^ 2 + v 1 ^ 2)
  (atan2 (v 1) (v 0), if zenith then atan2 r (v 2) else atan2 (v 2) r)

/-- pixell/utils.py:1817-1825 with return_r=True: the second value returned. -/
noncomputable def rect2angR (v : Fin 3 → ℝ) : ℝ := √(v 0 ^ 2 + v 1 ^ 2)

/-- pixell/utils.py:1827-1847 (angdist). -/
noncomputable def angdist (zenith : Bool) (a b : ℝ × ℝ) : ℝ :=
  let sinDra := sin (a.1 - b.1)
  let cosDra := cos (a.1 - b.1)
  let s := if zenith then cos else sin
  let c := if zenith then sin else cos
  let y := √((c b.2 * sinDra) ^ 2 + (c a.2 * s b.2 - s a.2 * c b.2 * cosDra) ^ 2)
  let x := s a.2 * s b.2 + c a.2 * c b.2 * cosDra
  atan2 y x

/-- The length of a vector, np.sum(v**2)**0.5. Used for utils.py:1849-1860. -/
noncomputable def vlen (v : Fin 3 → ℝ) : ℝ := √(v 0 ^ 2 + v 1 ^ 2 + v 2 ^ 2)

/-- pixell/utils.py:1849-1860 (vec_angdist) for vectors of three components, neither zero nor opposite (where the code
divides by zero; Lean's division gives 0 there). -/
noncomputable def vecAngdist (v1 v2 : Fin 3 → ℝ) : ℝ :=
  let a := vlen v1
  let b := vlen v2
  let c := vlen (v1 - v2)
  let mu := if b ≥ c then c - (a - b) else b - (a - c)
  2 * arctan (√((((a - b) + c) * mu) / ((a + (b + c)) * ((a - c) + b))))

/-- Used for utils.py:1862-1888. -/
inductive RAxis | x | y | z
  deriving DecidableEq, Repr

/-- pixell/utils.py:1862-1888 (rotmatrix). -/
noncomputable def rotmatrix (ang : ℝ) (raxis : RAxis) : Matrix (Fin 3) (Fin 3) ℝ :=
  let c := cos ang
  let s := sin ang
  match raxis with
  | .x => !![1, 0, 0; 0, c, -s; 0, s, c]
  | .y => !![c, 0, s; 0, 1, 0; -s, 0, c]
  | .z => !![c, -s, 0; s, c, 0; 0, 0, 1]

/-- pixell/coordinates.py:270-278 (euler_mat). -/
noncomputable def eulerMat (alpha beta gamma : ℝ) (k0 k1 k2 : RAxis) : Matrix (Fin 3) (Fin 3) ℝ :=
  let R1 := rotmatrix gamma k2
  let R2 := rotmatrix beta k1
  let R3 := rotmatrix alpha k0
  R3 * R2 * R1

/-- pixell/coordinates.py:280-287 (euler_rot) of one position. -/
noncomputable def eulerRot (alpha beta gamma : ℝ) (k0 k1 k2 : RAxis) (p : ℝ × ℝ) : ℝ × ℝ :=
  rect2ang false ((eulerMat alpha beta gamma k0 k1 k2).mulVec (ang2rect false p.1 p.2))

/-- pixell/coordinates.py:302-303, 309-310: the two forms of the argument `center`. -/
inductive Center | at2 (ra0 dec0 : ℝ) | at4 (ra0 dec0 ra1 dec1 : ℝ)

/-- ra0, dec0, ra1, dec1 of a center (pixell/coordinates.py:302-304). -/
noncomputable def Center.unpack (restore : Bool) : Center → ℝ × ℝ × ℝ × ℝ
  | .at2 ra0 dec0 => (ra0, dec0, if restore then ra0 * 0 + ra0 else ra0 * 0, dec0 * 0 + π / 2)
  | .at4 ra0 dec0 ra1 dec1 => (ra0, dec0, if restore then ra1 + ra0 else ra1, dec1)

/-- pixell/coordinates.py:289-305 (recenter). -/
noncomputable def recenter (p : ℝ × ℝ) (center : Center) (restore : Bool) : ℝ × ℝ :=
  let (ra0, dec0, ra1, dec1) := center.unpack restore
  eulerRot ra1 (dec0 - dec1) (-ra0) .z .y .z p

/-- pixell/coordinates.py:307-312 (decenter). -/
noncomputable def decenter (p : ℝ × ℝ) (center : Center) (restore : Bool) : ℝ × ℝ :=
  let (ra0, dec0, ra1, dec1) := center.unpack restore
  eulerRot ra0 (dec1 - dec0) (-ra1) .z .y .z p

/-- pixell/coordinates.py:304, 311: `ra1 += ra0`. If center is an array of four rows, ra1 is a view of its third row, which
this changes in the caller's array; this is the center after the call. (A list of numbers, or an array of four numbers,
is not changed.) -/
def Center.after (restore isRows : Bool) : Center → Center
  | .at4 ra0 dec0 ra1 dec1 => .at4 ra0 dec0 (if restore && isRows then ra1 + ra0 else ra1) dec1
  | c => c

/-- pixell/coordinates.py:246-249 (tele2hor); angles in radians. -/
noncomputable def tele2hor (baseAz baseTilt : ℝ) (p : ℝ × ℝ) : ℝ × ℝ := eulerRot baseAz baseTilt (-baseAz) .z .y .z p

/-- pixell/coordinates.py:251-254 (hor2tele). -/
noncomputable def hor2tele (baseAz baseTilt : ℝ) (p : ℝ × ℝ) : ℝ × ℝ := eulerRot baseAz (-baseTilt) (-baseAz) .z .y .z p

/-! ### transform_raw -/

/-- The systems of pixell/coordinates.py:429-436 (str2sys). -/
inductive Sys | galactic | icrs | altaz | tele | bore | ecliptic
  deriving DecidableEq, Repr

/-- pixell/coordinates.py:314 (nohor). -/
def nohor (s : Sys) : Sys := if s = .altaz ∨ s = .tele ∨ s = .bore then .icrs else s

/-- pixell/coordinates.py:156-179: the system the loop of transform_raw goes to next, if from_sys ≠ to_sys. -/
def nextSys (fromSys toSys : Sys) : Sys :=
  if fromSys = .bore then .tele
  else if fromSys = .tele ∧ toSys = .bore then .bore
  else if fromSys = .tele then .altaz
  else if fromSys = .altaz ∧ (toSys = .tele ∨ toSys = .bore) then .tele
  else if fromSys = .altaz then .icrs
  else if fromSys = .icrs ∧ (toSys = .altaz ∨ toSys = .tele ∨ toSys = .bore) then .altaz
  else nohor toSys

/-- The loop `while True` of transform_raw, with fuel; `step a b` is the transformation applied when going from a to b
(bore2tele, tele2hor, hor2cel, transform_astropy, ...). None if the fuel runs out. Used for coordinates.py:154-180. -/
def transLoop {P : Type} (step : Sys → Sys → P → P) : Nat → Sys → Sys → P → Option P
  | 0, _, _, _ => none
  | f + 1, fromSys, toSys, p =>
    if fromSys = toSys then some p
    else transLoop step f (nextSys fromSys toSys) toSys (step fromSys (nextSys fromSys toSys) p)

/-- pixell/coordinates.py:154-180 (transform_raw), after getsys_full: optional reference points, each a pair of maps
(recenter and decenter around it). -/
def transRaw {P : Type} (step : Sys → Sys → P → P) (fuel : Nat) (fromSys : Sys) (fromRef : Option ((P → P) × (P → P))) (toSys : Sys)
    (toRef : Option ((P → P) × (P → P))) (p : P) : Option P :=
  let p := match fromRef with
    | some (_, de) => de p
    | none => p
  match transLoop step fuel fromSys toSys p with
  | none => none
  | some q => some (match toRef with
    | some (re, _) => re q
    | none => q)

end Pixell
