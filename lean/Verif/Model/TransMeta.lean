import Verif.Model.Coordinates

/-
pixell/coordinates.py:24-124: what happens to polarization angles and apparent areas under a change of coordinates. Real
numbers, one position. The transformation itself is an argument.
-/
namespace Pixell
open Real

/-- pixell/utils.py:273-281 (rewind) with ref=0 and period 2π, on real numbers. -/
noncomputable def rewindPi (a : ℝ) : ℝ := a + π - 2 * π * ⌊(a + π) / (2 * π)⌋ - π

/-- pixell/coordinates.py:79-113 (transform_meta): res.ang. -/
noncomputable def metaAng (T : ℝ × ℝ → ℝ × ℝ) (p : ℝ × ℝ) (offset : ℝ) : ℝ :=
  let o0 := T p
  let o1 := T (p.1 + offset, p.2)
  let d0 := rewindPi (o1.1 - o0.1)
  let d1 := rewindPi (o1.2 - o0.2)
  atan2 d1 (d0 * cos o0.2)

/-- pixell/coordinates.py:114-115 (transform_meta): res.mag. -/
noncomputable def metaMag (T : ℝ × ℝ → ℝ × ℝ) (p : ℝ × ℝ) : ℝ := cos p.2 / cos (T p).2

/-- pixell/coordinates.py:116-123 (transform_meta): res.mag by the areas of triangles. -/
noncomputable def metaMagBrute (T : ℝ × ℝ → ℝ × ℝ) (p : ℝ × ℝ) (offset : ℝ) : ℝ :=
  let o0 := T p
  let o1 := T (p.1 + offset, p.2)
  let o2 := T (p.1, p.2 + offset)
  let tri := fun (a0 a1 b0 b1 : ℝ) => 1 / 2 * |a0 * b1 - a1 * b0|
  tri (rewindPi (o1.1 - o0.1)) (rewindPi (o1.2 - o0.2)) (rewindPi (o2.1 - o0.1)) (rewindPi (o2.2 - o0.2)) / tri offset 0 0 offset

/-- The handedness of pixell/coordinates.py:316-320. -/
inductive Hand | L | R
  deriving DecidableEq, Repr

/-- pixell/coordinates.py:316-320 (get_handedness). -/
def handedness (s : Sys) : Hand := if s = .altaz ∨ s = .tele ∨ s = .bore then .R else .L

/-- pixell/coordinates.py:48-50 (transform): the angle after the polarization convention is fixed. -/
noncomputable def transAng (ih oh : Hand) (ang : ℝ) : ℝ :=
  let a := if ih ≠ oh then ang - π else ang
  if oh ≠ .L then -a else a

/-- The optional columns of pixell/coordinates.py:40-45. -/
inductive TransField | ang | mag
  deriving DecidableEq, Repr

/-- pixell/coordinates.py:40-45: which columns are computed, for `len` rows of coordinates. -/
def transFields (pol mag : Option Bool) (len : ℕ) : List TransField :=
  (if pol = some true then [.ang] else []) ++ (if mag = some true then [.mag] else []) ++
    (if pol = none ∧ mag = none then (if len > 2 then [.ang] else []) ++ (if len > 3 then [.mag] else []) else [])

/-- pixell/coordinates.py:51-65: the optional columns of the result; `c2` and `c3` are rows 2 and 3 of coords, if present,
`ang` is already fixed. -/
noncomputable def transCols (fields : List TransField) (c2 c3 : Option ℝ) (ang mag : ℝ) : List ℝ :=
  fields.map fun f => match f with
    | .ang => (match c2 with
      | some c => c + ang
      | none => ang)
    | .mag => (match c3 with
      | some c => c * mag
      | none => mag)

end Pixell
