import Mathlib.Analysis.SpecialFunctions.Trigonometric.Inverse

/-
enmap.neighborhood_pixboxes for maps on the sphere (764-795). Angles are real numbers. The two axes of a cylindrical map are linear;
the branch for flat maps (768-771) uses undefined names, raises an exception for all arguments and is not modelled.
-/
namespace Pixell
open Real

/-- The coordinate box around a position, pixell/enmap.py:777-784: dec1, dec2, ra1, ra2. Where the cosine at the edge of the box is zero
the code divides by zero, or by the rounding error of the cosine, and min(...,pi) gives pi. -/
noncomputable def nbBox (dec ra r : ℝ) : ℝ × ℝ × ℝ × ℝ :=
  let dec1 := max (dec - r) (-π / 2)
  let dec2 := min (dec + r) (π / 2)
  let c := min (cos dec1) (cos dec2)
  let dra := if c = 0 then π else min (r * (1 / c)) π
  (dec1, dec2, ra - dra, ra + dra)

/-- np.rint of a real number: half to even. Used for enmap.py:788. -/
noncomputable def rintReal (x : ℝ) : ℤ :=
  let f := ⌊x⌋
  if x - f < 1 / 2 then f else if 1 / 2 < x - f then f + 1 else if f % 2 = 0 then f else f + 1

/-- The range of pixels along one axis for the ends of the box, pixell/enmap.py:786-791: skybox2pixbox, utils.nint, np.sort and the +1.
Pixel i of the axis is at angle c0 + i*step. -/
noncomputable def nbRange (c0 step a b : ℝ) : ℤ × ℤ :=
  let p := rintReal ((a - c0) / step)
  let q := rintReal ((b - c0) / step)
  (min p q, max p q + 1)

/-- enmap.neighborhood_pixboxes, pixell/enmap.py:764-792, for one position: ranges of rows and columns. `turn` is the number of turns by
which the unwinding of sky2pix(safe=2) moves the box. -/
noncomputable def neighborhoodPixbox (d0 sy a0 sx : ℝ) (turn : ℤ) (dec ra r : ℝ) : (ℤ × ℤ) × (ℤ × ℤ) :=
  let b := nbBox dec ra r
  (nbRange d0 sy b.1 b.2.1, nbRange a0 sx (b.2.2.1 + 2 * π * turn) (b.2.2.2 + 2 * π * turn))

end Pixell
