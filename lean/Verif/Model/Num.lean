import Mathlib.Data.Rat.Floor
/-
Rounding helpers standing for numpy/Python scalar functions.
-/
namespace Pixell

/-- `np.round`/`utils.nint` (utils.py:2654): nearest integer, ties to even. -/
def rint (x : ℚ) : ℤ :=
  let f := ⌊x⌋
  if x - f < 1/2 then f
  else if 1/2 < x - f then f + 1
  else if f % 2 = 0 then f else f + 1

/-- Python/numpy `x % p` on floats (exact): result has the sign of `p`. -/
def pmod (x p : ℚ) : ℚ := x - p * ⌊x / p⌋

/-- Python `int(x)` on a float: truncation towards zero. -/
def intTrunc (x : ℚ) : ℤ := if 0 ≤ x then ⌊x⌋ else ⌈x⌉

/-- `np.allclose(a, b)` for finite scalars with numpy's default tolerances. -/
def allclose (a b : ℚ) : Bool := decide (|a - b| ≤ 1/10^8 + 1/10^5 * |b|)

end Pixell
