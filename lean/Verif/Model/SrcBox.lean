import Mathlib.Analysis.SpecialFunctions.Trigonometric.Basic
import Verif.Model.SrcSim

/-
The pixel box around an object, cython/srcsim_core.c:656-733: calc_grad, calc_pix_shape_separable and estimate_bounding_box, for
maps whose coordinates are separable. Floats are real numbers. `none` stands for undefined behaviour of C.
-/
namespace Pixell
open Real

/-- Conversion of a floating point number to an int: rounds towards zero. Used for srcsim_core.c:713-714 and 727-728. -/
noncomputable def cTruncR (x : ℝ) : ℤ := if 0 ≤ x then ⌊x⌋ else ⌈x⌉

/-- fmod of C, with the sign of x. Used for srcsim_core.c:663. -/
noncomputable def cFmod (x y : ℝ) : ℝ := x - y * cTruncR (x / y)

/-- calc_grad, cython/srcsim_core.c:656-665, for an axis of n pixels. With n = 1 it reads the element after the end of the array. -/
noncomputable def calcGrad (n : ℕ) (v : ℕ → ℝ) (i : ℤ) : Option ℝ :=
  if n < 2 then none else
  let p : ℝ × ℝ :=
    if i ≤ 0 then (v 1 - v 0, 1)
    else if i ≥ (n : ℤ) - 1 then (v (n - 1) - v (n - 2), 1)
    else (v (i + 1).toNat - v (i - 1).toNat, 2)
  some ((cFmod (p.1 + π) (2 * π) - π) / p.2)

/-- `y < 0 ? 0 : y >= ny ? ny-1 : y`, cython/srcsim_core.c:683-684. -/
def clampPix (n : ℕ) (i : ℤ) : ℤ := if i < 0 then 0 else if i ≥ n then (n : ℤ) - 1 else i

/-- calc_pix_shape_separable, cython/srcsim_core.c:682-690: height and width of a pixel. -/
noncomputable def pixShapeSep (ny nx : ℕ) (decs ras : ℕ → ℝ) (y x : ℤ) : Option (ℝ × ℝ) := do
  let ddec ← calcGrad ny decs (clampPix ny y)
  let dra ← calcGrad nx ras (clampPix nx x)
  let c := cos (decs (clampPix ny y).toNat)
  some (|ddec|, |dra * c|)

/-- `if(dy0 < dy) dy = dy0; if(dx0 < dx) dx = dx0;`, cython/srcsim_core.c:721-722. -/
noncomputable def minShape (a b : ℝ × ℝ) : ℝ × ℝ := (if b.1 < a.1 then b.1 else a.1, if b.2 < a.2 then b.2 else a.2)

/-- estimate_bounding_box, cython/srcsim_core.c:697-733. Converting the result of a division by zero to an int is undefined. -/
noncomputable def estimateBox (ny nx : ℕ) (decs ras : ℕ → ℝ) (objY objX : ℤ) (rmax : ℝ) : Option Box4 := do
  let s0 ← pixShapeSep ny nx decs ras objY objX
  if s0.1 = 0 ∨ s0.2 = 0 then none
  else
    let Dy := cTruncR |rmax / s0.1| + 1
    let Dx := cTruncR |rmax / s0.2| + 1
    let s1 ← pixShapeSep ny nx decs ras (objY - Dy) (objX - Dx)
    let s2 ← pixShapeSep ny nx decs ras (objY - Dy) (objX + Dx)
    let s3 ← pixShapeSep ny nx decs ras (objY + Dy) (objX - Dx)
    let s4 ← pixShapeSep ny nx decs ras (objY + Dy) (objX + Dx)
    let s := minShape (minShape (minShape (minShape s0 s1) s2) s3) s4
    let tol := max (max s.1 s.2 * (1 / 1000000)) (1 / 1000000000000)
    let dy := max s.1 tol
    let dx := max s.2 tol
    let Ey := cTruncR (rmax / dy) + 1
    let Ex := cTruncR (rmax / dx) + 1
    some ⟨objY - Ey, objY + Ey + 1, objX - Ex, objX + Ex + 1⟩

end Pixell
