import Verif.Model.Geometry
import Verif.Model.Num

/-
Making a map tile by tile: reproject.distribute and populate (pixell/reproject.py:825-868), for maps whose axes are linear. The pixels before
the last two axes are part of the values.
-/
namespace Pixell

/-- reproject.distribute, pixell/reproject.py:825-836; `none` for the division by zero and for the failing assertion. -/
def distribute (N nmax : ℕ) : Option (List ℕ) :=
  let actualMax : ℕ := 2 * (nmax + 1) / 3
  if actualMax = 0 then none
  else
    let numcells : ℤ := rint ((N : ℚ) / actualMax)
    let eachCell := List.replicate (numcells - 1).toNat actualMax
    let rem : ℤ := N - eachCell.sum
    let eachCell := if 0 < rem then eachCell ++ [rem.toNat] else eachCell
    if eachCell.sum = N then some eachCell else none

/-- The inner loop of populate, pixell/reproject.py:858-865: the tiles of rows sny to eny. -/
def populateCols {α : Type} (ofunc : ℤ × Axis → ℤ × Axis → ℕ → ℕ → α) (Ny Nx : ℕ) (wy wx : Axis) (sny eny : ℕ) :
    List ℕ → ℕ → (ℕ → ℕ → α) → ℕ → ℕ → α
  | [], _, omap => omap
  | t :: ts, snx, omap =>
    let enx := snx + t
    let gy := sliceGeometry Ny wy ⟨some sny, some eny, none⟩
    let gx := sliceGeometry Nx wx ⟨some snx, some enx, none⟩
    let tile := ofunc gy gx
    populateCols ofunc Ny Nx wy wx sny eny ts (snx + t)
      fun y x => if sny ≤ y ∧ y < eny ∧ snx ≤ x ∧ x < enx then tile (y - sny) (x - snx) else omap y x

/-- The outer loop of populate, pixell/reproject.py:856-867. -/
def populateRows {α : Type} (ofunc : ℤ × Axis → ℤ × Axis → ℕ → ℕ → α) (Ny Nx : ℕ) (wy wx : Axis) (tNxs : List ℕ) :
    List ℕ → ℕ → (ℕ → ℕ → α) → ℕ → ℕ → α
  | [], _, omap => omap
  | t :: ts, sny, omap =>
    populateRows ofunc Ny Nx wy wx tNxs ts (sny + t) (populateCols ofunc Ny Nx wy wx sny (sny + t) tNxs 0 omap)

/-- reproject.populate, pixell/reproject.py:838-868. `zero` is the value of the pixels before. -/
def populate {α : Type} (zero : α) (Ny Nx : ℕ) (wy wx : Axis) (ofunc : ℤ × Axis → ℤ × Axis → ℕ → ℕ → α) (maxpixy maxpixx : ℕ) :
    Option (ℕ → ℕ → α) :=
  match distribute Ny maxpixy, distribute Nx maxpixx with
  | some tNys, some tNxs => some (populateRows ofunc Ny Nx wy wx tNxs tNys 0 fun _ _ => zero)
  | _, _ => none

end Pixell
