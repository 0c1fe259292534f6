import Verif.Spec.PySeq
import Mathlib.Algebra.Order.Ring.Rat
import Mathlib.Algebra.Order.Field.Rat
import Mathlib.Algebra.Module.Defs

/-
Padded tiling with crossfading (enmap.py:3249-3367).
Simplification: the map does not wrap around the sky, so that pixels of a tile outside the map are
dropped when the tile is inserted (the docstring excludes writing to wrapped maps).
-/
namespace Pixell

/-- Number of tiles along an axis: `(n+t-1)//t`, enmap.py:3341. -/
def padNt (n t : Nat) : Nat := (n + t - 1) / t

/-- Crossfade weights `w = (arange(ol)+1)/(ol+1)`, enmap.py:3325-3327. -/
def fadeW (ol : Nat) (j : Int) : ℚ := ((j : ℚ) + 1) / ((ol : ℚ) + 1)

/-- Weight of row `j` of tile `k` along one axis, after the margin has been cut off (enmap.py:3360-3366):
rows `[:ol]` times `w` if not the first tile, rows `[len-ol:]` times `w[::-1]` if not the last one;
`len = t + 2*pad` and `ol = 2*pad`. -/
def tileWeight (nt t pad k : Nat) (j : Int) : ℚ :=
  let ol := 2 * pad
  let len : Int := t + 2 * pad
  let w1 := if 0 < k ∧ j < ol then fadeW ol j else 1
  let w2 := if k + 1 < nt ∧ len - ol ≤ j then fadeW ol (ol - 1 - (j - (len - ol))) else 1
  w1 * w2

/-- Pixels of the map covered by tile `k` without its margin: `[k*t-pad, (k+1)*t+pad)`. Used for enmap.py:3354-3367. -/
def inPadTile (t pad k : Nat) (y : Int) : Prop := (k : Int) * t - pad ≤ y ∧ y < ((k : Int) + 1) * t + pad

instance (t pad k : Nat) (y : Int) : Decidable (inPadTile t pad k y) := by
  unfold inPadTile; infer_instance

/-- `range(start, ntile, step)`, enmap.py:3344. -/
def tileIter (start N step : Nat) : List Nat := (PySpec.range start N step).map Int.toNat

variable {α : Type} [AddCommMonoid α] [Module ℚ α]

/-- The read iterator: the padded tile of a map, as a function of the map's pixel coordinates
(enmap.py:3347-3352); pixels outside the map are zero. -/
def padRead (ny nx : Nat) (imap : Int → Int → α) (y x : Int) : α :=
  if 0 ≤ y ∧ y < ny ∧ 0 ≤ x ∧ x < nx then imap y x else 0

/-- The write iterator (enmap.py:3354-3367): after the user has filled tile `ti` with `tiles ti`, add it
to the map with the weights of both axes. -/
def padWrite (ny nx ty tx pady padx start step : Nat) (tiles : Nat → Int → Int → α)
    (omap : Int → Int → α) : Int → Int → α :=
  let nty := padNt ny ty
  let ntx := padNt nx tx
  (tileIter start (nty * ntx) step).foldl (fun omap ti y x =>
    if 0 ≤ y ∧ y < ny ∧ 0 ≤ x ∧ x < nx ∧ inPadTile ty pady (ti / ntx) y ∧ inPadTile tx padx (ti % ntx) x then
      omap y x + (tileWeight nty ty pady (ti / ntx) (y - ((ti / ntx : Nat) * (ty : Int) - pady)) *
        tileWeight ntx tx padx (ti % ntx) (x - ((ti % ntx : Nat) * (tx : Int) - padx))) • tiles ti y x
    else omap y x) omap

end Pixell
