import Verif.Model.PlotPrep

/-
Merging of finished plots (enplot.merge_plots, pixell/enplot.py:858-874), one coordinate.  Pixels are of any type, with a
transparent one; `over a b` is the pixel of `PIL.Image.alpha_composite` for `b` on `a`.
-/
namespace Pixell

/-- An image: its width and its pixels from 0 on. See pixell/enplot.py:853. -/
structure Img1 (α : Type) where
  w : ℤ
  pix : ℤ → α

/-- A plot: its image and which object holds its info; a copy of a Bunch has the same info object. See pixell/enplot.py:867 and
pixell/bunch.py:46. -/
structure PlotRef (α : Type) where
  img : Img1 α
  info : Nat

/-- The canvas with one image pasted, pixell/enplot.py:851-855. -/
def onCanvas {α : Type} (clear : α) (full b : ℤ × ℤ) (img : Img1 α) : Img1 α :=
  ⟨full.2 - full.1, fun p => if pastedAt full b 0 ≤ p ∧ p < pastedAt full b img.w then img.pix (p - pastedAt full b 0) else clear⟩

/-- standardize_images, pixell/enplot.py:843-856; no images raise. -/
def standardize {α : Type} (clear : α) : List (Img1 α × (ℤ × ℤ)) → Option (List (Img1 α) × (ℤ × ℤ))
  | [] => none
  | t :: r =>
    let full := calcBounds1 ((t :: r).map fun x => x.2) t.2.2
    some ((t :: r).map fun x => onCanvas clear full x.2 x.1, full)

/-- `PIL.Image.alpha_composite` of two images of the same size. Used for pixell/enplot.py:863 and :873. -/
def composite {α : Type} (over : α → α → α) (a b : Img1 α) : Img1 α := ⟨a.w, fun p => over (a.pix p) (b.pix p)⟩

/-- merge_plots, pixell/enplot.py:866-874, with the bounds of all info objects before and after. -/
def mergePlots {α : Type} (clear : α) (over : α → α → α) (bounds : Nat → ℤ × ℤ) (plots : List (PlotRef α)) :
    Option (PlotRef α × (Nat → ℤ × ℤ)) := do
  let res ← plots.head?
  let (imgs, full) ← standardize clear (plots.map fun p => (p.img, bounds p.info))
  let img0 ← imgs.head?
  let bounds' := fun i => if i = res.info then full else bounds i
  return (⟨imgs.tail.foldl (composite over) img0, res.info⟩, bounds')

end Pixell
