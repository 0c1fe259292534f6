import Verif.Model.Num
import Verif.Model.MapPlace

/-
The stamps that are plotted instead of a map (enplot.extract_stamps, pixell/enplot.py:455-471), in pixels.
-/
namespace Pixell

/-- `srcs[:,:nsrc]`: a negative number counts from the end. Used for pixell/enplot.py:466-467; without a number all are taken. -/
def upTo {α : Type} (l : List α) : Option ℤ → List α
  | none => l
  | some n => if 0 ≤ n then l.take n.toNat else l.take (l.length + n).toNat

/-- The first pixel of a stamp along one axis, pixell/enplot.py:469. -/
def stampCorner (p : ℚ) (size : ℤ) : ℤ := rint (p - 1 / 2 * size)

/-- The boxes of the stamps, y then x, pixell/enplot.py:464-471.  `rows` are the columns ra and dec of the file, `topix` is sky2pix from
dec and ra to y and x.  The size is 16 if it is not given (465). -/
def plotStamps (topix : ℚ × ℚ → ℚ × ℚ) (rows : List (ℚ × ℚ)) (size : Option ℤ) (nmax : Option ℤ) : List ((ℤ × ℤ) × (ℤ × ℤ)) :=
  let size := size.getD 16
  (upTo (rows.map fun r => (r.2, r.1)) nmax).map fun src =>
    let p := topix src
    (stampBox (stampCorner p.1 size) size, stampBox (stampCorner p.2 size) size)

end Pixell
