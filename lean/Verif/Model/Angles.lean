import Verif.Model.Num
/-
Angle rewinding and unwinding.
-/
namespace Pixell

/-- utils.rewind (utils.py:273-281), one element. -/
def rewind (a ref period : ℚ) : ℚ := ref + pmod (a - ref + period / 2) period - period / 2

/-- The C rewind_inplace (cmisc_core.c:319-...) is modelled separately.  This is
`np.cumsum` of a list. -/
def npCumsum : ℚ → List ℚ → List ℚ
  | _, [] => []
  | acc, x :: xs => (acc + x) :: npCumsum (acc + x) xs

/-- `flat[1:] - flat[:-1]`. Used for utils.py:254-255. -/
def diffs : List ℚ → List ℚ
  | x :: y :: r => (y - x) :: diffs (y :: r)
  | _ => []

/-- The `refmode == "left"` branch of utils.unwind (utils.py:254-255) after rewinding. -/
def unwindLeft (period : ℚ) : List ℚ → List ℚ
  | [] => []
  | x :: r =>
    let steps := (diffs (x :: r)).map fun d => ((rint (d / period) : ℤ) : ℚ)
    x :: List.zipWith (fun v c => v - c * period) r (npCumsum 0 steps)

/-- The `refmode == "middle"` branch (utils.py:256-263): elements right of the middle are corrected
by running sums to the right, elements left of it by running sums to the left (`steps[iref-1::-1]`
reversed back). -/
def unwindMiddle (period : ℚ) (l : List ℚ) : List ℚ :=
  let steps := (diffs l).map fun d => ((rint (d / period) : ℤ) : ℚ)
  let iref := l.length / 2
  let left := l.take iref
  let loffs := ((npCumsum 0 (steps.take iref).reverse).reverse).map fun c => -c * period
  let roffs := (npCumsum 0 (steps.drop iref)).map fun c => c * period
  List.zipWith (· - ·) left loffs ++ (l.drop iref).take 1 ++
    List.zipWith (· - ·) (l.drop (iref + 1)) roffs

/-- utils.unwind (utils.py:237-271) for finite data, one row. -/
def unwind (a : List ℚ) (period ref : ℚ) (middle : Bool := false) : List ℚ :=
  let res := a.map fun x => rewind x ref period
  if middle then unwindMiddle period res else unwindLeft period res

end Pixell
