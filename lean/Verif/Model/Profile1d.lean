import Verif.Model.SpecIO
import Verif.Model.Wavelets
import Mathlib.Data.Nat.Find

/-! Radial profiles and their spherical harmonics. See pixell/curvedsky.py. -/

namespace Pixell

open Real

/-- `np.interp(x, xp, fp, left, right)` for `n` ascending points. Used for curvedsky.py:518. -/
noncomputable def npInterp (n : ℕ) (xp fp : ℕ → ℝ) (left right : Option ℝ) (x : ℝ) : ℝ := by
  classical
  exact
    if x < xp 0 then left.getD (fp 0)
    else if xp (n - 1) < x then right.getD (fp (n - 1))
    else
      let j := Nat.findGreatest (fun j => xp j ≤ x) (n - 1)
      if j = n - 1 then fp j else fp j + (fp (j + 1) - fp j) / (xp (j + 1) - xp j) * (x - xp j)

/-- The spherical harmonic of order zero: what ducc0 computes for rings of a single pixel at longitude zero and mmax=0. Used for curvedsky.py:519-521 and 535-537. -/
noncomputable def ylm0 (l : ℕ) (theta : ℝ) : ℝ := sqrt ((2 * l + 1) / (4 * π)) * legendreP l (cos theta)

/-- `nfull` of profile2harm for `n` points. See curvedsky.py:506-507. -/
noncomputable def profNfull (n : ℕ) (r : ℕ → ℝ) : ℤ := rintR (π / ((r (n - 1) - r 0) / ((n : ℝ) - 1))) + 1

/-- `ncut` of profile2harm. See curvedsky.py:508-509. -/
noncomputable def profNcut (n : ℕ) (r : ℕ → ℝ) : ℤ := ⌈r (n - 1) / (π / ((profNfull n r : ℝ) - 1))⌉

/-- The default lmax of profile2harm. See curvedsky.py:510. -/
noncomputable def profLmax (n : ℕ) (r : ℕ → ℝ) : ℤ := Int.fdiv (profNfull n r) 2 - 1

/-- `profile2harm(br, r, left=left, right=right)[l]` for `n` points, where `cc m` are the weights of ducc0 for `m` rings (get_gridweights("CC", m)). `none` is the exception for more rings than weights. See curvedsky.py:495-523. -/
noncomputable def profile2harm (cc : ℤ → ℕ → ℝ) (n : ℕ) (br r : ℕ → ℝ) (left right : Option ℝ) (l : ℕ) : Option ℝ :=
  let nfull := profNfull n r
  let dr := π / ((nfull : ℝ) - 1)
  let ncut := profNcut n r
  if nfull < ncut then none else
  some ((∑ i ∈ Finset.range ncut.toNat, npInterp n r br left right (i * dr) * cc nfull i * ylm0 l (i * dr)) * sqrt (4 * π / (2 * l + 1)))

/-- `harm2profile(bl, r)` at radius `r`, for `nl` values. See curvedsky.py:525-538. -/
noncomputable def harm2profile (nl : ℕ) (bl : ℕ → ℝ) (r : ℝ) : ℝ :=
  ∑ l ∈ Finset.range nl, bl l * sqrt ((2 * l + 1) / (4 * π)) * ylm0 l r

end Pixell
