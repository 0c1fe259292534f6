import Verif.Model.Reproject

/-
Rotating spherical harmonic coefficients (curvedsky.py:683-713) and the direction of a profile (curvedsky.py:544-567).  The
coefficients of one map are of any type; the library that rotates them (ducc0 or healpy) is a function of the three
angles.
-/
namespace Pixell

open Real

/-- euler_angs, curvedsky.py:683-685, with utils.degree. -/
noncomputable def eulerAngs (fromGal : Bool) : ℝ × ℝ × ℝ :=
  let g : ℝ × ℝ × ℝ := (57.06793215 * (π / 180), 62.87115487 * (π / 180), -167.14056929 * (π / 180))
  if fromGal then g else (-g.2.2, -g.2.1, -g.1)

/-- The method that is used, curvedsky.py:700: `have ducc0` and `have healpy` tell what can be imported. -/
def rotMethod (method : String) (haveDucc haveHealpy : Bool) : Option String :=
  let m := if method = "auto" then (if haveDucc then some "ducc0" else if haveHealpy then some "healpy" else none) else some method
  m.bind fun m => if m = "ducc0" ∨ m = "healpy" then some m else none

/-- rotate_alm, curvedsky.py:688-713, for coefficients `alm[I]` and the indices `inds` that nditer gives: the rotated
coefficients, and what is afterwards in the array that was passed. -/
noncomputable def rotateAlm {α : Type} (lib : String → ℝ × ℝ × ℝ → α → α) (inds : List (List Nat)) (alm : List Nat → α) (e : ℝ × ℝ × ℝ)
    (method : String) (haveDucc haveHealpy inplace : Bool) : Option ((List Nat → α) × (List Nat → α)) :=
  (rotMethod method haveDucc haveHealpy).map fun m =>
    let res := inds.foldl (fun (a : List Nat → α) I => fun J => if J = I then lib m e (a I) else a J) alm
    (res, if inplace then res else alm)

/-- The number of threads, curvedsky.py:702 (and 333, 364, 547, 1401): the environment variable, the argument or 0. -/
def rotThreads (env arg : Option Nat) : Nat := (env.or arg).getD 0

/-- The angles with which prof2alm turns a profile around the pole towards `dir` = (ra,dec), curvedsky.py:564. -/
noncomputable def profAngles (dir : ℝ × ℝ) : ℝ × ℝ × ℝ := (0, π / 2 - dir.2, dir.1)

end Pixell
