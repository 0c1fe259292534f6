import Verif.Model.SpecIO
import Verif.Model.Aberration
import Verif.Model.Number
import Verif.Model.FlatFourier
import Mathlib.LinearAlgebra.Matrix.NonsingularInverse
import Mathlib.Analysis.SpecialFunctions.Pow.Real

/-
pixell/utils.py: sampled function bases, decomposition in a basis, matrices of operators, beam profiles from their transforms,
spectra in flux units, dice and the period of a signal. Floating-point numbers are real (or, for dice, rational) numbers.
-/
namespace Pixell
open Real

/-- pixell/utils.py:2750 (build_legendre): `(x-vmin)*(2.0/(vmax-vmin))-1`; `none` is NaN (0*inf when all samples are equal). -/
noncomputable def legRescale (vmin vmax x : ℝ) : Option ℝ :=
  if vmax = vmin then none else some ((x - vmin) * (2 / (vmax - vmin)) - 1)

/-- One round of the loop of build_legendre, utils.py:2754-2755, for one sample; `none` entries are NaN. -/
noncomputable def legStep (x : Option ℝ) (res : ℕ → Option ℝ) (i : ℕ) : ℕ → Option ℝ :=
  Function.update res (i + 1)
    (x.bind fun x => (res i).bind fun a => (res (i - 1)).map fun b => ((2 * i + 1) * x * a - i * b) / (i + 1))

/-- pixell/utils.py:2747-2756 (build_legendre): the column of one sample of the values `xs`. The smallest and largest value are
those of utils.minmax, which fails without samples. -/
noncomputable def buildLegendre (xs : List ℝ) (nmax : ℕ) (k : ℕ) : Option (List (Option ℝ)) := do
  let vmin ← xs.min?
  let vmax ← xs.max?
  let x0 ← xs[k]?
  let x := legRescale vmin vmax x0
  let res : ℕ → Option ℝ := fun _ => some 0
  let res := if 0 < nmax then Function.update res 0 (some 1) else res
  let res := if 1 < nmax then Function.update res 1 x else res
  let res := (List.range' 1 (nmax - 2)).foldl (legStep x) res
  some ((List.range nmax).map res)

/-- One round of the loop of build_cossin, utils.py:2765-2767; `cast` stores a value in the array. -/
noncomputable def cossinStep (cast : ℝ → ℝ) (res : ℕ → ℝ) (i : ℕ) : ℕ → ℝ :=
  let res := if i % 2 = 0 then Function.update res i (cast (res (i - 2) * res 1 + res (i - 1) * res 0)) else res
  if i % 2 = 1 then Function.update res i (cast (res (i - 2) * res 1 - res (i - 3) * res 0)) else res

/-- pixell/utils.py:2758-2768 (build_cossin): the column of one sample. The array has the type of x: `cast` is the identity for
an array of floats and `truncR` for an array of integers. -/
noncomputable def buildCossin (cast : ℝ → ℝ) (x : ℝ) (nmax : ℕ) : List ℝ :=
  let res : ℕ → ℝ := fun _ => 0
  let res := if 0 < nmax then Function.update res 0 (cast (sin x)) else res
  let res := if 1 < nmax then Function.update res 1 (cast (cos x)) else res
  let res := if 2 < nmax then Function.update res 2 (cast (2 * res 0 * res 1)) else res
  let res := if 3 < nmax then Function.update res 3 (cast (res 1 ^ 2 - res 0 ^ 2)) else res
  let res := (List.range' 3 (nmax - 3)).foldl (cossinStep cast) res
  (List.range nmax).map res

/-- Storing a float in an integer array drops the fraction. Used for utils.py:2760-2767. -/
noncomputable def truncR (x : ℝ) : ℝ := if 0 ≤ x then ⌊x⌋ else ⌈x⌉

/-- pixell/utils.py:2770-2775 (uvec). -/
def uvec (n : ℕ) (i : ℕ) : Option (Fin n → ℝ) := if i < n then some fun j => if j.1 = i then 1 else 0 else none

/-- pixell/utils.py:2777-2787 (ubash): the matrix, `none` when the first unit vector cannot be made. -/
def ubash {n m : ℕ} (A : (Fin n → ℝ) → Fin m → ℝ) : Option (Matrix (Fin m) (Fin n) ℝ) := do
  let u0 ← uvec n 0
  let v := A u0
  let amat : Matrix (Fin m) (Fin n) ℝ := fun r c => if c.1 = 0 then v r else 0
  (List.range' 1 (n - 1)).foldlM (fun M i => do
    let u ← uvec n i
    let w := A u
    some fun r c => if c.1 = i then w r else M r c) amat

/-- pixell/utils.py:813-814 (decomp_basis), one vector: np.linalg.solve(basis.dot(basis.T), basis.dot(vec)). -/
noncomputable def decompBasis {k n : ℕ} (basis : Matrix (Fin k) (Fin n) ℝ) (vec : Fin n → ℝ) : Option (Fin k → ℝ) :=
  let G := basis * basis.transpose
  if G.det = 0 then none else some (G⁻¹.mulVec (basis.mulVec vec))

/-- pixell/utils.py:2910-2919 (tform_to_profile); legval(x,a) is the sum of a[l] P_l(x), and `none` is a division by zero. -/
noncomputable def tformToProfile (nl : ℕ) (bl : ℕ → ℝ) (theta : ℝ) (normalize : Bool) : Option ℝ :=
  let x := cos theta
  let a := fun l : ℕ => bl l * (2 * l + 1) / (4 * π)
  let profile := ∑ l ∈ Finset.range nl, a l * legendreP l x
  if normalize then
    let tot := ∑ l ∈ Finset.range nl, a l
    if tot = 0 then none else some (profile / tot)
  else some profile

/-- pixell/utils.py:2338-2340 (graybody). -/
noncomputable def graybody (u : PlanckConst) (f T beta : ℝ) : ℝ :=
  2 * u.h * f ^ (3 + beta) / u.c ^ 2 / (exp (u.h * f / (u.k * T)) - 1) * 10 ^ 26

/-- pixell/utils.py:2342-2348 (tsz_spectrum). -/
noncomputable def tszSpectrum (u : PlanckConst) (f T : ℝ) : ℝ :=
  let x := u.h * f / (u.k * T)
  let ex := exp x
  2 * u.h * f ^ 3 / u.c ^ 2 * (x * ex) / (ex - 1) ^ 2 * (x * (ex + 1) / (ex - 1) - 4) * 10 ^ 26

/-- pixell/utils.py:2352-2361 (flux_factor). -/
noncomputable def fluxFactor (u : PlanckConst) (beamArea freq T0 : ℝ) : ℝ := dplanck u freq T0 * beamArea

/-- pixell/utils.py:2363-2372 (noise_flux_factor). -/
noncomputable def noiseFluxFactor (u : PlanckConst) (beamArea freq T0 : ℝ) : ℝ :=
  let squaredBeamArea := beamArea / 2
  dplanck u freq T0 * beamArea / squaredBeamArea ^ (1 / 2 : ℝ)

/-- pixell/utils.py:3608-3612 (dicedist); `none` is the division by zero of a die without faces. -/
def dicedist (N D : ℕ) : Option (List ℚ) :=
  if D = 0 then none else distpow N (0 :: List.replicate D (1 / (D : ℚ))) N

/-- np.argmax of the first `n` values: the first index of the largest. Used for utils.py:838. -/
noncomputable def firstArgmax (p : ℕ → ℝ) : ℕ → ℕ
  | 0 => 0
  | n + 1 => if p (firstArgmax p n) < p n ∧ 0 < n then n else firstArgmax p n

/-- The loop of find_period_fourier over one power spectrum of `nf` values, utils.py:837-843; `none` is the division by zero,
or the product of arrays of different lengths if `p[r[0]:r[1]]` ends before `r[1]` (utils.py:842). -/
noncomputable def powerPeriod (N nf : ℕ) (ps : ℕ → ℝ) : Option ℝ :=
  let n := firstArgmax ps nf
  let r0 := n / 2
  let r1 := 3 * n / 2 + 1
  if nf < r1 then none else
  let sel := (List.range nf).filter fun k => r0 ≤ k ∧ k < r1
  let denom := (sel.map ps).sum
  let denom := if denom ≤ 0 then 1 else denom
  let n2 := (sel.map fun k : ℕ => (k : ℝ) * ps k).sum / denom
  if n2 = 0 then none else some (N / n2)

/-- pixell/utils.py:827-844 (find_period_fourier), one signal of `N` samples. -/
noncomputable def findPeriodFourier (N : ℕ) (d : ℕ → ℝ) : Option ℝ :=
  let fd := dftRaw N fun j => (d j : ℂ)
  powerPeriod N (N / 2 + 1) fun k => if k = 0 then 0 else ‖fd k‖ ^ 2

end Pixell
