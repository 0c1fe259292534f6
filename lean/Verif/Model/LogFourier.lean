import Mathlib.Analysis.SpecialFunctions.Pow.Real
import Mathlib.Analysis.SpecialFunctions.Trigonometric.Basic
import Mathlib.Analysis.SpecialFunctions.Sqrt

/-
pixell/utils.py:2923-3086: transforms of radial profiles and of functions sampled at logarithmic steps. Real numbers. The
library functions scipy.fft.fht and ifht are arguments: operators on sampled functions.
-/
namespace Pixell
open Real

/-- The settings of pixell/utils.py:2955-2963: the range of multipoles, the number of points and the padding. -/
structure Rft where
  l1 : ℝ
  l2 : ℝ
  n : ℕ
  pad : ℕ

/-- pixell/utils.py:2955-2956: the range of multipoles from the arguments lrange and rrange. -/
noncomputable def rftRange (lrange rrange : Option (ℝ × ℝ)) : ℝ × ℝ :=
  match lrange, rrange with
  | some l, _ => l
  | none, some r => (1 / r.2, 1 / r.1)
  | none, none => (1 / 10, 10 ^ 7)

/-- pixell/utils.py:2957-2959: dlog. -/
noncomputable def Rft.dlog (s : Rft) : ℝ := (log s.l2 - log s.l1) / s.n

/-- The number of points with the padding. Used for utils.py:2961. -/
def Rft.size (s : Rft) : ℕ := s.n + 2 * s.pad

/-- pixell/utils.py:2957-2961: self.l[i]. -/
noncomputable def Rft.l (s : Rft) (i : ℕ) : ℝ :=
  let logl0 := (log s.l2 + log s.l1) / 2
  let i0 := ((s.n : ℝ) + 1) / 2 + s.pad
  exp (logl0 + (((i : ℝ) + 1) - i0) * s.dlog)

/-- pixell/utils.py:2962: self.r[j]. -/
noncomputable def Rft.r (s : Rft) (j : ℕ) : ℝ := 1 / s.l (s.size - 1 - j)

/-- pixell/utils.py:2964-2979 (real2harm), for a sampled profile. `fht dln mu` is scipy.fft.fht. -/
noncomputable def Rft.real2harm (s : Rft) (fht : ℝ → ℝ → (ℕ → ℝ) → ℕ → ℝ) (a : ℕ → ℝ) (i : ℕ) : ℝ :=
  2 * π * fht s.dlog 0 (fun j => a j * s.r j) i / s.l i

/-- pixell/utils.py:2980-2995 (harm2real). `ifht dln mu` is scipy.fft.ifht. -/
noncomputable def Rft.harm2real (s : Rft) (ifht : ℝ → ℝ → (ℕ → ℝ) → ℕ → ℝ) (a : ℕ → ℝ) (j : ℕ) : ℝ :=
  ifht s.dlog 0 (fun i => a i / (2 * π) * s.l i) j / s.r j

/-- pixell/utils.py:2996-3005 (unpad), one array: arr[pad:-pad]. -/
def Rft.unpad {α : Type} (s : Rft) (a : List α) : List α :=
  if s.pad = 0 then a else (a.take (a.length - s.pad)).drop s.pad

/-- pixell/utils.py:3006 (lind). -/
noncomputable def Rft.lind (s : Rft) (l : ℝ) : ℝ := (log l - log (s.l 0)) / s.dlog

/-- pixell/utils.py:3007 (rind). -/
noncomputable def Rft.rind (s : Rft) (r : ℝ) : ℝ := (log r - log (s.r 0)) / s.dlog

/-- The settings of pixell/utils.py:3038-3055 after xrange is chosen. -/
structure LogFft where
  x1 : ℝ
  x2 : ℝ
  n : ℕ
  pad : ℕ
  bias : ℝ

/-- pixell/utils.py:3038-3040: the range xrange from the arguments. `none`: ValueError. -/
def logFftRange (xrange krange : Option (ℝ × ℝ)) : Option (ℝ × ℝ) :=
  match xrange, krange with
  | none, none => none
  | some _, some _ => none
  | some x, none => some x
  | none, some k => some (k.2, k.1)

/-- pixell/utils.py:3041: step. -/
noncomputable def LogFft.step (s : LogFft) : ℝ := (log s.x2 - log s.x1) / ((s.n : ℝ) - 1)

/-- The number of points with the padding. Used for utils.py:3045. -/
def LogFft.size (s : LogFft) : ℕ := s.n + 2 * s.pad

/-- pixell/utils.py:3045: self.x[i], the exponential of np.linspace. -/
noncomputable def LogFft.x (s : LogFft) (i : ℕ) : ℝ :=
  let a := log s.x1 - s.step * s.pad
  let b := log s.x2 + s.step * s.pad
  exp (a + i * ((b - a) / ((s.size : ℝ) - 1)))

/-- pixell/utils.py:3046: self.k[j]. -/
noncomputable def LogFft.k (s : LogFft) (j : ℕ) : ℝ := 1 / s.x (s.size - 1 - j)

/-- pixell/utils.py:3047: self.xh. -/
noncomputable def LogFft.xh (s : LogFft) (i : ℕ) : ℝ := s.x i ^ (1 / 2 - s.bias)

/-- pixell/utils.py:3048-3051: self.kh. -/
noncomputable def LogFft.kh (s : LogFft) (j : ℕ) : ℝ := s.k j ^ (1 / 2 + s.bias) / (π / 2) ^ (1 / 2 : ℝ)

/-- pixell/utils.py:3053-3065 (fft) of a real array: the real and the imaginary part. `fht dln mu bias` is
scipy.fft.fht. -/
noncomputable def LogFft.fft (s : LogFft) (fht : ℝ → ℝ → ℝ → (ℕ → ℝ) → ℕ → ℝ) (a : ℕ → ℝ) (j : ℕ) : ℝ × ℝ :=
  let xa : ℕ → ℝ := fun i => a i * s.xh i
  let c := fht s.step (-1 / 2) s.bias xa j / s.kh j
  let d := fht s.step (1 / 2) s.bias xa j / s.kh j
  (c, -d)

/-- pixell/utils.py:3066-3076 (ifft). `ifht dln mu bias` is scipy.fft.ifht. -/
noncomputable def LogFft.ifft (s : LogFft) (ifht : ℝ → ℝ → ℝ → (ℕ → ℝ) → ℕ → ℝ) (fa : ℕ → ℝ × ℝ) (i : ℕ) : ℝ :=
  ifht s.step (-1 / 2) s.bias (fun j => (fa j).1 * (s.kh j / 2)) i / s.xh i +
    ifht s.step (1 / 2) s.bias (fun j => -((fa j).2 * (s.kh j / 2))) i / s.xh i

end Pixell
