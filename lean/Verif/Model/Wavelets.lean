import Mathlib.Analysis.SpecialFunctions.Pow.Real
import Mathlib.Analysis.SpecialFunctions.Trigonometric.Basic
import Mathlib.Data.List.Sort
import Verif.Model.Alm

/-
pixell/wavelets.py: wavelet bases and the curved-sky wavelet transform. Floating-point numbers are real numbers. The
spherical harmonic transforms of the individual wavelet maps are parameters.
-/
namespace Pixell

/-- `np.round` on reals: nearest integer, ties to even. Used for wavelets.py:41-46. -/
noncomputable def rintR (x : ℝ) : ℤ :=
  let f := ⌊x⌋
  if x - f < 1/2 then f
  else if 1/2 < x - f then f + 1
  else if f % 2 = 0 then f else f + 1

/-- pixell/wavelets.py:39-40 (Butterworth.kernel): 1/(1 + (l/(lmin*step**(i+0.5)))**(shape/np.log(step))). -/
noncomputable def butterKernel (step shape lmin : ℝ) (i : Nat) (l : ℝ) : ℝ :=
  1 / (1 + (l / (lmin * step ^ ((i : ℝ) + 0.5))) ^ (shape / Real.log step))

/-- pixell/wavelets.py:455 (trim_kernel): np.clip(a*(1+2*tol)-tol,0,1). -/
noncomputable def trimKernel (a tol : ℝ) : ℝ := min (max (a * (1 + 2 * tol) - tol) 0) 1

/-- pixell/wavelets.py:68-69 (ButterTrim.kernel), and :95-96 (DigitalButterTrim.kernel). -/
noncomputable def trimmedKernel (step shape trim lmin : ℝ) (i : Nat) (l : ℝ) : ℝ :=
  trimKernel (butterKernel step shape lmin i l) trim

/-- pixell/wavelets.py:33-35 and :62-64 (`__call__`) before the square root: 1 or kernel(i), minus kernel(i-1). -/
noncomputable def bandProfile (kern : Nat → ℝ → ℝ) (n i : Nat) (l : ℝ) : ℝ :=
  let profile := if i + 1 = n then 1 else kern i l
  if 0 < i then profile - kern (i - 1) l else profile

/-- pixell/wavelets.py:32-36 and :61-65 (`__call__`). (numpy gives nan for a negative profile, the model 0; the
theorems show that the profile is not negative.) -/
noncomputable def bandFilter (kern : Nat → ℝ → ℝ) (n i : Nat) (l : ℝ) : ℝ := Real.sqrt (bandProfile kern n i l)

/-- pixell/wavelets.py:42, :71, :98: self.n = int((np.log(lmax)-np.log(lmin))/np.log(step)). (For a negative quotient
numpy's n may be negative; np.arange(n) is then empty as for n = 0.) -/
noncomputable def waveLevels (step lmin lmax : ℝ) : Nat := ⌊(Real.log lmax - Real.log lmin) / Real.log step⌋₊

/-- pixell/wavelets.py:45 (Butterworth._finalize), before rounding, for one level. -/
noncomputable def butterCut (step shape tol lmin : ℝ) (i : Nat) : ℝ :=
  lmin * (1 / tol - 1) ^ (Real.log step / shape) * step ^ ((i : ℝ) + 0.5)

/-- pixell/wavelets.py:74 (ButterTrim._finalize), before rounding, for one level. -/
noncomputable def trimCut (step shape trim lmin : ℝ) (i : Nat) : ℝ :=
  lmin * ((1 + 2 * trim) / trim - 1) ^ (Real.log step / shape) * step ^ ((i : ℝ) + 0.5)

/-- lmaxs[-1] = lmax: raises for an empty array (`none`), else replaces the last element. Used for wavelets.py:41-46. -/
def setLast (a : List ℤ) (v : ℤ) : Option (List ℤ) := if a = [] then none else some (a.dropLast ++ [v])

/-- pixell/wavelets.py:41-46 (Butterworth._finalize): the array lmaxs. -/
noncomputable def butterLmaxs (step shape tol lmin : ℝ) (lmax : Nat) : Option (List ℤ) :=
  setLast ((List.range (waveLevels step lmin lmax)).map fun i => rintR (butterCut step shape tol lmin i)) lmax

/-- pixell/wavelets.py:70-75 (ButterTrim._finalize) and :97-102 (DigitalButterTrim._finalize): the array lmaxs. -/
noncomputable def trimLmaxs (step shape trim lmin : ℝ) (lmax : Nat) : Option (List ℤ) :=
  setLast ((List.range (waveLevels step lmin lmax)).map fun i => ⌈trimCut step shape trim lmin i⌉) lmax

/-- pixell/wavelets.py:457-461 (digitize), element k: 1 for k = 0, else whether np.round(np.cumsum(a)) changes. -/
noncomputable def digitize (a : Nat → ℝ) (k : Nat) : Nat :=
  if k = 0 then 1
  else if rintR (((List.range (k + 1)).map a).sum) ≠ rintR (((List.range k).map a).sum) then 1 else 0

/-- pixell/wavelets.py:105-106, column l: np.sort(kernels,0) of [0, digitize(kernel(i))..., 1]. -/
noncomputable def digitalColumn (kern : Nat → ℝ → ℝ) (n l : Nat) : List Nat :=
  ([0] ++ ((List.range (n - 1)).map fun i => digitize (fun k => kern i k) l) ++ [1]).insertionSort (· ≤ ·)

/-- pixell/wavelets.py:91-92 (DigitalButterTrim.__call__) with :103-107: profiles[i] = kernels[i+1]-kernels[i] for
l < lmax, read at an integer multipole by nearest-neighbour interpolation with border "nearest" (utils.py:536-585). -/
noncomputable def digitalFilter (kern : Nat → ℝ → ℝ) (n lmax i l : Nat) : ℤ :=
  let col := digitalColumn kern n (min l (lmax - 1))
  (col.getD (i + 1) 0 : ℤ) - (col.getD i 0 : ℤ)

/-- pixell/wavelets.py:145-156 (CosineNeedlet.__call__) at one multipole. -/
noncomputable def needletFilter (lpeaks : List ℝ) (i : Nat) (l : ℝ) : ℝ :=
  let p := fun j => lpeaks.getD j 0
  let out : ℝ := 0
  let out := if 0 < i ∧ p (i - 1) ≤ l ∧ l < p i then Real.cos (Real.pi * (p i - l) / (p i - p (i - 1)) / 2) else out
  if i + 1 < lpeaks.length ∧ p i ≤ l ∧ l < p (i + 1) then Real.cos (Real.pi * (l - p i) / (p (i + 1) - p i) / 2) else out

/-- pixell/wavelets.py:139 (CosineNeedlet.lmaxs): np.append(lpeaks[1:], lpeaks[-1]). -/
def needletLmaxs (lpeaks : List ℝ) : List ℝ := lpeaks.drop 1 ++ [lpeaks.getD (lpeaks.length - 1) 0]

section Transform
variable {V M : Type} [AddCommGroup V] [Module ℝ V]

/-- What WaveletTransform holds for one wavelet scale in curved mode: the layout alm_info(lmax=lmaxs[i]), the filter
(an array over uht.l), its norm, and the two transforms between coefficients and the map of this scale. The visiting
order of the OpenMP loop in lmul is arbitrary. Used for wavelets.py:350-353. -/
structure WaveScale (V M : Type) where
  info : AlmInfo
  filter : List ℝ
  norm : ℝ
  synth : (Nat → V) → M
  analyse : M → Nat → V
  visits : List (Nat × Nat)

/-- pixell/wavelets.py:350-353 (map2wave, curved): the wavelet map of one scale. transfer_alm without oalm starts
from zeros and overwrites. -/
noncomputable def map2waveScale (ainfo : AlmInfo) (alm : Nat → V) (s : WaveScale V M) : M :=
  let asmall := transferAlm ainfo s.info alm (fun _ => 0) (fun _ b => b)
  s.synth (lmulRun s.info (s.filter.map fun f => f / s.norm) s.visits asmall)

/-- pixell/wavelets.py:344-357 (map2wave, curved, all scales), after the analysis of the input map. -/
noncomputable def map2wave (ainfo : AlmInfo) (scales : List (WaveScale V M)) (alm : Nat → V) : List M :=
  scales.map (map2waveScale ainfo alm)

/-- pixell/wavelets.py:377-380 (wave2map, curved), loop body. -/
noncomputable def wave2mapStep (ainfo : AlmInfo) (oalm : Nat → V) (sw : WaveScale V M × M) : Nat → V :=
  let asmall := sw.1.analyse sw.2
  let asmall := lmulRun sw.1.info (sw.1.filter.map fun f => f * sw.1.norm) sw.1.visits asmall
  transferAlm sw.1.info ainfo asmall oalm (· + ·)

/-- pixell/wavelets.py:374-380 (wave2map, curved), before the synthesis of the output map. -/
noncomputable def wave2map (ainfo : AlmInfo) (scales : List (WaveScale V M)) (wave : List M) : Nat → V :=
  (scales.zip wave).foldl (wave2mapStep ainfo) (fun _ => 0)

end Transform

end Pixell
