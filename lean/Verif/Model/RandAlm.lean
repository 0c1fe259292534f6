import Verif.Model.Alm
import Mathlib.Analysis.Real.Sqrt

/-
Random spherical harmonic coefficients: curvedsky.rand_alm, rand_alm_white, fill_gauss, prepare_ps and pad_spectrum
(pixell/curvedsky.py:38-81, 588-614). numpy's generator after seeding is a stream of real numbers from which standard_normal takes the next
ones. The matrix square root of the spectrum (enmap.multi_pow) is an argument; see C132 for it. A complex number is a pair.
-/
namespace Pixell

/-- The loop of curvedsky.fill_gauss, pixell/curvedsky.py:591-592: `used` numbers have been taken from the stream, and the loop is at i. -/
def fillLoop (draws : ℕ → ℝ) (size bsize : ℕ) : ℕ → ℕ → ℕ → List ℝ
  | 0, _, _ => []
  | fuel + 1, i, used =>
    if i < size then
      let n := min bsize (size - i)
      (List.range n).map (fun k => draws (used + k)) ++ fillLoop draws size bsize fuel (i + bsize) (used + n)
    else []

/-- curvedsky.fill_gauss, pixell/curvedsky.py:588-592, on `rows` rows of `nelem` complex numbers that follow each other in memory. -/
def fillGauss (draws : ℕ → ℝ) (bsize rows nelem : ℕ) : ℕ → ℕ → ℝ × ℝ :=
  let arr := fillLoop draws (2 * (rows * nelem)) bsize (2 * (rows * nelem)) 0 0
  fun c i => (arr.getD (2 * (c * nelem + i)) 0, arr.getD (2 * (c * nelem + i) + 1) 0)

/-- curvedsky.rand_alm_white, pixell/curvedsky.py:606-614; the block size is the default of fill_gauss. -/
def randAlmWhite (a : AlmInfo) (ncomp : ℕ) (mMajor : Bool) (draws : ℕ → ℝ) : ℕ → ℕ → ℝ × ℝ :=
  let alm := fillGauss draws 65536 ncomp a.nelem
  if mMajor then fun c => transposeAlm a (alm c) else alm

/-- curvedsky.pad_spectrum, pixell/curvedsky.py:38-42. -/
def padSpectrum (ps : List ℝ) (lmax : ℕ) : List ℝ := (List.range (lmax + 1)).map fun l => ps.getD l 0

/-- curvedsky.prepare_ps without ainfo, pixell/curvedsky.py:594-604, for one of the spectra: the spectrum and lmax. -/
def preparePs (ps : List ℝ) (lmax : Option ℕ) : List ℝ × ℕ :=
  let lmax := lmax.getD (ps.length - 1)
  if lmax > ps.length - 1 then (padSpectrum ps lmax, lmax) else (ps, lmax)

/-- curvedsky.rand_alm, pixell/curvedsky.py:68-81, after prepare_ps. `root r c` is the matrix square root of the spectrum, as a function of
l; `single` chooses the C function for single precision. In-place product, then the coefficients with m = 0. -/
noncomputable def randAlm (a : AlmInfo) (ncomp nl : ℕ) (root : ℕ → ℕ → List ℝ) (mMajor single : Bool) (draws : ℕ → ℝ) : ℕ → ℕ → ℝ × ℝ :=
  let white := randAlmWhite a ncomp mMajor draws
  let lmat : ℕ → ℕ → List ℝ := fun r c => (root r c).map (fun x => x / Real.sqrt 2)
  let visits := if single then lmatmulVisitsSp a (nl - 1) else lmatmulVisitsDp a (nl - 1)
  let alm := lmatmulRun a ncomp ncomp lmat id id visits (lzeroVisits a (nl - 1)) white
  fun r j => if j < a.lmax + 1 then ((alm r j).1 * Real.sqrt 2, 0) else alm r j

/-- curvedsky.rand_alm for a single spectrum in double precision, pixell/curvedsky.py:61-81; the root of a 1×1 matrix. -/
noncomputable def randAlmScalar (ps : List ℝ) (lmax : Option ℕ) (draws : ℕ → ℝ) : Option (AlmInfo × (ℕ → ℝ × ℝ)) :=
  let (wps, lmax) := preparePs ps lmax
  (almInfo (some lmax) none none 1 .tri).map fun a => (a, randAlm a 1 wps.length (fun _ _ => wps.map Real.sqrt) true false draws 0)

end Pixell
