import Verif.Model.FlatFourier
import Verif.Model.Index
import Mathlib.Analysis.SpecialFunctions.Log.Basic
import Mathlib.Algebra.Order.Floor.Ring
import Mathlib.LinearAlgebra.Matrix.NonsingularInverse

/-
pixell/analysis.py: matched filters for objects of known shape, on maps in the flat-sky mode of uharm.UHT, and the helper
functions of the object finders. Floating-point numbers are real and complex numbers. A map has ny·nx pixels; `A` is the
mean pixel area pixsize(), so that the area of the map is A·ny·nx (pixell/enmap.py:1049-1051), and `Om y x` is
pixsizemap, the area of each pixel. Profiles (beams, inverse noise spectra) are real functions of the wavenumber.
-/
namespace Pixell
open Complex

/-- A real map as a complex one. Used for uharm.py:96-98. -/
noncomputable def cplx (m : Nat → Nat → ℝ) : Nat → Nat → ℂ := fun y x => (m y x : ℂ)

/-- pixell/uharm.py:96-98 (UHT.map2harm, flat, spin 0). -/
noncomputable def uMap2harm (ny nx : Nat) (A : ℝ) (m : Nat → Nat → ℝ) : Nat → Nat → ℂ := enmapFft .phys false ny nx A (cplx m)

/-- pixell/uharm.py:101-103 (UHT.harm2map, flat, spin 0), with the real part taken. -/
noncomputable def uHarm2map (ny nx : Nat) (A : ℝ) (h : Nat → Nat → ℂ) : Nat → Nat → ℝ := fun y x => (enmapIfft .phys false ny nx A h y x).re

/-- pixell/uharm.py:108-110 (UHT.harm2map_adjoint, flat, spin 0). -/
noncomputable def uHarm2mapAdj (ny nx : Nat) (A : ℝ) (m : Nat → Nat → ℝ) : Nat → Nat → ℂ := enmapFft .phys true ny nx A (cplx m)

/-- pixell/uharm.py:113-115 (UHT.map2harm_adjoint, flat, spin 0); enmap.harm2map takes the real part. -/
noncomputable def uMap2harmAdj (ny nx : Nat) (A : ℝ) (h : Nat → Nat → ℂ) : Nat → Nat → ℝ := fun y x => (enmapIfft .phys true ny nx A h y x).re

/-- pixell/uharm.py:156-163 (UHT.hmul, flat) for one component: enmap.map_mul (pixell/enmap.py:1373-1379) multiplies. -/
noncomputable def uHmul (B : Nat → Nat → ℂ) (h : Nat → Nat → ℂ) : Nat → Nat → ℂ := fun y x => B y x * h y x

/-- pixell/uharm.py:185-189 (UHT.sum_hprof, flat) with nper = 1/fsky = 4π/area (pixell/uharm.py:65-66, 79). -/
noncomputable def uSumHprof (ny nx : Nat) (A : ℝ) (H : Nat → Nat → ℝ) : ℝ :=
  let area := A * (ny * nx)
  let fsky := area / (4 * Real.pi)
  let nper := 1 / fsky
  ∑ ky ∈ Finset.range ny, ∑ kx ∈ Finset.range nx, H ky kx * nper

/-- pixell/uharm.py:193-203 (UHT.hprof_rpow, flat). -/
noncomputable def uHprofRpow (ny nx : Nat) (A : ℝ) (B : Nat → Nat → ℝ) (pow : Nat) : Nat → Nat → ℂ :=
  let norm := Real.sqrt (A * (ny * nx))
  let map := uHarm2map ny nx A (fun ky kx => ((B ky kx / norm : ℝ) : ℂ))
  fun ky kx => uMap2harm ny nx A (fun y x => map y x ^ pow) ky kx * norm

/-- pixell/analysis.py:126-156 (matched_filter_constcov), rho. -/
noncomputable def constcovRho (ny nx : Nat) (A : ℝ) (Om : Nat → Nat → ℝ) (B iN : Nat → Nat → ℝ) (map : Nat → Nat → ℝ) : Nat → Nat → ℝ :=
  fun y x => uMap2harmAdj ny nx A (uHmul (fun ky kx => ((B ky kx * iN ky kx : ℝ) : ℂ)) (uMap2harm ny nx A map)) y x / Om y x

/-- pixell/analysis.py:155 (matched_filter_constcov), kappa, one number. -/
noncomputable def constcovKappa (ny nx : Nat) (A : ℝ) (B iN : Nat → Nat → ℝ) : ℝ :=
  uSumHprof ny nx A (fun ky kx => B ky kx ^ 2 * iN ky kx) / (4 * Real.pi)

/-- pixell/analysis.py:158-195 (matched_filter_white), rho. -/
noncomputable def whiteRho (ny nx : Nat) (A : ℝ) (Om : Nat → Nat → ℝ) (B ivar : Nat → Nat → ℝ) (map : Nat → Nat → ℝ) : Nat → Nat → ℝ :=
  fun y x => 1 / Om y x * uMap2harmAdj ny nx A (uHmul (cplx B) (uHarm2mapAdj ny nx A (fun y x => ivar y x * map y x))) y x

/-- pixell/analysis.py:191-194 (matched_filter_white), kappa, with the beam squared internally. -/
noncomputable def whiteKappa (ny nx : Nat) (A : ℝ) (Om : Nat → Nat → ℝ) (B ivar : Nat → Nat → ℝ) : Nat → Nat → ℝ :=
  fun y x => 1 / Om y x * uMap2harmAdj ny nx A (uHmul (uHprofRpow ny nx A B 2) (uHarm2mapAdj ny nx A ivar)) y x

/-- pixell/analysis.py:197-268 (matched_filter_constcorr_lowcorr), rho, without the optional transformations S and iS. -/
noncomputable def lowcorrRho (ny nx : Nat) (A : ℝ) (Om : Nat → Nat → ℝ) (B ivar iC : Nat → Nat → ℝ) (map : Nat → Nat → ℝ) : Nat → Nat → ℝ :=
  let V := fun y x => Real.sqrt (ivar y x)
  let a := uMap2harmAdj ny nx A (uHmul (cplx iC) (uMap2harm ny nx A (fun y x => V y x * map y x)))
  let b := uHarm2map ny nx A (uHmul (cplx B) (uHarm2mapAdj ny nx A (fun y x => V y x * a y x)))
  fun y x => b y x / Om y x

/-- pixell/analysis.py:254-257 (matched_filter_constcorr_lowcorr), kappa; the quadrature weights of a flat UHT are the
pixel areas (pixell/uharm.py:120-127). -/
noncomputable def lowcorrKappa (ny nx : Nat) (A : ℝ) (Om : Nat → Nat → ℝ) (B ivar iC : Nat → Nat → ℝ) : Nat → Nat → ℝ :=
  let w := uSumHprof ny nx A (fun ky kx => B ky kx ^ 2 * iC ky kx) / uSumHprof ny nx A (fun ky kx => B ky kx ^ 2)
  let k := uMap2harmAdj ny nx A (uHmul (uHprofRpow ny nx A B 2) (uHarm2mapAdj ny nx A (fun y x => ivar y x * Om y x * w)))
  fun y x => k y x / Om y x ^ 2

/-- pixell/analysis.py:259-265: kappa of a single pixel, by filtering a source of unit flux there. -/
noncomputable def lowcorrExact (ny nx : Nat) (A : ℝ) (Om : Nat → Nat → ℝ) (B ivar iC : Nat → Nat → ℝ) (py px : Nat) : ℝ :=
  let V := fun y x => Real.sqrt (ivar y x)
  let u : Nat → Nat → ℝ := fun y x => if y = py ∧ x = px then 1 else 0
  let s := uHarm2map ny nx A (uHmul (cplx B) (uMap2harm ny nx A (fun y x => u y x / Om y x)))
  let a := uMap2harmAdj ny nx A (uHmul (cplx iC) (uMap2harm ny nx A (fun y x => V y x * s y x)))
  let b := uHarm2map ny nx A (uHmul (cplx B) (uHarm2mapAdj ny nx A (fun y x => V y x * a y x)))
  b py px / Om py px

/-- pixell/analysis.py:259-266 (matched_filter_constcorr_lowcorr), kappa with high_acc=True. -/
noncomputable def lowcorrKappaAcc (ny nx : Nat) (A : ℝ) (Om : Nat → Nat → ℝ) (B ivar iC : Nat → Nat → ℝ) : Nat → Nat → ℝ :=
  let py := ny / 2
  let px := nx / 2
  let kappa := lowcorrKappa ny nx A Om B ivar iC
  let alpha := kappa py px / lowcorrExact ny nx A Om B ivar iC py px
  fun y x => kappa y x / alpha

/-- pixell/analysis.py:270-309 (matched_filter_constcorr_smoothivar), rho. -/
noncomputable def smoothRho (ny nx : Nat) (A : ℝ) (Om : Nat → Nat → ℝ) (B ivar iC : Nat → Nat → ℝ) (map : Nat → Nat → ℝ) : Nat → Nat → ℝ :=
  let V := fun y x => Real.sqrt (ivar y x)
  fun y x => 1 / Om y x * V y x *
    uMap2harmAdj ny nx A (uHmul (fun ky kx => ((B ky kx * iC ky kx : ℝ) : ℂ)) (uHarm2mapAdj ny nx A (fun y x => V y x * map y x))) y x

/-- pixell/analysis.py:308 (matched_filter_constcorr_smoothivar), kappa. -/
noncomputable def smoothKappa (ny nx : Nat) (A : ℝ) (Om : Nat → Nat → ℝ) (B ivar iC : Nat → Nat → ℝ) : Nat → Nat → ℝ :=
  fun y x => ivar y x * (uSumHprof ny nx A (fun ky kx => B ky kx ^ 2 * iC ky kx) / (4 * Real.pi)) * (1 / Om y x)

/-- pixell/analysis.py:311-357 (matched_filter_constcorr_dual), rho, without the optional transformations S and iS. -/
noncomputable def dualRho (ny nx : Nat) (A : ℝ) (Om : Nat → Nat → ℝ) (B ivar iC : Nat → Nat → ℝ) (map : Nat → Nat → ℝ) : Nat → Nat → ℝ :=
  let hC := fun ky kx => Real.sqrt (iC ky kx)
  let a := uHarm2map ny nx A (uHmul (cplx hC) (uMap2harm ny nx A map))
  let b := uHarm2map ny nx A (uHmul (cplx hC) (uMap2harm ny nx A (fun y x => ivar y x * a y x)))
  let c := uHarm2map ny nx A (uHmul (cplx B) (uMap2harm ny nx A b))
  fun y x => c y x * (Om y x)⁻¹

/-- pixell/analysis.py:356 (matched_filter_constcorr_dual), kappa. -/
noncomputable def dualKappa (ny nx : Nat) (A : ℝ) (Om : Nat → Nat → ℝ) (B ivar iC : Nat → Nat → ℝ) : Nat → Nat → ℝ :=
  let hC := fun ky kx => Real.sqrt (iC ky kx)
  let k := uMap2harmAdj ny nx A (uHmul (uHprofRpow ny nx A (fun ky kx => B ky kx * hC ky kx) 2)
    (uHarm2mapAdj ny nx A (fun y x => ivar y x * Om y x)))
  fun y x => k y x / Om y x ^ 2

/-! ### Several maps at once -/

/-- pixell/analysis.py:396-433 (NmatConstcov.matched_filter), rho, for `n` maps, with unit apodization and pixels of
equal area (so that the correction factors of get_flat_sky_correction, pixell/analysis.py:1062-1063, are 1). -/
noncomputable def nmatCovRho (n ny nx : Nat) (A : ℝ) (beam : Nat → Nat → Nat → ℝ) (iN : Nat → Nat → Nat → Nat → ℝ)
    (map : Nat → Nat → Nat → ℝ) : Nat → Nat → Nat → ℝ :=
  let pre := fun i ky kx => (∑ j ∈ Finset.range n, (iN i j ky kx : ℂ) * uMap2harm ny nx A (map j) ky kx) / (A : ℂ)
  fun i => uMap2harmAdj ny nx A (fun ky kx => (beam i ky kx : ℂ) * pre i ky kx)

/-- pixell/analysis.py:430 (NmatConstcov.matched_filter), kappa; 4π·fsky is the area of the map. -/
noncomputable def nmatCovKappa (ny nx : Nat) (A : ℝ) (beam : Nat → Nat → Nat → ℝ) (iN : Nat → Nat → Nat → Nat → ℝ) (i j : Nat) : ℝ :=
  let fsky := A * (ny * nx) / (4 * Real.pi)
  (∑ ky ∈ Finset.range ny, ∑ kx ∈ Finset.range nx, beam i ky kx * iN i j ky kx * beam j ky kx) / (4 * Real.pi * fsky)

/-- pixell/analysis.py:1077-1082 (rpow). -/
noncomputable def rpowMap (ny nx : Nat) (A : ℝ) (f : Nat → Nat → ℝ) (pow : Nat) : Nat → Nat → ℝ :=
  let norm := Real.sqrt (A * (ny * nx))
  let map := uHarm2map ny nx A (fun ky kx => ((f ky kx / norm : ℝ) : ℂ))
  fun ky kx => (uMap2harm ny nx A (fun y x => map y x ^ pow) ky kx).re * norm

/-- pixell/analysis.py:442-491 (NmatConstcorr.matched_filter), rho, with pixels of equal area. -/
noncomputable def nmatCorrRho (n ny nx : Nat) (A : ℝ) (beam : Nat → Nat → Nat → ℝ) (iN : Nat → Nat → Nat → Nat → ℝ)
    (ivar : Nat → Nat → Nat → ℝ) (map : Nat → Nat → Nat → ℝ) : Nat → Nat → Nat → ℝ :=
  let V := fun i y x => Real.sqrt (ivar i y x)
  let a := fun i => uHarm2map ny nx A (fun ky kx =>
    ∑ j ∈ Finset.range n, (iN i j ky kx : ℂ) * uMap2harm ny nx A (fun y x => V j y x * map j y x) ky kx)
  let pre := fun i ky kx => uMap2harm ny nx A (fun y x => V i y x * a i y x) ky kx / (A : ℂ)
  fun i => uHarm2map ny nx A (fun ky kx => (beam i ky kx : ℂ) * pre i ky kx)

/-- pixell/analysis.py:475, 486-488 (NmatConstcorr.matched_filter), kappa, with pixels of equal area. -/
noncomputable def nmatCorrKappa (ny nx : Nat) (A : ℝ) (beam : Nat → Nat → Nat → ℝ) (iN : Nat → Nat → Nat → Nat → ℝ)
    (ivar : Nat → Nat → Nat → ℝ) (i j : Nat) : Nat → Nat → ℝ :=
  let tot := fun H : Nat → Nat → ℝ => ∑ ky ∈ Finset.range ny, ∑ kx ∈ Finset.range nx, H ky kx
  let white := tot (fun ky kx => beam i ky kx * iN i j ky kx * beam j ky kx) / tot (fun ky kx => beam i ky kx * beam j ky kx)
  let k := fun i y x => Real.sqrt (max (uHarm2map ny nx A
    (fun ky kx => (rpowMap ny nx A (beam i) 2 ky kx : ℂ) * uMap2harm ny nx A (ivar i) ky kx) y x / A) 0)
  fun y x => k i y x * white * k j y x

/-! ### Helper functions of the object finders -/

/-- pixell/analysis.py:1046-1050 (sanitize_kappa) at the pixels 0..npix-1: kappa[i,j,p]. The maximum runs over the map. -/
noncomputable def sanitizeKappa (npix : Nat) (hp : 0 < npix) (tol : ℝ) (kappa : Nat → Nat → Nat → ℝ) : Nat → Nat → Nat → ℝ :=
  fun i j p =>
    if i = j then max (kappa i i p) ((Finset.range npix).sup' ⟨0, Finset.mem_range.2 hp⟩ (kappa i i) * tol)
    else kappa i j p

/-- pixell/analysis.py:1052-1060 (solve_mapsys) at one pixel: kappa.T holds the transposed matrix of each pixel, and
np.linalg.solve returns its inverse times rho; dflux is the square root of the diagonal of the inverse. -/
noncomputable def solveMapsys {n : Nat} (kappa : Matrix (Fin n) (Fin n) ℝ) (rho : Fin n → ℝ) : (Fin n → ℝ) × (Fin n → ℝ) :=
  ((kappa.transpose)⁻¹.mulVec rho, fun a => Real.sqrt (((kappa.transpose)⁻¹).transpose a a))

/-- The shapes np.linalg.solve(a,b) accepts, with a of shape (nx,ny,n,n) and b of shape (nx,ny,n), as used in
pixell/analysis.py:1058. From numpy 2.0 on, b is a stack of matrices unless it has one axis. The result is the shape. -/
def solveShape (numpy2 : Bool) (nx ny n : Nat) : Option (List Nat) :=
  if numpy2 then
    if ny ≠ n then none
    else if nx = ny ∨ nx = 1 then some [nx, ny, ny, n] else if ny = 1 then some [nx, nx, ny, n] else none
  else some [nx, ny, n]

/-- pixell/analysis.py:615-639 (FinderMulti.__call__): one step of the loop over the cases at one pixel, keeping the
signal-to-noise ratio, the case and the data of the best case so far. -/
noncomputable def bestStep {α : Type} (best : Option (ℝ × Nat × α)) (ca : Nat) (snr : ℝ) (dat : α) : Option (ℝ × Nat × α) :=
  match best with
  | none => some (snr, ca, dat)
  | some (s, c, d) => if snr > s then some (snr, ca, dat) else some (s, c, d)

/-- pixell/analysis.py:608-639 (FinderMulti.__call__): the loop over the cases, starting with number `ca`. -/
noncomputable def bestCases {α : Type} : Nat → List (ℝ × α) → Option (ℝ × Nat × α) → Option (ℝ × Nat × α)
  | _, [], best => best
  | ca, (snr, dat) :: rest, best => bestCases (ca + 1) rest (bestStep best ca snr dat)

/-- pixell/analysis.py:1104-1106 (snr_split): the integer level of each value. `none` if there are no values (np.max
raises). -/
noncomputable def snrLevels (snrs : List ℝ) (sntol snmin : ℝ) : Option (List ℤ) :=
  let v := snrs.map fun s => Real.log (max |s| snmin) / Real.log (1 / sntol)
  match v.max? with
  | none => none
  | some m => some (v.map fun x => ⌊x - (m + 1 / 10 ^ 9)⌋)

/-- pixell/analysis.py:1097-1107 (snr_split); `argsort` is the order returned by the sort in find_equal_groups. -/
noncomputable def snrSplit (argsort : List ℤ → List Nat) (snrs : List ℝ) (sntol snmin : ℝ) : Option (List (List Nat)) :=
  (snrLevels snrs sntol snmin).map fun v => (findEqualGroups (v.map fun x : ℤ => [(x : ℚ)]) (argsort v)).reverse

end Pixell
