import Verif.Model.Interpol
import Verif.Model.MapOps
import Verif.Model.Aberration
import Verif.Model.RandAlm

/-
pixell/lensing.py: lensing and delensing of flat maps, the declination bands and the components of lens_map_curved, and the
random coefficients with separate seeds. Floating-point numbers are exact. Interpolation is a parameter where nothing about it
is needed, and `mapCoords` (interpol.map_coordinates without prefilter) where it is.
-/
namespace Pixell

section Flat

variable {X P V : Type} [AddCommGroup P]

/-- pixell/lensing.py:8-24 (lens_map, with displace_map 59-70): every pixel x gets the value of the interpolated map
`ip m` at its displaced position. `ip` takes sky positions: it contains sky2pix. -/
def lensMap (ip : (X → V) → P → V) (pos : X → P) (m : X → V) (g : X → P) : X → V := fun x => ip m (pos x + g x)

/-- pixell/lensing.py:50-57 (delens_grad): the loop with nstep rounds. -/
def delensGrad (ip : (X → P) → P → P) (pos : X → P) (g : X → P) : ℕ → X → P
  | 0 => g
  | n + 1 => lensMap ip pos g fun x => -delensGrad ip pos g n x

/-- pixell/lensing.py:39-48 (delens_map). -/
def delensMap (ipm : (X → V) → P → V) (ipg : (X → P) → P → P) (pos : X → P) (m : X → V) (g : X → P) (nstep : ℕ) : X → V :=
  lensMap ipm pos m fun x => -delensGrad ipg pos g nstep x

end Flat

section Grid

variable {K : Type} [Field K] [LinearOrder K] [IsStrictOrderedRing K] [FloorRing K]

/-- A flat (ny,nx) map with the coordinates of its first pixel and the size of its pixels. Used for lensing.py:20-21. -/
structure FlatGrid (K : Type) where
  ny : ℕ
  nx : ℕ
  y0 : K
  dy : K
  x0 : K
  dx : K

/-- The position of a pixel (posmap), pixell/lensing.py:20. -/
def FlatGrid.pos (f : FlatGrid K) (p : ℕ × ℕ) : K × K := (f.y0 + f.dy * p.1, f.x0 + f.dx * p.2)

/-- The pixel coordinates (y,x) of a position (sky2pix), pixell/lensing.py:21. -/
def FlatGrid.pix (f : FlatGrid K) (s : K × K) : K × K := ((s.1 - f.y0) / f.dy, (s.2 - f.x0) / f.dx)

/-- pixell/lensing.py:21, 66-67: the map interpolated at a position, with the kernels that need no prefilter. -/
def FlatGrid.at (f : FlatGrid K) (t : Kernel) (order : ℕ) (b : Border) (m : ℕ × ℕ → K) (s : K × K) : K :=
  mapCoords t order b [f.nx, f.ny] (fun i => m (i / f.nx, i % f.nx)) [(f.pix s).2, (f.pix s).1]

/-- The same for the two components of a displacement, pixell/lensing.py:56. -/
def FlatGrid.at2 (f : FlatGrid K) (t : Kernel) (order : ℕ) (b : Border) (m : ℕ × ℕ → K × K) (s : K × K) : K × K :=
  (f.at t order b (fun p => (m p).1) s, f.at t order b (fun p => (m p).2) s)

/-- The pixels of a map in order. Used for lensing.py:69. -/
def FlatGrid.pixels (f : FlatGrid K) : List (ℕ × ℕ) := (List.range (f.ny * f.nx)).map fun i => (i / f.nx, i % f.nx)

/-- The samples of interpol.map_coordinates: for each pixel the axes at its displaced position and its value, pixell/lensing.py:69. -/
def FlatGrid.samples (f : FlatGrid K) (t : Kernel) (order : ℕ) (w : ℕ × ℕ → K) (g : ℕ × ℕ → K × K) : List (List (CtxAxis K) × K) :=
  f.pixels.map fun p =>
    let q := f.pix (f.pos p + g p)
    (ctxAxes t order [f.nx, f.ny] [q.2, q.1], w p)

/-- pixell/lensing.py:66-69 (displace_map with trans=True) as called by lens_map(trans=True), for one order of the updates. The
copy of the map passed as output is set to zero first (interpol.F90:458). -/
def FlatGrid.lensTrans (f : FlatGrid K) (updates : List (ℕ × K)) : ℕ × ℕ → K :=
  fun p => interpolTrans updates (p.1 * f.nx + p.2)

end Grid

/-! ## lens_map_flat -/

/-- utils._ip_get_mode (utils.py:661-668). -/
def ipGetMode (mode : String) (order : ℕ) : Option (String × ℕ) :=
  let r := if mode = "nn" ∨ mode = "nearest" then ("spline", 0)
    else if mode = "lin" ∨ mode = "linear" then ("spline", 1)
    else if mode = "cub" ∨ mode = "cubic" then ("spline", 3)
    else if mode = "fft" ∨ mode = "nufft" ∨ mode = "fourier" then ("fourier", order)
    else (mode, order)
  if r.1 = "spline" ∨ r.1 = "fourier" then some r else none

/-- pixell/lensing.py:78: how many pixels lens_map_flat adds at each side, from the positions (in pixels) along each axis with its
length. -/
def flatPad (raw : List (ℕ × List ℚ)) : ℤ :=
  let all : List ℚ := raw.flatMap fun (a : ℕ × List ℚ) => a.2.flatMap fun (r : ℚ) => [-r, r - (a.1 : ℚ)]
  ⌈all.foldl max (all.headD 0)⌉

/-- pixell/lensing.py:74-80 (lens_map_flat) from the positions in pixels: pad each axis (rows, then columns), then call
utils.interpol with mode "wrap". `ip` is the interpolation for a valid mode. -/
def lensMapFlat (m : List (List ℚ)) (rawY rawX : List ℚ)
    (ip : String × ℕ → List (List ℚ) → List (ℚ × ℚ) → List ℚ) : Option (List ℚ) := do
  let ny := m.length
  let nx := (m.headD []).length
  let npad := flatPad [(ny, rawY), (nx, rawX)]
  let rows ← padWrap m npad.toNat npad.toNat (List.replicate nx 0)
  let pmap ← rows.mapM fun r => padWrap r npad.toNat npad.toNat 0
  let mode ← ipGetMode "wrap" 4
  some (ip mode pmap ((rawY.zip rawX).map fun p => (p.1 + npad, p.2 + npad)))

/-! ## lens_map_curved -/

/-- pixell/lensing.py:189-195: the number of rows of the bands. `none` inside is delta_theta=None, otherwise |delta_theta| in
pixels. (utils.nint gives a numpy integer, with which a division by zero gives zero and a warning.) -/
def bandSize (ny : ℕ) (delta : Option ℚ) : ℕ :=
  match delta with
  | none => ny
  | some r =>
    let bsize := rint |r|
    let nblock := if bsize = 0 then 0 else Int.fdiv ny bsize
    (intTrunc ((ny : ℚ) / (nblock + 1 / 2))).toNat

/-- range(0,ny,bsize) with the ends min(i1+bsize,ny), pixell/lensing.py:208-209; the counter bounds the number of rounds. -/
def bandsFrom (ny bsize : ℕ) : ℕ → ℕ → List (ℕ × ℕ)
  | 0, _ => []
  | k + 1, i1 => if i1 < ny then (i1, min (i1 + bsize) ny) :: bandsFrom ny bsize k (i1 + bsize) else []

/-- pixell/lensing.py:189-209: the bands; range with step zero raises. -/
def lensBands (ny : ℕ) (delta : Option ℚ) : Option (List (ℕ × ℕ)) :=
  let bsize := bandSize ny delta
  if bsize = 0 then none else some (bandsFrom ny bsize ny 0)

/-- pixell/lensing.py:208-234: the rows of the output. `f w j` is what is computed for row j of a band with geometry w; each band
is written to its rows; the initial content is whatever the memory holds. -/
def lensCurvedRows {V : Type} (ny : ℕ) (w : Axis) (delta : Option ℚ) (f : Axis → ℕ → V) (init : ℕ → V) : Option (ℕ → V) :=
  (lensBands ny delta).map fun bands =>
    bands.foldl (fun out i =>
      let lw := (sliceGeometry ny w ⟨some (i.1 : ℤ), some (i.2 : ℤ), none⟩).2
      fun y => if i.1 ≤ y ∧ y < i.2 then f lw (y - i.1) else out y) init

/-- pixell/lensing.py:230-232: the rotation of the components of one pixel of a map with ncomp components by the angle; the spins
of the transform are not passed on. -/
noncomputable def lensCurvedPol (ncomp : ℕ) (_spin : List ℕ) (angle : ℝ) (m : ℕ → ℝ) : ℕ → ℝ :=
  if ncomp > 1 ∧ angle ≠ 0 then rotatePol angle (ncomp - 2) (ncomp - 1) 2 m else m

/-! ## rand_alm with separate seeds -/

/-- pixell/lensing.py:254-264 (rand_alm with phi_seed): row 0 is the potential, the others the CMB. `drawsPhi` and `draws` are the
random numbers after seeding with phi_seed and seed. `none` is the TypeError of 1+None. -/
noncomputable def randAlmLens (a : AlmInfo) (ncomp : Option ℕ) (nl : ℕ) (root : ℕ → ℕ → List ℝ) (drawsPhi draws : ℕ → ℝ) :
    Option (ℕ → ℕ → ℝ × ℝ) :=
  ncomp.map fun ncomp =>
    let white : ℕ → ℕ → ℝ × ℝ := fun c => if c = 0 then randAlmWhite a 1 true drawsPhi 0 else randAlmWhite a ncomp true draws (c - 1)
    let lmat : ℕ → ℕ → List ℝ := fun r c => (root r c).map (fun x => x / Real.sqrt 2)
    let alm := lmatmulRun a (1 + ncomp) (1 + ncomp) lmat id id (lmatmulVisitsDp a (nl - 1)) (lzeroVisits a (nl - 1)) white
    fun r j => if j < a.lmax then ((alm r j).1 * Real.sqrt 2, 0) else alm r j

end Pixell
