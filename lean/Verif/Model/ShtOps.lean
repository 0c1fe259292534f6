import Mathlib.LinearAlgebra.BilinearForm.Basic
import Mathlib.Data.Real.Basic
import Mathlib.Algebra.BigOperators.Fin
import Verif.Model.Sht
import Verif.Model.Solvers
import Verif.Model.Alm

/-
Spherical harmonic transforms of maps: alm2map, alm2map_adjoint, map2alm and map2alm_adjoint with their three methods
(pixell/curvedsky.py:83-302 and 727-1107), on top of ducc's transforms, which are parameters here.
-/
namespace Pixell

/-! ### ducc -/

/-- What the code uses of ducc0.sht.experimental for one buffer geometry and one alm layout: `syn` is synthesis (or
synthesis_2d or synthesis_general) and `asyn` adjoint_synthesis for one group of components with the same spin; `ana` and
`aana` are analysis_2d and adjoint_analysis_2d; `dsyn` is synthesis with mode="DERIV1" (the derivatives along colatitude
and along longitude) and `dasyn` adjoint_synthesis with that mode.  `A` are the coefficients of one component, `P` the
pixels of one component.  All are linear; see `Ducc.Ok` in Props/ShtOps.lean for what is assumed of them. -/
structure Ducc (A P : Type) [AddCommGroup A] [Module ℝ A] [AddCommGroup P] [Module ℝ P] where
  syn : (s : ℤ) → (Fin (spinComp s) → A) →ₗ[ℝ] (Fin (spinComp s) → P)
  asyn : (s : ℤ) → (Fin (spinComp s) → P) →ₗ[ℝ] (Fin (spinComp s) → A)
  ana : (s : ℤ) → (Fin (spinComp s) → P) →ₗ[ℝ] (Fin (spinComp s) → A)
  aana : (s : ℤ) → (Fin (spinComp s) → A) →ₗ[ℝ] (Fin (spinComp s) → P)
  dsyn : A →ₗ[ℝ] P × P
  dasyn : P × P →ₗ[ℝ] A

/-! ### Loop over groups of components -/

/-- `x[j1:j2]` for k = j2-j1, pixell/curvedsky.py:894-895. -/
def takeGrp {X : Type} (x : Nat → X) (j k : Nat) : Fin k → X := fun i => x (j + i)

/-- Writing `z[j1:j2]`: ducc writes into its output argument, pixell/curvedsky.py:895, or the assignment at 1054-1055. -/
def putGrp {X : Type} (z : Nat → X) (j k : Nat) (v : Fin k → X) : Nat → X :=
  fun c => if h : j ≤ c ∧ c < j + k then v ⟨c - j, by omega⟩ else z c

/-- The loop `for s, j1, j2 in enmap.spin_helper(spin, ncomp)`, pixell/curvedsky.py:893-895, 929-931, 983-985, 1015-1017,
1048-1055, 1083-1090: the group of the output is overwritten by the operator applied to the group of the input. -/
def spinSweep {X Z : Type} (op : (s : ℤ) → (Fin (spinComp s) → X) → (Fin (spinComp s) → Z))
    (groups : List (ℤ × Nat × Nat)) (x : Nat → X) (z : Nat → Z) : Nat → Z :=
  groups.foldl (fun z g => putGrp z g.2.1 (spinComp g.1) (op g.1 (takeGrp x g.2.1 (spinComp g.1)))) z

/-- The loop with spin_helper for n components; `none` is the exception that spin_helper raises when the spins do not
fit. -/
def spinApply {X Z : Type} (op : (s : ℤ) → (Fin (spinComp s) → X) → (Fin (spinComp s) → Z))
    (spin : List ℤ) (n : Nat) (x : Nat → X) (z : Nat → Z) : Option (Nat → Z) :=
  if (spinHelper (n + 1) spin n).2 = some true then some (spinSweep op (spinHelper (n + 1) spin n).1 x z) else none

section Raw
variable {A P : Type} [AddCommGroup A] [Module ℝ A] [AddCommGroup P] [Module ℝ P]

/-- alm2map_raw_2d, alm2map_raw_cyl and alm2map_raw_general without derivatives, pixell/curvedsky.py:871-897, 899-933,
964-987: reads alm, overwrites map. -/
def alm2mapRaw (D : Ducc A P) (spin : List ℤ) (n : Nat) (alm : Nat → A) (map : Nat → P) : Option (Nat → P) :=
  spinApply (fun s x => D.syn s x) spin n alm map

/-- The same with adjoint=True: reads map, overwrites alm. -/
def alm2mapRawAdj (D : Ducc A P) (spin : List ℤ) (n : Nat) (map : Nat → P) (alm : Nat → A) : Option (Nat → A) :=
  spinApply (fun s x => D.asyn s x) spin n map alm

/-- map2alm_raw_2d without derivatives, pixell/curvedsky.py:989-1019. -/
def map2almRaw2d (D : Ducc A P) (spin : List ℤ) (n : Nat) (map : Nat → P) (alm : Nat → A) : Option (Nat → A) :=
  spinApply (fun s x => D.ana s x) spin n map alm

/-- map2alm_raw_2d with adjoint=True. -/
def map2almRaw2dAdj (D : Ducc A P) (spin : List ℤ) (n : Nat) (alm : Nat → A) (map : Nat → P) : Option (Nat → P) :=
  spinApply (fun s x => D.aana s x) spin n alm map

/-- map2alm_raw_cyl and map2alm_raw_general without derivatives, pixell/curvedsky.py:1021-1057, 1059-1091: Jacobi
iteration with forward operator Y and approximate inverse Y'W, where `W` multiplies the pixels of a component with the
weights. -/
def map2almRaw (D : Ducc A P) (W : P → P) (niter : Nat) (spin : List ℤ) (n : Nat) (map : Nat → P) (alm : Nat → A) :
    Option (Nat → A) :=
  spinApply (fun s x => jacobiInverse (fun a => D.syn s a) (fun m => D.asyn s (fun i => W (m i))) x niter) spin n map alm

/-- The same with adjoint=True, pixell/curvedsky.py:1054, 1089: Jacobi iteration with Y' and WY. -/
def map2almRawAdj (D : Ducc A P) (W : P → P) (niter : Nat) (spin : List ℤ) (n : Nat) (alm : Nat → A) (map : Nat → P) :
    Option (Nat → P) :=
  spinApply (fun s x => jacobiInverse (fun m => D.asyn s m) (fun a i => W (D.syn s a i)) x niter) spin n alm map

/-! ### Derivatives -/

/-- alm2map_raw_* with deriv=True, pixell/curvedsky.py:888-891, 924-927, 978-981: the map holds the two derivatives, the
first with its sign changed. -/
def alm2mapDeriv (D : Ducc A P) (alm : A) : P × P := let m := D.dsyn alm; (-m.1, m.2)

/-- alm2map_raw_* with deriv=True and adjoint=True: the same lines, with the adjoint transform, which reads the map and
writes alm; the change of sign comes afterwards.  The result is alm and what is then in the map argument of the raw
function. -/
def alm2mapDerivAdj (D : Ducc A P) (map : P × P) : A × (P × P) := (D.dasyn map, (-map.1, map.2))

/-- What alm2map(..., deriv=True, adjoint=True) leaves in its map argument.  The 2d and cyl methods work on a buffer
(pixell/curvedsky.py:739, 759); the general method works on a view of the map unless some pixels are masked (777-781). -/
def derivAdjMapAfter (D : Ducc A P) (general masked : Bool) (map : P × P) : P × P :=
  if general && !masked then (alm2mapDerivAdj D map).2 else map

/-- numpy's rule for the shape of the product of two arrays. -/
def npBroadcast : List Nat → List Nat → Option (List Nat)
  | a, b => go a.reverse b.reverse |>.map List.reverse
where
  go : List Nat → List Nat → Option (List Nat)
    | [], b => some b
    | a, [] => some a
    | x :: a, y :: b => if x = y ∨ y = 1 then (go a b).map (x :: ·) else if x = 1 then (go a b).map (y :: ·) else none

/-- `map_full[I]*decflip` in map2alm_raw_cyl, map2alm_raw_general and map2alm_healpix, pixell/curvedsky.py:1043-1046,
1079-1081, 378-381, where `decflip = np.array([-1,1])[:,None,None]` has shape [2,1,1] and the map, flattened, has shape
[2,npix]: numpy pairs the axis of two components of the map with the second axis of decflip. -/
def decflipMul (map : Fin 2 → P) : Fin 2 → Fin 2 → P := fun i c => (if i = 0 then (-1 : ℝ) else 1) • map c

end Raw

/-! ### Work buffers as arrays -/

/-- A two-dimensional array of pixels. -/
abbrev Grid (h w : Nat) := Fin h → Fin w → ℝ

/-- `i` or, for a flipped axis, its mirror image: pixell/curvedsky.py:1207-1213. -/
def flipIdx {n : Nat} (flip : Bool) (i : Fin n) : Fin n := if flip then ⟨n - 1 - i, by omega⟩ else i

/-- map2buffer, pixell/curvedsky.py:1355-1375, on arrays with their shapes (the version on lists, with the geometry, is
`map2buffer` in Model/Sht.lean; Props/ShtOps.lean shows that they agree). -/
def toBuf {ny nx : Nat} (flipy flipx : Bool) (p q : Nat × Nat) (m : Grid ny nx) : Grid (p.1 + ny + q.1) (p.2 + nx + q.2) :=
  fun i j =>
    if h : (p.1 ≤ i ∧ i < p.1 + ny) ∧ (p.2 ≤ j ∧ j < p.2 + nx) then
      m (flipIdx flipy ⟨i - p.1, by omega⟩) (flipIdx flipx ⟨j - p.2, by omega⟩)
    else 0

/-- buffer2map, pixell/curvedsky.py:1377-1382. -/
def fromBuf {ny nx : Nat} (flipy flipx : Bool) (p q : Nat × Nat) (b : Grid (p.1 + ny + q.1) (p.2 + nx + q.2)) : Grid ny nx :=
  fun i j => b ⟨p.1 + flipIdx flipy i, by have := (flipIdx flipy i).2; omega⟩
    ⟨p.2 + flipIdx flipx j, by have := (flipIdx flipx j).2; omega⟩

/-- wmul of map2alm_raw_cyl, pixell/curvedsky.py:1034-1035: each row of the buffer times its weight. -/
def rowMul {h w : Nat} (weights : Fin h → ℝ) (m : Grid h w) : Grid h w := fun i j => m i j * weights i

section Methods
variable {A : Type} [AddCommGroup A] [Module ℝ A]

/-- alm2map_2d (`obuf` false: the buffer starts as a copy of the map) and alm2map_cyl (`obuf` true: it starts as zero)
for one leading index, pixell/curvedsky.py:727-765.  `fy fx p q` are the flips and paddings. -/
def alm2mapBuf {ny nx : Nat} (obuf fy fx : Bool) (p q : Nat × Nat) (D : Ducc A (Grid (p.1 + ny + q.1) (p.2 + nx + q.2)))
    (spin : List ℤ) (n : Nat) (alm : Nat → A) (map : Nat → Grid ny nx) : Option (Nat → Grid ny nx) := do
  let tmap := fun c => if obuf then 0 else toBuf fy fx p q (map c)
  let tmap ← alm2mapRaw D spin n alm tmap
  pure fun c => fromBuf fy fx p q (tmap c)

/-- alm2map_2d and alm2map_cyl with adjoint=True. -/
def alm2mapBufAdj {ny nx : Nat} (fy fx : Bool) (p q : Nat × Nat) (D : Ducc A (Grid (p.1 + ny + q.1) (p.2 + nx + q.2)))
    (spin : List ℤ) (n : Nat) (map : Nat → Grid ny nx) (alm : Nat → A) : Option (Nat → A) :=
  alm2mapRawAdj D spin n (fun c => toBuf fy fx p q (map c)) alm

/-- map2alm_2d for one leading index, pixell/curvedsky.py:793-812. -/
def map2alm2d {ny nx : Nat} (fy fx : Bool) (p q : Nat × Nat) (D : Ducc A (Grid (p.1 + ny + q.1) (p.2 + nx + q.2)))
    (spin : List ℤ) (n : Nat) (map : Nat → Grid ny nx) (alm : Nat → A) : Option (Nat → A) :=
  map2almRaw2d D spin n (fun c => toBuf fy fx p q (map c)) alm

/-- map2alm_2d with adjoint=True. -/
def map2alm2dAdj {ny nx : Nat} (fy fx : Bool) (p q : Nat × Nat) (D : Ducc A (Grid (p.1 + ny + q.1) (p.2 + nx + q.2)))
    (spin : List ℤ) (n : Nat) (alm : Nat → A) (map : Nat → Grid ny nx) : Option (Nat → Grid ny nx) := do
  let tmap ← map2almRaw2dAdj D spin n alm (fun c => toBuf fy fx p q (map c))
  pure fun c => fromBuf fy fx p q (tmap c)

/-- map2alm_cyl for one leading index, pixell/curvedsky.py:814-844, with the weights of the rows of the buffer given. -/
def map2almCyl {ny nx : Nat} (fy fx : Bool) (p q : Nat × Nat) (D : Ducc A (Grid (p.1 + ny + q.1) (p.2 + nx + q.2)))
    (weights : Fin (p.1 + ny + q.1) → ℝ) (niter : Nat) (spin : List ℤ) (n : Nat) (map : Nat → Grid ny nx) (alm : Nat → A) :
    Option (Nat → A) :=
  map2almRaw D (rowMul weights) niter spin n (fun c => toBuf fy fx p q (map c)) alm

/-- map2alm_cyl with adjoint=True. -/
def map2almCylAdj {ny nx : Nat} (fy fx : Bool) (p q : Nat × Nat) (D : Ducc A (Grid (p.1 + ny + q.1) (p.2 + nx + q.2)))
    (weights : Fin (p.1 + ny + q.1) → ℝ) (niter : Nat) (spin : List ℤ) (n : Nat) (alm : Nat → A) (map : Nat → Grid ny nx) :
    Option (Nat → Grid ny nx) := do
  let tmap ← map2almRawAdj D (rowMul weights) niter spin n alm (fun c => toBuf fy fx p q (map c))
  pure fun c => fromBuf fy fx p q (tmap c)

/-- The pixels with a position, as ducc's general transforms get them. -/
abbrev MaskPix {ny nx : Nat} (mask : Fin ny → Fin nx → Bool) := {k : Fin ny × Fin nx // mask k.1 k.2 = true}

/-- `map[:,mask]`, pixell/curvedsky.py:778-779. -/
def gatherMask {ny nx : Nat} (mask : Fin ny → Fin nx → Bool) (m : Grid ny nx) : MaskPix mask → ℝ := fun k => m k.1.1 k.1.2

/-- `map[:,mask] = tmap`, pixell/curvedsky.py:787. -/
def scatterMask {ny nx : Nat} (mask : Fin ny → Fin nx → Bool) (t : MaskPix mask → ℝ) (m : Grid ny nx) : Grid ny nx :=
  fun i j => if h : mask i j = true then t ⟨(i, j), h⟩ else m i j

/-- Some pixel has no position: `locinfo.masked`. -/
def maskedAny {ny nx : Nat} (mask : Fin ny → Fin nx → Bool) : Bool := decide (∃ i j, mask i j = false)

/-- alm2map_general for one leading index, pixell/curvedsky.py:767-791.  With masked pixels and a two-dimensional map
(`twoD`), the name `mask` at 778 is not defined: an exception. -/
def alm2mapGeneral {ny nx : Nat} (mask : Fin ny → Fin nx → Bool) (twoD : Bool) (D : Ducc A (MaskPix mask → ℝ))
    (spin : List ℤ) (n : Nat) (alm : Nat → A) (map : Nat → Grid ny nx) : Option (Nat → Grid ny nx) :=
  if maskedAny mask && twoD then none else do
  let tmap ← alm2mapRaw D spin n alm (fun c => gatherMask mask (map c))
  pure fun c => scatterMask mask (tmap c) (map c)

/-- alm2map_general with adjoint=True. -/
def alm2mapGeneralAdj {ny nx : Nat} (mask : Fin ny → Fin nx → Bool) (twoD : Bool) (D : Ducc A (MaskPix mask → ℝ))
    (spin : List ℤ) (n : Nat) (map : Nat → Grid ny nx) (alm : Nat → A) : Option (Nat → A) :=
  if maskedAny mask && twoD then none else alm2mapRawAdj D spin n (fun c => gatherMask mask (map c)) alm

/-- map2alm_general for one leading index, pixell/curvedsky.py:846-869.  The weights are one per pixel with a position. -/
def map2almGeneral {ny nx : Nat} (mask : Fin ny → Fin nx → Bool) (twoD : Bool) (D : Ducc A (MaskPix mask → ℝ))
    (weights : MaskPix mask → ℝ) (niter : Nat) (spin : List ℤ) (n : Nat) (map : Nat → Grid ny nx) (alm : Nat → A) :
    Option (Nat → A) :=
  if maskedAny mask && twoD then none else
  map2almRaw D (fun t k => t k * weights k) niter spin n (fun c => gatherMask mask (map c)) alm

/-- map2alm_general with adjoint=True. -/
def map2almGeneralAdj {ny nx : Nat} (mask : Fin ny → Fin nx → Bool) (twoD : Bool) (D : Ducc A (MaskPix mask → ℝ))
    (weights : MaskPix mask → ℝ) (niter : Nat) (spin : List ℤ) (n : Nat) (alm : Nat → A) (map : Nat → Grid ny nx) :
    Option (Nat → Grid ny nx) :=
  if maskedAny mask && twoD then none else do
  let tmap ← map2almRawAdj D (fun t k => t k * weights k) niter spin n alm (fun c => gatherMask mask (map c))
  pure fun c => scatterMask mask (tmap c) (map c)

/-- The dispatch of map2alm and map2alm_adjoint to the general method, pixell/curvedsky.py:298-300: niter is not among the
arguments passed on, so the default of map2alm_general, 0, is used. -/
def map2almCallGeneral {ny nx : Nat} (mask : Fin ny → Fin nx → Bool) (twoD : Bool) (D : Ducc A (MaskPix mask → ℝ))
    (weights : MaskPix mask → ℝ) (_niter : Nat) (spin : List ℤ) (n : Nat) (map : Nat → Grid ny nx) (alm : Nat → A) :
    Option (Nat → A) :=
  map2almGeneral mask twoD D weights 0 spin n map alm

end Methods

/-! ### Coefficient layouts in the general method -/

/-- ducc's default layout for the coefficients, used when mstart is not given: m*(2*lmax+1-m)/2. -/
def duccMstart (lmax m : Nat) : Nat := m * (2 * lmax + 1 - m) / 2

/-- The array index from which alm2map's transforms read the coefficient (l,m): the 2d and cyl methods pass mstart
(pixell/curvedsky.py:881-882, 909-911), the general method does not (975).  None passes the layout's stride in l (ducc's
lstride, by default 1). -/
def coefIndex (general : Bool) (a : AlmInfo) (l m : Nat) : Nat :=
  (if general then duccMstart a.lmax m else a.mstart m) + l

/-- The array index used by map2alm's transforms: mstart is passed by all of them (pixell/curvedsky.py:1006-1007,
1030-1032, 1069), the stride by none. -/
def coefIndexBack (a : AlmInfo) (l m : Nat) : Nat := a.mstart m + l

/-! ### Band limit of the 2d method -/

/-- map2alm_raw_2d restricted to the band limit of the grid, pixell/curvedsky.py:998-1007: what is in the coefficient
array of the caller afterwards, where `result` is what ducc computes up to lmax = min(ainfo.lmax, ducc_geo.lmax) and
mmax = min(ainfo.mmax, lmax), and `old` is what was in the array before. -/
def writeBand {C : Type} (alayoutL alayoutM gridL : Nat) (result old : Nat → Nat → C) : Nat → Nat → C :=
  let lmax := min alayoutL gridL
  let mmax := min alayoutM lmax
  fun l m => if l ≤ lmax ∧ m ≤ mmax ∧ m ≤ l then result l m else old l m

end Pixell
