import Verif.Model.Coordinates
import Verif.Model.Aberration
import Verif.Model.Sht
import Verif.Model.Store
import Verif.Model.Neighborhood
import Mathlib.Analysis.SpecialFunctions.Log.Base
import Mathlib.Algebra.Order.Floor.Ring
import Mathlib.LinearAlgebra.Matrix.NonsingularInverse

/-
Going between healpix maps and pixell maps by position: reproject.map2healpix and healpix2map with method="spline", rot2euler, inv_euler and
restrict_nside (pixell/reproject.py:118-417). The interpolation (imap.at, healpy.get_interp_val) is a function that takes a map and a
position and gives the values of the components there; the angle by which polarization turns (coordinates.transform_meta) is a function of the
Euler angles and the position. An exception is `none`. Positions are (ra,dec).
-/
namespace Pixell

open Real

/-- The two forms of the argument `rot`, pixell/reproject.py:368-384. -/
inductive RotSpec | angles (a b c : ℝ) | text (s : List Char)

/-- scipy's Rotation.from_euler("zyz", [a,b,c]) as a matrix: rotations about fixed axes, the first angle first. Used in
pixell/reproject.py:375, 379. -/
noncomputable def fromEulerZyz (a b c : ℝ) : Matrix (Fin 3) (Fin 3) ℝ := rotmatrix c .z * rotmatrix b .y * rotmatrix a .z

/-- pixell/reproject.py:367. -/
noncomputable def gal2cel : ℝ × ℝ × ℝ := (57.06793215 * (π / 180), 62.87115487 * (π / 180), -167.14056929 * (π / 180))

/-- pixell/reproject.py:373-376: the factor of the input system. -/
noncomputable def rotIsys (s : List Char) : Option (Matrix (Fin 3) (Fin 3) ℝ) :=
  if s = "cel".toList ∨ s = "equ".toList then some 1
  else if s = "gal".toList then some (fromEulerZyz gal2cel.1 gal2cel.2.1 gal2cel.2.2)
  else none

/-- pixell/reproject.py:377-380: the factor of the output system. -/
noncomputable def rotOsys (s : List Char) : Option (Matrix (Fin 3) (Fin 3) ℝ) :=
  if s = "cel".toList ∨ s = "equ".toList then some 1
  else if s = "gal".toList then some (fromEulerZyz gal2cel.1 gal2cel.2.1 gal2cel.2.2)⁻¹
  else none

/-- reproject.rot2euler, pixell/reproject.py:363-384. `asEuler` is scipy's as_euler("zyz"). -/
noncomputable def rot2euler (asEuler : Matrix (Fin 3) (Fin 3) ℝ → ℝ × ℝ × ℝ) : RotSpec → Option (ℝ × ℝ × ℝ)
  | .angles a b c => some (a, b, c)
  | .text s =>
    match pySplit ',' s with
    | [isys, osys] =>
      match rotIsys isys, rotOsys osys with
      | some A, some B => some (asEuler (1 * A * B))
      | _, _ => none
    | _ => none

/-- reproject.inv_euler, pixell/reproject.py:386. -/
def invEuler (e : ℝ × ℝ × ℝ) : ℝ × ℝ × ℝ := (-e.2.2, -e.2.1, -e.1)

/-- coordinates.transform_euler(inv_euler(e)[::-1], pos), pixell/reproject.py:236, 342 and pixell/coordinates.py:195-207: the position. -/
noncomputable def lookPos (e : ℝ × ℝ × ℝ) (p : ℝ × ℝ) : ℝ × ℝ :=
  let i := invEuler e
  eulerRot i.2.2 i.2.1 i.1 .z .y .z p

/-- The groups of components, `enmap.spin_helper(spin, n)` run to its end; `none` if it raises. pixell/reproject.py:227, 241. -/
def spinGroups (spin : List ℤ) (n : ℕ) : Option (List (ℤ × ℕ × ℕ)) :=
  let g := spinHelper (n + 1) spin n
  if g.2 = some true then some g.1 else none

/-- The loop over the groups, pixell/reproject.py:241-243 (guard) and 354-355 (no guard). `ang` is pos[2], if pos has a third row. -/
noncomputable def polLoop (guard : Bool) (ang : Option ℝ) : List (ℤ × ℕ × ℕ) → (ℕ → ℝ) → Option (ℕ → ℝ)
  | [], v => some v
  | (s, c1, c2) :: gs, v =>
    if guard = true ∧ s = 0 then polLoop guard ang gs v
    else match ang with
      | none => none
      | some a => polLoop guard ang gs (rotatePol (-a) c1 (c2 - 1) s v)

/-- The values for an output pixel with centre p, pixell/reproject.py:227, 231-243 (guard) and 334, 339-355 (no guard). `ncomp` is none for a map
without an axis for the components. -/
noncomputable def pixelVals (guard : Bool) (asEuler : Matrix (Fin 3) (Fin 3) ℝ → ℝ × ℝ × ℝ) (rot : Option RotSpec) (spin : List ℤ) (ncomp : Option ℕ)
    (angf : ℝ × ℝ × ℝ → ℝ × ℝ → ℝ) (look : ℝ × ℝ → ℕ → ℝ) (p : ℝ × ℝ) : Option (ℕ → ℝ) :=
  match ncomp with
  | none =>
    match rot with
    | none => some (look p)
    | some r => (rot2euler asEuler r).map fun e => look (lookPos e p)
  | some n =>
    match spinGroups spin n with
    | none => none
    | some groups =>
      let pol := groups.any fun g => decide (g.1 ≠ 0)
      match rot with
      | none => some (look p)
      | some r =>
        match rot2euler asEuler r with
        | none => none
        | some e => polLoop guard (if pol then some (angf e p) else none) groups (look (lookPos e p))

/-- The batches `for i1 in range(0, n, bsize): i2 = min(i1+bsize, n)`, pixell/reproject.py:229-230, 337-338. -/
def batchList (n bsize : ℕ) : List (ℕ × ℕ) := (List.range ((n + bsize - 1) / bsize)).map fun b => (b * bsize, min (b * bsize + bsize) n)

open Classical in
/-- Filling the output batch by batch, pixell/reproject.py:229-244, 337-356: `val i` are the values of element i along the axis that is
divided. -/
noncomputable def fillBatches {α : Type} (val : ℕ → Option α) : List (ℕ × ℕ) → (ℕ → α) → Option (ℕ → α)
  | [], out => some out
  | (i1, i2) :: bs, out =>
    if ∀ i, i1 ≤ i → i < i2 → (val i).isSome then
      fillBatches val bs fun i => if i1 ≤ i ∧ i < i2 then (val i).getD (out i) else out i
    else none

/-- reproject.map2healpix, pixell/reproject.py:198-247, with method="spline". `imap c j` is component c of pixel j and `ipixsize j` the area of
that pixel; `outGiven` is the number of pixels of the array passed as `out`, and `auto` the nside worked out from the resolution.
`pix2ang` gives (theta,phi). The result is indexed by pixel and component. -/
noncomputable def map2healpix (asEuler : Matrix (Fin 3) (Fin 3) ℝ → ℝ × ℝ × ℝ) (angf : ℝ × ℝ × ℝ → ℝ × ℝ → ℝ)
    (interp : (ℕ → ℕ → ℝ) → ℝ × ℝ → ℕ → ℝ) (pix2ang : ℕ → ℕ → ℝ × ℝ) (ipixsize : ℕ → ℝ) (auto : ℕ) (nside outGiven : Option ℕ)
    (rot : Option RotSpec) (spin : List ℤ) (ncomp : Option ℕ) (extensive : Bool) (bsize : ℕ) (imap : ℕ → ℕ → ℝ) : Option (ℕ → ℕ → ℝ) :=
  let nside := if outGiven.isSome then nside else some (nside.getD auto)
  let npix := outGiven.getD (12 * (nside.getD 0) ^ 2)
  let opixsize := 4 * π / npix
  let imap := if extensive then fun c j => imap c j * (opixsize / ipixsize j) else imap
  let val := fun i =>
    match nside with
    | none => none
    | some ns =>
      let a := pix2ang ns i
      pixelVals true asEuler rot spin ncomp angf (interp imap) (a.2, π / 2 - a.1)
  if bsize = 0 then none else fillBatches val (batchList npix bsize) fun _ _ => 0

/-- reproject.healpix2map, pixell/reproject.py:310-361, with method="spline" and order at most 1. `interp` takes the healpix map and (theta,phi);
`pos y x` is the centre (ra,dec) of a pixel and `pixsize y x` its area. The result is indexed by row, column and component. -/
noncomputable def healpix2map (asEuler : Matrix (Fin 3) (Fin 3) ℝ → ℝ × ℝ × ℝ) (angf : ℝ × ℝ × ℝ → ℝ × ℝ → ℝ)
    (interp : (ℕ → ℕ → ℝ) → ℝ × ℝ → ℕ → ℝ) (ny nx npix : ℕ) (pos : ℕ → ℕ → ℝ × ℝ) (pixsize : ℕ → ℕ → ℝ) (rot : Option RotSpec) (spin : List ℤ)
    (ncomp : Option ℕ) (extensive : Bool) (bsize : ℕ) (iheal : ℕ → ℕ → ℝ) : Option (ℕ → ℕ → ℕ → ℝ) :=
  let look := fun q : ℝ × ℝ => interp iheal (π / 2 - q.2, q.1)
  if nx = 0 then none
  else
    let brow := (bsize + nx - 1) / nx
    if brow = 0 then none
    else
      let val := fun y =>
        let row := fun x => pixelVals false asEuler rot spin ncomp angf look (pos y x)
        if ∀ x ∈ List.range nx, (row x).isSome then some fun x => (row x).getD fun _ => 0 else none
      (fillBatches val (batchList ny brow) fun _ _ _ => 0).map fun out => fun y x c =>
        if extensive then out y x c * (pixsize y x / (4 * π / npix)) else out y x c

/-- The named roundings of restrict_nside, pixell/reproject.py:407. -/
inductive NsideRound | floor | round | ceil

/-- The function of each name, pixell/reproject.py:407. -/
noncomputable def NsideRound.fn : NsideRound → ℝ → ℤ
  | .floor, x => ⌊x⌋
  | .round, x => rintReal x
  | .ceil, x => ⌈x⌉

/-- The modes of restrict_nside, pixell/reproject.py:408-415. -/
inductive NsideMode | any | mul32 | pow2

/-- reproject.restrict_nside, pixell/reproject.py:388-417, for a positive nside and one of the named roundings. int() cuts off the
fraction. -/
noncomputable def restrictNside (x : ℝ) (mode : NsideMode) (rd : NsideRound) : ℤ :=
  let y : ℝ :=
    match mode with
    | .any => rd.fn x
    | .mul32 => if 12 * x ^ 2 > 1024 then rd.fn (x / 32) * 32 else x
    | .pow2 => (2 : ℝ) ^ rd.fn (logb 2 x)
  max 1 ⌊y⌋

end Pixell
