import Verif.Model.Wavelets
import Verif.Model.WaveFlat

/-
pixell/wavelets.py: the variance bases, the arguments of WaveletTransform, and the selection of scales in map2wave. Real
numbers. A value `none` of a pixel is NaN.
-/
namespace Pixell

/-- pixell/wavelets.py:39-40 (Butterworth.kernel) for any integer, also -1. -/
noncomputable def butterKernelZ (step shape lmin : ℝ) (i : ℤ) (l : ℝ) : ℝ :=
  1 / (1 + (l / (lmin * step ^ ((i : ℝ) + 0.5))) ^ (shape / Real.log step))

/-- pixell/wavelets.py:187: the kernel with a cutoff at lmax used for the last scale. -/
noncomputable def cutKernel (step shape lmax l : ℝ) : ℝ := 1 / (1 + (l / lmax) ^ (shape / Real.log step))

/-- pixell/wavelets.py:181-188 (VarButter._kernel_helper) up to the square root: F² of scale i. `n` is basis.n. -/
noncomputable def varProfile (step shape lmin lmax : ℝ) (n i : Nat) (l : ℝ) : ℝ :=
  if (i : ℤ) < (n : ℤ) - 1 then bandProfile (butterKernel step shape lmin) n i l
  else cutKernel step shape lmax l - butterKernelZ step shape lmin ((i : ℤ) - 1) l

/-- What a basis object is after its construction: bounds and number of scales, or waiting for bounds. Used for
wavelets.py:167-172. -/
inductive BasisState where
  | waiting
  | ready (n : ℕ)
  deriving DecidableEq

/-- pixell/wavelets.py:24-28 (Butterworth.__init__) and :53-57 (ButterTrim.__init__): _finalize if both bounds are there. -/
noncomputable def butterInit (step : ℝ) (lmin lmax : Option ℝ) : Option BasisState :=
  match lmin, lmax with
  | some a, some b => if waveLevels step a b = 0 then none else some (.ready (waveLevels step a b))
  | _, _ => some .waiting

/-- pixell/wavelets.py:167-172 (VarButter.__init__): `if lmin is not None and lmin is not None`. Its _finalize makes a
Butterworth basis and asks for the number of its scales, which an unfinished one does not have (AttributeError). -/
noncomputable def varButterInit (step : ℝ) (lmin lmax : Option ℝ) : Option BasisState :=
  if lmin.isSome ∧ lmin.isSome then
    match butterInit step lmin lmax with
    | some (.ready n) => some (.ready n)
    | _ => none
  else some .waiting

/-- pixell/wavelets.py:37-38 and :66-67 (get_variance_basis). -/
noncomputable def varianceBasis (step : ℝ) (lmin lmax : Option ℝ) : Option BasisState := varButterInit step lmin lmax

/-- The argument `ores` of pixell/wavelets.py:236. -/
inductive OresArg where
  | none
  | one (r : ℝ)
  | each (r : List ℝ)

/-- pixell/wavelets.py:273-287: the resolutions of the scales when no geometries are given. self.nlevel is
len(self.geometries) (:303), which is None here: `nlevel` raises. -/
noncomputable def waveOress (ires : ℝ) (lmaxs : List ℝ) (geometries : Option ℕ) (ores : OresArg) : Option (List ℝ) :=
  match ores with
  | .none => some (lmaxs.map fun l => waveRes ires l)
  | .one r => geometries.map fun n => List.replicate n r
  | .each r => geometries.bind fun n => if r.length = n then some r else Option.none

/-- pixell/wavelets.py:297-301: the properties shape, wcs and geometry of a WaveletTransform. -/
def waveGeometry {S W : Type} (shape : S) (_wcs : W) : S × (S ⊕ W) := (shape, .inl shape)

/-- pixell/wavelets.py:322-358 (map2wave): the maps of the n scales. `coeff i` are the coefficients of scale i, a map of npix i
pixels; `scales` are the wanted scales. -/
noncomputable def map2waveScales (flat : Bool) (n : ℕ) (npix : ℕ → ℕ) (coeff : ℕ → List (Option ℝ)) (scales : Option (List ℤ))
    (fill : Option ℝ) : List (List (Option ℝ)) :=
  let scales := scales.getD ((List.range n).map fun (i : ℕ) => (i : ℤ))
  (List.range n).map fun (i : ℕ) =>
    if (i : ℤ) ∈ scales then coeff i
    else
      match fill with
      | none => List.replicate (npix i) (some 0)
      | some v => List.replicate (npix i) (if flat then none else some v)

end Pixell
