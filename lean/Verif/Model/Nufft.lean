import Verif.Model.FlatFourier
import Verif.Model.Solvers
import Verif.Model.Index

/-
pixell/fft.py: non-uniform Fourier transforms and Fourier interpolation. Floating-point numbers are real and complex
numbers. The library ducc0.nufft is represented by the sums it is documented to compute, without its error epsilon. The loop
over the pre-dimensions is left out: the same is done for every field.
-/
namespace Pixell
open Complex

/-- The indices of an array with the shape `N`. -/
abbrev NGrid {d : ℕ} (N : Fin d → ℕ) := (i : Fin d) → Fin (N i)

/-- The frequency of index `k` along an axis of length `n` in the order of an fft (fft_order=True in pixell/fft.py:486-488). -/
def nuFreq (n k : ℕ) : ℤ := if k < (n + 1) / 2 then k else (k : ℤ) - n

/-- The phase (in turns) of one Fourier mode at the position `x`. Used for pixell/fft.py:486-488. -/
noncomputable def nuPhase {d : ℕ} (N P : Fin d → ℕ) (k : NGrid N) (x : Fin d → ℝ) : ℝ :=
  ∑ i, (nuFreq (N i) (k i) : ℝ) * x i / P i

/-- The sign of the exponent for the argument `forward`. Used for pixell/fft.py:486. -/
def nuSign (forward : Bool) : ℝ := if forward then -1 else 1

/-- ducc0.nufft.u2nu at one point. `P` is the periodicity. Used for pixell/fft.py:486-488. -/
noncomputable def duccU2nu {d : ℕ} (forward : Bool) (N P : Fin d → ℕ) (u : NGrid N → ℂ) (x : Fin d → ℝ) : ℂ :=
  ∑ k, u k * cis (nuSign forward * nuPhase N P k x)

/-- ducc0.nufft.nu2u. Used for pixell/fft.py:503-505. -/
noncomputable def duccNu2u {d m : ℕ} (forward : Bool) (N P : Fin d → ℕ) (v : Fin m → ℂ) (xs : Fin m → Fin d → ℝ)
    (k : NGrid N) : ℂ :=
  ∑ j, v j * cis (nuSign forward * nuPhase N P k (xs j))

/-- pixell/fft.py:759: h.norm. -/
def nuNorm {d : ℕ} (N : Fin d → ℕ) : ℂ := ∏ i, (N i : ℂ)

/-- pixell/fft.py:746-747: the periodicity defaults to the lengths of the transformed axes. -/
def nuPeriod {d : ℕ} (N : Fin d → ℕ) (periodicity : Option (Fin d → ℕ)) : Fin d → ℕ := periodicity.getD N

/-- pixell/fft.py:449-495 (u2nu), with inufft (fft.py:589-591). `cplx` is the argument `complex`. -/
noncomputable def u2nu {d m : ℕ} (forward normalize cplx : Bool) (N : Fin d → ℕ) (periodicity : Option (Fin d → ℕ))
    (u : NGrid N → ℂ) (xs : Fin m → Fin d → ℝ) (j : Fin m) : ℂ :=
  let r := duccU2nu forward N (nuPeriod N periodicity) u (xs j)
  let r := if cplx then r else (r.re : ℂ)
  if normalize then r / nuNorm N else r

/-- pixell/fft.py:498-512 (nu2u) for complex values, with nufft_adjoint (fft.py:593-595). -/
noncomputable def nu2u {d m : ℕ} (forward normalize : Bool) (N : Fin d → ℕ) (periodicity : Option (Fin d → ℕ))
    (v : Fin m → ℂ) (xs : Fin m → Fin d → ℝ) (k : NGrid N) : ℂ :=
  let r := duccNu2u forward N (nuPeriod N periodicity) v xs k
  if normalize then r / nuNorm N else r

/-- pixell/fft.py:133-156 (fft) over all the axes. -/
noncomputable def fftN {d : ℕ} (N : Fin d → ℕ) (a : NGrid N → ℂ) (k : NGrid N) : ℂ :=
  ∑ l : NGrid N, a l * cis (-(∑ i, ((k i : ℕ) : ℝ) * ((l i : ℕ) : ℝ) / N i))

/-- pixell/fft.py:428-447 (interpol_nufft). -/
noncomputable def interpolNufft {d m : ℕ} (normalize nofft cplx : Bool) (N : Fin d → ℕ) (periodicity : Option (Fin d → ℕ))
    (a : NGrid N → ℂ) (xs : Fin m → Fin d → ℝ) : Fin m → ℂ :=
  u2nu false normalize cplx N periodicity (if nofft then a else fftN N a) xs

/-- pixell/fft.py:428-447 with `axes` a permutation of all the axes: `axes[i] = σ i`. The lengths used as periodicity are in
the order of `axes` (fft.py:742), but h.u[uI] has the axes of the array in their own order (fft.py:484). -/
noncomputable def interpolAxes {d m : ℕ} (σ : Equiv.Perm (Fin d)) (N : Fin d → ℕ) (a : NGrid N → ℂ)
    (xs : Fin m → Fin d → ℝ) : Fin m → ℂ :=
  interpolNufft true false true N (some fun i => N (σ i)) a xs

/-- pixell/utils.py:635-650: what a FourierInterpolator keeps. -/
inductive FourierPre where
  | plan | fft | none
deriving DecidableEq

/-- pixell/utils.py:623-659 (FourierInterpolator and its call), with u2nu_plan.eval (fft.py:645-660) for the default. -/
noncomputable def fourierInterp {d m : ℕ} (pre : FourierPre) (cplx : Bool) (N : Fin d → ℕ) (a : NGrid N → ℂ)
    (xs : Fin m → Fin d → ℝ) (j : Fin m) : ℂ :=
  match pre with
  | .plan =>
    let vals := duccU2nu false N N (fftN N a) (xs j)
    let vals := if cplx then vals else (vals.re : ℂ)
    vals / nuNorm N
  | .fft => interpolNufft true true cplx N none (fftN N a) xs j
  | .none => interpolNufft true false cplx N none a xs j

/-! ### Inversion by conjugate gradients -/

/-- The real degrees of freedom of two complex arrays, multiplied and summed: default_dot of the arrays seen through wzip
(pixell/fft.py:536, utils.py:3299). -/
noncomputable def nuDot {ι : Type} [Fintype ι] (u v : ι → ℂ) : ℝ := ∑ k, ((u k).re * (v k).re + (u k).im * (v k).im)

/-- What the loop of pixell/fft.py:551-553 leads to: a solution, not-a-number everywhere, or no end yet. -/
inductive CgResult (V : Type) where
  | value (x : V)
  | nan
  | running

/-- pixell/fft.py:552-553: `while solver.err > epsilon: solver.step()`. A division by zero makes alpha, or the error, a
not-a-number, which does not exceed epsilon. -/
noncomputable def cgUntil {V : Type} [AddCommGroup V] [Module ℝ V] (A : V → V) (dot : V → V → ℝ) (eps : ℝ) :
    ℕ → CGState ℝ V → CgResult V
  | 0, _ => .running
  | fuel + 1, s =>
    if s.err.any fun e => decide (e ≤ eps) then .value s.x
    else if dot s.p (A s.p) = 0 ∨ s.rz = 0 ∨ s.rz0 = 0 then .nan
    else cgUntil A dot eps fuel (cgStep A id dot s)

/-- pixell/fft.py:550: A(x), that is PT(P(x)). -/
noncomputable def nuNormal {d m : ℕ} (forward : Bool) (N P : Fin d → ℕ) (xs : Fin m → Fin d → ℝ) (u : NGrid N → ℂ) : NGrid N → ℂ :=
  duccNu2u (!forward) N P (fun j => duccU2nu forward N P u (xs j)) xs

/-- pixell/fft.py:510-554 (iu2nu) for complex values, with nufft (fft.py:585-587). -/
noncomputable def iu2nu {d m : ℕ} (fuel : ℕ) (forward normalize : Bool) (N : Fin d → ℕ) (periodicity : Option (Fin d → ℕ))
    (eps : ℝ) (a : Fin m → ℂ) (xs : Fin m → Fin d → ℝ) : CgResult (NGrid N → ℂ) :=
  let P := nuPeriod N periodicity
  let b := duccNu2u (!forward) N P a xs
  let A := nuNormal forward N P xs
  match cgUntil A nuDot eps fuel (cgInit A id nuDot b none) with
  | .value x => .value fun k => if normalize then x k * nuNorm N else x k
  | .nan => .nan
  | .running => .running

/-! ### Precision -/

/-- Real types of arrays; `other` are integers and so on. Used for pixell/fft.py:707-712. -/
inductive RealKind where
  | f32 | f64 | other
deriving DecidableEq

/-- pixell/fft.py:707-709: the precision used by u2nu and nu2u. `u`, `nu`, `inds` are the real types of the arrays, if
given. -/
def nuRealType (nuout : Bool) (u nu : Option RealKind) (inds : RealKind) : Option RealKind :=
  let dtypes := [if nuout then nu else u, if !nuout then u else nu, some inds, some .f64]
  ((dtypes.filterMap id).filter fun t => t = .f32 ∨ t = .f64).head?

/-- pixell/utils.py:634: the axes transformed by a FourierInterpolator, range(-ndim+npre,0). `none`: there is no such axis. -/
def fourierAxes (ndim : ℕ) (npre : ℤ) : Option (List ℤ) :=
  let axes := (List.range (ndim - npre).toNat).map fun (i : ℕ) => -(ndim : ℤ) + npre + i
  if axes.all fun ax => decide (-(ndim : ℤ) ≤ ax) then some axes else none

end Pixell
