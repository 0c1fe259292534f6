import Verif.Model.Fourier
import Verif.Model.FlatFourier
import Verif.Model.MapFilter

/-
pixell/wavelets.py: the flat-sky wavelet transform, and the resizing of Fourier maps with aligned pixel corners in
pixell/enmap.py that it is made of. Floating-point numbers are real and complex numbers; a map has one component.
-/
namespace Pixell
open Complex

/-- pixell/enmap.py:3137-3142: the shift of one axis, in units of output pixels, when an axis of length `m` is resized to
length `n` with corner=True and off=0. -/
noncomputable def cornerOff (m n : ℕ) : ℝ := 0 - (0.5 - 0.5 * (n : ℝ) / m)

/-- pixell/enmap.py:3128-3176 (resample_fft) with norm=None and corner=True, from shape (my,mx) to (ny,nx). `fo` is the
output map before the call (zeros if fomap is None). With norm None the factor is 1. The phase of fft.shift is applied to
the whole output map. -/
noncomputable def resampleFftMap (op : ℂ → ℂ → ℂ) (fi fo : ℕ → ℕ → ℂ) (my mx ny nx : ℕ) : ℕ → ℕ → ℂ :=
  let q := resampleQuads op id fi fo my mx ny nx
  if cornerOff my ny ≠ 0 ∨ cornerOff mx nx ≠ 0 then
    fun y x => q y x * shiftPhase ny (cornerOff my ny) false y * shiftPhase nx (cornerOff mx nx) false x
  else q

/-- pixell/wavelets.py:382-388 (get_ls) in flat mode: the multipoles `l` of the full map of shape (my,mx), resized to (ny,nx)
as if they were the transform of a map. The array is real, so fft.shift returns the real part (fft.py:361). -/
noncomputable def waveLs (l : ℕ → ℕ → ℝ) (my mx ny nx : ℕ) (y x : ℕ) : ℝ :=
  (resampleFftMap (fun _ b => b) (fun a b => (l a b : ℂ)) (fun _ _ => 0) my mx ny nx y x).re

/-- One wavelet scale: the shape of its map, its norm, and its filter at the Fourier slots of that map. Used for wavelets.py:271. -/
structure FlatScale where
  ny : ℕ
  nx : ℕ
  norm : ℝ
  F : ℕ → ℕ → ℝ

/-- pixell/wavelets.py:331-337 (map2wave, flat mode) for one scale: `m` is a real map of shape (my,mx). -/
noncomputable def map2waveFlat1 (my mx : ℕ) (m : ℕ → ℕ → ℝ) (s : FlatScale) : ℕ → ℕ → ℝ :=
  let fmap := fft2 my mx fun y x => (m y x : ℂ)
  let fsmall := resampleFftMap (fun _ b => b) fmap (fun _ _ => 0) my mx s.ny s.nx
  fun y x => (ifft2 s.ny s.nx (fun a b => fsmall a b * ((s.F a b / (s.norm * ((my * mx : ℕ) : ℝ)) : ℝ) : ℂ)) y x).re

/-- pixell/wavelets.py:331-341 (map2wave, flat mode), all scales. -/
noncomputable def map2waveFlat (my mx : ℕ) (scales : List FlatScale) (m : ℕ → ℕ → ℝ) : List (FlatScale × (ℕ → ℕ → ℝ)) :=
  scales.map fun s => (s, map2waveFlat1 my mx m s)

/-- pixell/wavelets.py:365-367 (wave2map, flat mode): one step of the loop over the scales. -/
noncomputable def wave2mapFlatStep (my mx : ℕ) (fomap : ℕ → ℕ → ℂ) (sw : FlatScale × (ℕ → ℕ → ℝ)) : ℕ → ℕ → ℂ :=
  let s := sw.1
  let fsmall := fft2 s.ny s.nx fun y x => (sw.2 y x : ℂ)
  let fsmall := fun a b => fsmall a b * ((s.F a b * (s.norm / ((s.ny * s.nx : ℕ) : ℝ)) : ℝ) : ℂ)
  resampleFftMap (fun a b => a + b) fsmall fomap s.ny s.nx my mx

/-- pixell/wavelets.py:362-371 (wave2map, flat mode). -/
noncomputable def wave2mapFlat (my mx : ℕ) (waves : List (FlatScale × (ℕ → ℕ → ℝ))) (y x : ℕ) : ℝ :=
  (ifft2 my mx (waves.foldl (wave2mapFlatStep my mx) fun _ _ => 0) y x).re

/-- pixell/wavelets.py:406-415 (_prepare_filter, flat mode): norm and mean multipole of a filter `F` of shape (ny,nx) for a
map of area `A`. -/
noncomputable def waveNorm (A : ℝ) (ny nx : ℕ) (F : ℕ → ℕ → ℝ) : ℝ :=
  Real.sqrt (∑ y ∈ Finset.range ny, ∑ x ∈ Finset.range nx, F y x ^ 2 / A)

/-- pixell/wavelets.py:406-415 (_prepare_filter): the mean multipole. -/
noncomputable def waveMid (A : ℝ) (ny nx : ℕ) (F ls : ℕ → ℕ → ℝ) : ℝ :=
  (∑ y ∈ Finset.range ny, ∑ x ∈ Finset.range nx, F y x ^ 2 / A * ls y x) /
    ∑ y ∈ Finset.range ny, ∑ x ∈ Finset.range nx, F y x ^ 2 / A

/-- pixell/wavelets.py:464-471 (make_wavelet_geometry_flat): the size of one axis. -/
noncomputable def waveSize (n : ℕ) (ires ores : ℝ) (margin : ℕ := 4) : ℕ := min (⌈(n : ℝ) * ires / ores⌉₊ + margin) n

/-- pixell/wavelets.py:280: the resolution of the wavelet map of a scale with the given maximum multipole. -/
noncomputable def waveRes (ires lmax : ℝ) : ℝ := max (Real.pi / lmax) ires

end Pixell
