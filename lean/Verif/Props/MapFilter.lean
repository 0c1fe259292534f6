import Verif.Lemmas.MapFilter
import Mathlib.Analysis.SpecialFunctions.Integrals.Basic

/-
C127: derivatives, smoothing and pixel windows of maps computed in Fourier space.
-/
namespace Pixell
open Complex
open scoped ComplexConjugate

/-- The trigonometric polynomial through the pixels of a map, at pixel coordinates (ty,tx): independent of the filters. -/
noncomputable def trigInterp (ny nx : Nat) (m : Nat → Nat → ℝ) (ty tx : ℝ) : ℝ :=
  ((∑ ky ∈ Finset.range ny, ∑ kx ∈ Finset.range nx,
    fft2 ny nx (fun y x => (m y x : ℂ)) ky kx / (ny * nx) * cis (fftfreq ny ky * ty + fftfreq nx kx * tx)) : ℂ).re

theorem ifft2_freq (ny nx : Nat) (hy : 0 < ny) (hx : 0 < nx) (y : Nat → Nat → ℂ) (jy jx : Nat) :
    ifft2 ny nx y jy jx = ∑ ky ∈ Finset.range ny, ∑ kx ∈ Finset.range nx, y ky kx * cis (fftfreq ny ky * jy + fftfreq nx kx * jx) := by
  unfold ifft2 idftRaw
  apply Finset.sum_congr rfl
  intro ky _
  rw [Finset.sum_mul]
  apply Finset.sum_congr rfl
  intro kx _
  have e1 : cis ((jy : ℝ) * ky / ny) = cis (fftfreq ny ky * jy) := by
    have := cis_freq ny ky hy jy
    rw [Int.cast_natCast] at this
    rw [← this]; congr 1; ring
  have e2 : cis ((jx : ℝ) * kx / nx) = cis (fftfreq nx kx * jx) := by
    have := cis_freq nx kx hx jx
    rw [Int.cast_natCast] at this
    rw [← this]; congr 1; ring
  rw [e1, e2, cis_add]; ring

theorem filterC_freq (ny nx : Nat) (hy : 0 < ny) (hx : 0 < nx) (p m : Nat → Nat → ℂ) (jy jx : Nat) :
    filterC ny nx p m jy jx = ∑ ky ∈ Finset.range ny, ∑ kx ∈ Finset.range nx,
      fft2 ny nx m ky kx / (ny * nx) * p ky kx * cis (fftfreq ny ky * jy + fftfreq nx kx * jx) := by
  unfold filterC
  rw [ifft2_freq ny nx hy hx, Finset.sum_div]
  apply Finset.sum_congr rfl
  intro ky _
  rw [Finset.sum_div]
  apply Finset.sum_congr rfl
  intro kx _
  ring

/-- The trigonometric polynomial has the values of the map at the pixels. -/
theorem C127_interp (ny nx : Nat) (m : Nat → Nat → ℝ) (jy jx : Nat) (hy : jy < ny) (hx : jx < nx) :
    trigInterp ny nx m jy jx = m jy jx := by
  rw [← filterMap_one ny nx m jy jx hy hx, filterMap_eq ny nx (by omega) (by omega), filterC_freq ny nx (by omega) (by omega)]
  unfold trigInterp
  simp only [mul_one]

theorem cis_deriv (a b t : ℝ) : HasDerivAt (fun t : ℝ => cis (a + b * t)) (2 * Real.pi * b * I * cis (a + b * t)) t := by
  unfold cis
  have h1 : HasDerivAt (fun t : ℝ => (2 * Real.pi * ((a + b * t : ℝ) : ℂ) * I : ℂ)) (2 * Real.pi * b * I) t := by
    have h0 : HasDerivAt (fun s : ℝ => (s : ℂ)) 1 t := HasDerivAt.ofReal_comp (hasDerivAt_id t)
    have h2 := (h0.const_mul (2 * Real.pi * b * I : ℂ)).const_add (2 * Real.pi * a * I : ℂ)
    rw [mul_one] at h2
    refine h2.congr_of_eventuallyEq (Filter.Eventually.of_forall fun s => ?_)
    push_cast; ring
  convert h1.cexp using 1
  ring

theorem re_deriv {f : ℝ → ℂ} {f' : ℂ} {t : ℝ} (h : HasDerivAt f f' t) : HasDerivAt (fun t => (f t).re) f'.re t :=
  (Complex.reCLM.hasFDerivAt.comp_hasDerivAt t h)

theorem sum_deriv (ny nx : Nat) (c : Nat → Nat → ℂ) (a b : Nat → Nat → ℝ) (t : ℝ) :
    HasDerivAt (fun t : ℝ => ((∑ ky ∈ Finset.range ny, ∑ kx ∈ Finset.range nx, c ky kx * cis (a ky kx + b ky kx * t)) : ℂ).re)
      (∑ ky ∈ Finset.range ny, ∑ kx ∈ Finset.range nx, c ky kx * (2 * Real.pi * b ky kx * I) * cis (a ky kx + b ky kx * t)).re t := by
  apply re_deriv
  apply HasDerivAt.fun_sum
  intro ky _
  apply HasDerivAt.fun_sum
  intro kx _
  have := (cis_deriv (a ky kx) (b ky kx) t).const_mul (c ky kx)
  rw [← mul_assoc] at this
  exact this

theorem trig_rows (ny nx : Nat) (sy : ℝ) (m : Nat → Nat → ℝ) (jy jx t : ℝ) : trigInterp ny nx m (jy + t / sy) jx =
    ((∑ ky ∈ Finset.range ny, ∑ kx ∈ Finset.range nx, fft2 ny nx (fun y x => (m y x : ℂ)) ky kx / (ny * nx) *
      cis ((fftfreq ny ky * jy + fftfreq nx kx * jx) + (fftfreq ny ky / sy) * t)) : ℂ).re := by
  unfold trigInterp
  congr 1
  apply Finset.sum_congr rfl; intro ky _
  apply Finset.sum_congr rfl; intro kx _
  congr 2
  ring

theorem trig_cols (ny nx : Nat) (sx : ℝ) (m : Nat → Nat → ℝ) (jy jx t : ℝ) : trigInterp ny nx m jy (jx + t / sx) =
    ((∑ ky ∈ Finset.range ny, ∑ kx ∈ Finset.range nx, fft2 ny nx (fun y x => (m y x : ℂ)) ky kx / (ny * nx) *
      cis ((fftfreq ny ky * jy + fftfreq nx kx * jx) + (fftfreq nx kx / sx) * t)) : ℂ).re := by
  unfold trigInterp
  congr 1
  apply Finset.sum_congr rfl; intro ky _
  apply Finset.sum_congr rfl; intro kx _
  congr 2
  ring

/-- grad is the derivative, with respect to the angle on the sky, of the trigonometric polynomial through the pixels: for maps
of any size with any content, in both directions, whatever the sign of the pixel steps. -/
theorem C127_grad (ny nx : Nat) (hy : 0 < ny) (hx : 0 < nx) (sy sx : ℝ) (m : Nat → Nat → ℝ) (jy jx : Nat) :
    HasDerivAt (fun t : ℝ => trigInterp ny nx m (jy + t / sy) jx) (gradY ny nx sy m jy jx) 0 ∧
    HasDerivAt (fun t : ℝ => trigInterp ny nx m jy (jx + t / sx)) (gradX ny nx sx m jy jx) 0 := by
  constructor
  · have h := sum_deriv ny nx (fun ky kx => fft2 ny nx (fun y x => (m y x : ℂ)) ky kx / (ny * nx))
      (fun ky kx => fftfreq ny ky * jy + fftfreq nx kx * jx) (fun ky _ => fftfreq ny ky / sy) 0
    simp only [trig_rows]
    convert h using 1
    unfold gradY
    rw [filterMap_eq ny nx hy hx, filterC_freq ny nx hy hx]
    congr 1
    apply Finset.sum_congr rfl; intro ky _
    apply Finset.sum_congr rfl; intro kx _
    rw [mul_zero, add_zero]
    unfold lAxis
    push_cast
    ring
  · have h := sum_deriv ny nx (fun ky kx => fft2 ny nx (fun y x => (m y x : ℂ)) ky kx / (ny * nx))
      (fun ky kx => fftfreq ny ky * jy + fftfreq nx kx * jx) (fun _ kx => fftfreq nx kx / sx) 0
    simp only [trig_cols]
    convert h using 1
    unfold gradX
    rw [filterMap_eq ny nx hy hx, filterC_freq ny nx hy hx]
    congr 1
    apply Finset.sum_congr rfl; intro ky _
    apply Finset.sum_congr rfl; intro kx _
    rw [mul_zero, add_zero]
    unfold lAxis
    push_cast
    ring

/-- laplace is the sum of the second derivatives of the same polynomial. -/
theorem C127_laplace (ny nx : Nat) (hy : 0 < ny) (hx : 0 < nx) (sy sx : ℝ) (m : Nat → Nat → ℝ) (jy jx : Nat) :
    ∃ (dy dx : ℝ → ℝ) (ay ax : ℝ), (∀ t, HasDerivAt (fun t : ℝ => trigInterp ny nx m (jy + t / sy) jx) (dy t) t) ∧
      (∀ t, HasDerivAt (fun t : ℝ => trigInterp ny nx m jy (jx + t / sx)) (dx t) t) ∧
      HasDerivAt dy ay 0 ∧ HasDerivAt dx ax 0 ∧ laplaceMap ny nx sy sx m jy jx = ay + ax := by
  simp only [trig_rows, trig_cols]
  refine ⟨_, _, _, _, fun t => sum_deriv ny nx _ (fun ky kx => fftfreq ny ky * jy + fftfreq nx kx * jx) (fun ky _ => fftfreq ny ky / sy) t,
    fun t => sum_deriv ny nx _ (fun ky kx => fftfreq ny ky * jy + fftfreq nx kx * jx) (fun _ kx => fftfreq nx kx / sx) t,
    sum_deriv ny nx _ (fun ky kx => fftfreq ny ky * jy + fftfreq nx kx * jx) (fun ky _ => fftfreq ny ky / sy) 0,
    sum_deriv ny nx _ (fun ky kx => fftfreq ny ky * jy + fftfreq nx kx * jx) (fun _ kx => fftfreq nx kx / sx) 0, ?_⟩
  unfold laplaceMap
  rw [filterMap_eq ny nx hy hx, filterC_freq ny nx hy hx, ← neg_re, ← add_re]
  congr 1
  rw [← Finset.sum_neg_distrib, ← Finset.sum_add_distrib]
  apply Finset.sum_congr rfl; intro ky _
  rw [← Finset.sum_neg_distrib, ← Finset.sum_add_distrib]
  apply Finset.sum_congr rfl; intro kx _
  rw [mul_zero, mul_zero, add_zero]
  unfold lAxis
  push_cast
  linear_combination (-(fft2 ny nx (fun y x => (m y x : ℂ)) ky kx / (ny * nx) * cis (fftfreq ny ky * jy + fftfreq nx kx * jx) *
    ((2 * Real.pi * (fftfreq ny ky / sy)) ^ 2 + (2 * Real.pi * (fftfreq nx kx / sx)) ^ 2))) * Complex.I_sq

theorem filterC_adjoint (ny nx : Nat) (p m v : Nat → Nat → ℂ) :
    mapInner ny nx (filterC ny nx p m) v = mapInner ny nx m (filterC ny nx (fun ky kx => conj (p ky kx)) v) := by
  have e (a : Nat → Nat → ℂ) (q : Nat → Nat → ℂ) : filterC ny nx q a = fun y x =>
      ifft2 ny nx (fun ky kx => fft2 ny nx a ky kx * q ky kx) y x * (((1 / ((ny : ℝ) * nx) : ℝ)) : ℂ) := by
    funext y x; unfold filterC; push_cast; ring
  rw [e, e, (mapInner_mul _ _ _ _ _).1, (mapInner_mul _ _ _ _ _).2]
  congr 1
  rw [mapInner_conj]
  show conj (mapInner ny nx v (ifft2 ny nx fun ky kx => fft2 ny nx m ky kx * p ky kx)) =
    mapInner ny nx m (ifft2 ny nx fun ky kx => fft2 ny nx v ky kx * conj (p ky kx))
  rw [← fft2_adjoint, ← fft2_adjoint, ← mapInner_conj]
  unfold mapInner
  apply Finset.sum_congr rfl; intro ky _
  apply Finset.sum_congr rfl; intro kx _
  rw [map_mul, conj_conj]; ring

theorem inner_re (ny nx : Nat) (a : Nat → Nat → ℂ) (v : Nat → Nat → ℝ) :
    (mapInner ny nx a fun y x => (v y x : ℂ)).re = ∑ y ∈ Finset.range ny, ∑ x ∈ Finset.range nx, (a y x).re * v y x := by
  unfold mapInner
  rw [re_sum]
  apply Finset.sum_congr rfl; intro y _
  rw [re_sum]
  apply Finset.sum_congr rfl; intro x _
  rw [conj_ofReal, re_mul_ofReal]

theorem inner_re' (ny nx : Nat) (a : Nat → Nat → ℂ) (v : Nat → Nat → ℝ) :
    (mapInner ny nx (fun y x => (v y x : ℂ)) a).re = ∑ y ∈ Finset.range ny, ∑ x ∈ Finset.range nx, v y x * (a y x).re := by
  rw [mapInner_conj, conj_re, inner_re]
  apply Finset.sum_congr rfl; intro y _
  apply Finset.sum_congr rfl; intro x _
  ring

theorem divMap_eq (ny nx : Nat) (hy : 0 < ny) (hx : 0 < nx) (sy sx : ℝ) (vy vx : Nat → Nat → ℝ) (jy jx : Nat) :
    divMap ny nx sy sx vy vx jy jx = gradY ny nx sy vy jy jx + gradX ny nx sx vx jy jx := by
  unfold divMap gradY gradX filterMap enmapIfft
  rw [← add_re, ← add_mul, ifft2_freq ny nx hy hx, ifft2_freq ny nx hy hx, ifft2_freq ny nx hy hx, ← Finset.sum_add_distrib]
  congr 2
  apply Finset.sum_congr rfl; intro ky _
  rw [← Finset.sum_add_distrib]
  apply Finset.sum_congr rfl; intro kx _
  ring

theorem deriv_adjoint (ny nx : Nat) (hy : 0 < ny) (hx : 0 < nx) (l : Nat → Nat → ℝ) (m v : Nat → Nat → ℝ) :
    ∑ y ∈ Finset.range ny, ∑ x ∈ Finset.range nx, filterMap ny nx (fun ky kx => (l ky kx : ℂ) * I) m y x * v y x =
    -∑ y ∈ Finset.range ny, ∑ x ∈ Finset.range nx, m y x * filterMap ny nx (fun ky kx => (l ky kx : ℂ) * I) v y x := by
  simp only [filterMap_eq ny nx hy hx]
  rw [← inner_re, ← inner_re']
  have h := filterC_adjoint ny nx (fun ky kx => (l ky kx : ℂ) * I) (fun y x => (m y x : ℂ)) (fun y x => (v y x : ℂ))
  rw [show filterC ny nx (fun ky kx => (l ky kx : ℂ) * I) (fun y x => (m y x : ℂ)) = fun y x =>
    filterC ny nx (fun ky kx => (l ky kx : ℂ) * I) (fun y x => (m y x : ℂ)) y x from rfl] at h
  rw [h, ← neg_re]
  congr 1
  have e : filterC ny nx (fun ky kx => conj ((l ky kx : ℂ) * I)) (fun y x => (v y x : ℂ)) =
      fun y x => filterC ny nx (fun ky kx => (l ky kx : ℂ) * I) (fun y x => (v y x : ℂ)) y x * (((-1 : ℝ)) : ℂ) := by
    funext y x
    rw [filterC_freq ny nx hy hx, filterC_freq ny nx hy hx, Finset.sum_mul]
    apply Finset.sum_congr rfl; intro ky _
    rw [Finset.sum_mul]
    apply Finset.sum_congr rfl; intro kx _
    rw [map_mul, conj_ofReal, conj_I]
    push_cast; ring
  rw [e, (mapInner_mul _ _ _ _ _).2, ofReal_neg, ofReal_one, neg_one_mul]

/-- grad and div are minus the adjoints of each other, for maps of any size. -/
theorem C127_div_adjoint (ny nx : Nat) (hy : 0 < ny) (hx : 0 < nx) (sy sx : ℝ) (m vy vx : Nat → Nat → ℝ) :
    ∑ y ∈ Finset.range ny, ∑ x ∈ Finset.range nx, (gradY ny nx sy m y x * vy y x + gradX ny nx sx m y x * vx y x) =
    -∑ y ∈ Finset.range ny, ∑ x ∈ Finset.range nx, m y x * divMap ny nx sy sx vy vx y x := by
  simp only [divMap_eq ny nx hy hx, mul_add, Finset.sum_add_distrib, neg_add]
  congr 1
  · exact deriv_adjoint ny nx hy hx (fun ky _ => lAxis ny sy ky) m vy
  · exact deriv_adjoint ny nx hy hx (fun _ kx => lAxis nx sx kx) m vx

theorem hermitian_l (ny nx : Nat) (sy sx : ℝ) :
    (ny % 2 = 1 → HermitianF ny nx fun ky _ => (lAxis ny sy ky : ℂ) * I) ∧
    (nx % 2 = 1 → HermitianF ny nx fun _ kx => (lAxis nx sx kx : ℂ) * I) := by
  constructor
  · intro ho ky kx hy hx
    simp only
    rw [lAxis_hneg ny ky sy hy (by omega), map_mul, conj_ofReal, conj_I]; push_cast; ring
  · intro ho ky kx hy hx
    simp only
    rw [lAxis_hneg nx kx sx hx (by omega), map_mul, conj_ofReal, conj_I]; push_cast; ring

theorem filterMap_add (ny nx : Nat) (hy : 0 < ny) (hx : 0 < nx) (p q : Nat → Nat → ℂ) (m : Nat → Nat → ℝ) (jy jx : Nat) :
    filterMap ny nx p m jy jx + filterMap ny nx q m jy jx = filterMap ny nx (fun ky kx => p ky kx + q ky kx) m jy jx := by
  rw [filterMap_eq ny nx hy hx, filterMap_eq ny nx hy hx, filterMap_eq ny nx hy hx, filterC_freq ny nx hy hx, filterC_freq ny nx hy hx,
    filterC_freq ny nx hy hx, ← add_re, ← Finset.sum_add_distrib]
  congr 1
  apply Finset.sum_congr rfl; intro ky _
  rw [← Finset.sum_add_distrib]
  apply Finset.sum_congr rfl; intro kx _
  ring

theorem filterMap_neg (ny nx : Nat) (hy : 0 < ny) (hx : 0 < nx) (p : Nat → Nat → ℂ) (m : Nat → Nat → ℝ) (jy jx : Nat) :
    -filterMap ny nx p m jy jx = filterMap ny nx (fun ky kx => -p ky kx) m jy jx := by
  rw [filterMap_eq ny nx hy hx, filterMap_eq ny nx hy hx, filterC_freq ny nx hy hx, filterC_freq ny nx hy hx, ← neg_re,
    ← Finset.sum_neg_distrib]
  congr 1
  apply Finset.sum_congr rfl; intro ky _
  rw [← Finset.sum_neg_distrib]
  apply Finset.sum_congr rfl; intro kx _
  ring

/-- The divergence of the gradient is the Laplacian, if both sides of the map are odd. -/
theorem C127_div_grad_partial (ny nx : Nat) (hy : ny % 2 = 1) (hx : nx % 2 = 1) (sy sx : ℝ) (m : Nat → Nat → ℝ) (jy jx : Nat) :
    divMap ny nx sy sx (gradY ny nx sy m) (gradX ny nx sx m) jy jx = laplaceMap ny nx sy sx m jy jx := by
  have hy0 : 0 < ny := by omega
  have hx0 : 0 < nx := by omega
  rw [divMap_eq ny nx hy0 hx0]
  unfold gradY gradX laplaceMap
  rw [filterMap_comp ny nx hy0 hx0 _ _ ((hermitian_l ny nx sy sx).1 hy), filterMap_comp ny nx hy0 hx0 _ _ ((hermitian_l ny nx sy sx).2 hx),
    filterMap_add ny nx hy0 hx0, filterMap_neg ny nx hy0 hx0]
  apply filterMap_congr hy0 hx0 _ (fun _ _ _ _ => rfl)
  intro ky kx _ _
  push_cast
  linear_combination ((lAxis ny sy ky : ℂ) ^ 2 + (lAxis nx sx kx : ℂ) ^ 2) * Complex.I_sq

/-- Filters multiply plane waves. -/
theorem filterC_wave (ny nx ay ax : Nat) (hay : ay < ny) (hax : ax < nx) (p : Nat → Nat → ℂ) (jy jx : Nat) :
    filterC ny nx p (fun y x => cis (fftfreq ny ay * y + fftfreq nx ax * x)) jy jx =
      p ay ax * cis (fftfreq ny ay * jy + fftfreq nx ax * jx) := by
  have hy : 0 < ny := by omega
  have hx : 0 < nx := by omega
  let d : Nat → Nat → ℂ := fun ky kx => if ky = ay then if kx = ax then 1 else 0 else 0
  have sumd (f : Nat → Nat → ℂ) : ∑ ky ∈ Finset.range ny, ∑ kx ∈ Finset.range nx, d ky kx * f ky kx = f ay ax := by
    rw [Finset.sum_eq_single ay, Finset.sum_eq_single ax]
    · simp [d]
    · intro b _ hb; simp [d, hb]
    · intro h; exact absurd (Finset.mem_range.2 hax) h
    · intro b _ hb; simp [d, hb]
    · intro h; exact absurd (Finset.mem_range.2 hay) h
  have e : (fun (y x : Nat) => cis (fftfreq ny ay * y + fftfreq nx ax * x)) = ifft2 ny nx d := by
    funext y x
    rw [ifft2_freq ny nx hy hx, sumd]
  have h1' : (ny : ℂ) ≠ 0 := by exact_mod_cast hy.ne'
  have h2' : (nx : ℂ) ≠ 0 := by exact_mod_cast hx.ne'
  rw [filterC_freq ny nx hy hx, e]
  rw [← sumd (fun ky kx => p ky kx * cis (fftfreq ny ky * jy + fftfreq nx kx * jx))]
  apply Finset.sum_congr rfl; intro ky hky
  apply Finset.sum_congr rfl; intro kx hkx
  rw [fft2_ifft2 ny nx d ky kx (Finset.mem_range.1 hky) (Finset.mem_range.1 hkx)]
  field_simp

theorem alt_wave (ny nx : Nat) (h0 : 0 < ny) (he : ny % 2 = 0) (y x : Nat) :
    (((-1 : ℝ) ^ y : ℝ) : ℂ) = cis (fftfreq ny (ny / 2) * y + fftfreq nx 0 * x) := by
  have hn' : (ny : ℝ) ≠ 0 := by exact_mod_cast h0.ne'
  have h2 : ((ny / 2 : ℕ) : ℝ) = ny / 2 := by
    rw [Nat.cast_div (Nat.dvd_of_mod_eq_zero he) (by norm_num)]; norm_num
  have hf : fftfreq ny (ny / 2) = -(1 / 2) := by
    unfold fftfreq
    rw [if_neg (by omega), h2]; field_simp; norm_num
  rw [hf, fftfreq_zero, show -(1 / 2) * (y : ℝ) + 0 * x = -((y : ℝ) * (1 / 2)) by ring, cis_neg, cis_nat_mul, cis_half]
  simp

theorem filterMap_alt (ny nx : Nat) (hy : 0 < ny) (hx : 0 < nx) (he : ny % 2 = 0) (p : Nat → Nat → ℂ) (jy jx : Nat) :
    filterMap ny nx p (fun y _ => (-1) ^ y) jy jx = (p (ny / 2) 0).re * (-1) ^ jy := by
  rw [filterMap_eq ny nx hy hx]
  have e : (fun (y _x : Nat) => (((-1 : ℝ) ^ y : ℝ) : ℂ)) = fun (y x : Nat) => cis (fftfreq ny (ny / 2) * y + fftfreq nx 0 * x) := by
    funext y x; exact alt_wave ny nx hy he y x
  rw [e, filterC_wave ny nx _ _ (by omega) hx, ← alt_wave ny nx hy he, re_mul_ofReal]

theorem filterMap_zero (ny nx : Nat) (hy : 0 < ny) (hx : 0 < nx) (p : Nat → Nat → ℂ) (jy jx : Nat) :
    filterMap ny nx p (fun _ _ => 0) jy jx = 0 := by
  rw [filterMap_eq ny nx hy hx, filterC_freq ny nx hy hx]
  simp [fft2, dftRaw]

/-- For an even number of rows it is not: the gradient of the map whose rows alternate is zero, its Laplacian is not. -/
theorem C127_div_grad_refuted (ny nx : Nat) (h0 : 0 < ny) (hx : 0 < nx) (he : ny % 2 = 0) (sy sx : ℝ) (hs : sy ≠ 0) (jy jx : Nat) :
    let m : Nat → Nat → ℝ := fun y _ => (-1) ^ y
    divMap ny nx sy sx (gradY ny nx sy m) (gradX ny nx sx m) jy jx = 0 ∧
    laplaceMap ny nx sy sx m jy jx = -(Real.pi / sy) ^ 2 * m jy jx ∧ laplaceMap ny nx sy sx m jy jx ≠ 0 := by
  intro m
  have gy : gradY ny nx sy m = fun _ _ => 0 := by
    funext y x
    unfold gradY
    rw [filterMap_alt ny nx h0 hx he, re_ofReal_mul, I_re, mul_zero, zero_mul]
  have gx : gradX ny nx sx m = fun _ _ => 0 := by
    funext y x
    unfold gradX
    rw [filterMap_alt ny nx h0 hx he, re_ofReal_mul, I_re, mul_zero, zero_mul]
  have hn' : (ny : ℝ) ≠ 0 := by exact_mod_cast h0.ne'
  have h2 : ((ny / 2 : ℕ) : ℝ) = ny / 2 := by
    rw [Nat.cast_div (Nat.dvd_of_mod_eq_zero he) (by norm_num)]; norm_num
  have hf : fftfreq ny (ny / 2) = -(1 / 2) := by
    unfold fftfreq
    rw [if_neg (by omega), h2]; field_simp; norm_num
  have L : laplaceMap ny nx sy sx m jy jx = -(Real.pi / sy) ^ 2 * m jy jx := by
    unfold laplaceMap
    rw [filterMap_alt ny nx h0 hx he, ofReal_re]
    unfold lAxis
    rw [hf, fftfreq_zero]
    simp only [m]
    ring
  refine ⟨?_, L, ?_⟩
  · rw [divMap_eq ny nx h0 hx, gy, gx]
    unfold gradY gradX
    rw [filterMap_zero ny nx h0 hx, filterMap_zero ny nx h0 hx, add_zero]
  · rw [L]
    have : Real.pi / sy ≠ 0 := div_ne_zero Real.pi_ne_zero hs
    have h1 : m jy jx ≠ 0 := pow_ne_zero _ (by norm_num)
    exact mul_ne_zero (neg_ne_zero.2 (pow_ne_zero _ this)) h1

/-- The heat filter. -/
noncomputable def heatP (ny nx : Nat) (sy sx s : ℝ) (ky kx : Nat) : ℂ :=
  (Real.exp (-s * (lAxis ny sy ky ^ 2 + lAxis nx sx kx ^ 2)) : ℂ)

theorem smooth_heat (ny nx : Nat) (sy sx s : ℝ) (hs : 0 ≤ s) (m : Nat → Nat → ℝ) (jy jx : Nat) (hy : jy < ny) (hx : jx < nx) :
    smoothGauss ny nx sy sx (Real.sqrt (2 * s)) m jy jx = filterMap ny nx (heatP ny nx sy sx s) m jy jx := by
  unfold smoothGauss
  by_cases h : Real.sqrt (2 * s) = 0
  · rw [if_pos h]
    have : s = 0 := by
      rw [Real.sqrt_eq_zero (by linarith)] at h; linarith
    subst this
    rw [← filterMap_one ny nx m jy jx hy hx]
    congr 1
    funext ky kx
    simp [heatP]
  · rw [if_neg h]
    simp only
    rw [if_pos (Real.sqrt_nonneg _)]
    congr 1
    funext ky kx
    unfold heatP
    rw [Real.sq_sqrt (by linarith)]
    congr 2
    ring

theorem heat_hermitian (ny nx : Nat) (sy sx s : ℝ) : HermitianF ny nx (heatP ny nx sy sx s) := by
  intro ky kx hy hx
  unfold heatP
  rw [lAxis_hneg_sq ny ky sy hy, lAxis_hneg_sq nx kx sx hx, conj_ofReal]

/-- smooth_gauss is the flow of heat: at sigma = 0 it gives back the map, and the derivative of the smoothed map with respect to
sigma²/2 is its Laplacian. -/
theorem C127_smooth_heat (ny nx : Nat) (sy sx : ℝ) (m : Nat → Nat → ℝ) (jy jx : Nat) (hy : jy < ny) (hx : jx < nx) :
    smoothGauss ny nx sy sx 0 m jy jx = m jy jx ∧
    ∀ s : ℝ, 0 ≤ s → HasDerivWithinAt (fun s => smoothGauss ny nx sy sx (Real.sqrt (2 * s)) m jy jx)
      (laplaceMap ny nx sy sx (smoothGauss ny nx sy sx (Real.sqrt (2 * s)) m) jy jx) (Set.Ici 0) s := by
  have hy0 : 0 < ny := by omega
  have hx0 : 0 < nx := by omega
  refine ⟨by unfold smoothGauss; rw [if_pos rfl], ?_⟩
  intro s hs
  have key : HasDerivAt (fun s => filterMap ny nx (heatP ny nx sy sx s) m jy jx)
      (laplaceMap ny nx sy sx (smoothGauss ny nx sy sx (Real.sqrt (2 * s)) m) jy jx) s := by
    have e1 : laplaceMap ny nx sy sx (smoothGauss ny nx sy sx (Real.sqrt (2 * s)) m) jy jx =
        laplaceMap ny nx sy sx (filterMap ny nx (heatP ny nx sy sx s) m) jy jx := by
      unfold laplaceMap
      rw [filterMap_congr hy0 hx0 (fun _ _ _ _ => rfl) (fun y x h1 h2 => smooth_heat ny nx sy sx s hs m y x h1 h2)]
    rw [e1]
    unfold laplaceMap
    rw [filterMap_comp ny nx hy0 hx0 _ _ (heat_hermitian ny nx sy sx s), filterMap_neg ny nx hy0 hx0]
    simp only [filterMap_eq ny nx hy0 hx0, filterC_freq ny nx hy0 hx0]
    apply re_deriv
    apply HasDerivAt.fun_sum; intro ky _
    apply HasDerivAt.fun_sum; intro kx _
    apply HasDerivAt.mul_const
    apply HasDerivAt.const_mul
    unfold heatP
    have h0 : HasDerivAt (fun s : ℝ => Real.exp (-s * (lAxis ny sy ky ^ 2 + lAxis nx sx kx ^ 2)))
        (Real.exp (-s * (lAxis ny sy ky ^ 2 + lAxis nx sx kx ^ 2)) * (-1 * (lAxis ny sy ky ^ 2 + lAxis nx sx kx ^ 2))) s :=
      ((hasDerivAt_id s).neg.mul_const _).exp
    refine h0.ofReal_comp.congr_deriv ?_
    push_cast
    ring
  refine key.hasDerivWithinAt.congr (fun t ht => smooth_heat ny nx sy sx t ht m jy jx hy hx) (smooth_heat ny nx sy sx s hs m jy jx hy hx)

/-- Smoothing twice is smoothing once: the variances of the beams add. -/
theorem C127_smooth_compose (ny nx : Nat) (sy sx a b : ℝ) (ha : 0 ≤ a) (hb : 0 ≤ b) (m : Nat → Nat → ℝ) (jy jx : Nat) (hy : jy < ny)
    (hx : jx < nx) :
    smoothGauss ny nx sy sx b (smoothGauss ny nx sy sx a m) jy jx = smoothGauss ny nx sy sx (Real.sqrt (a ^ 2 + b ^ 2)) m jy jx := by
  have hy0 : 0 < ny := by omega
  have hx0 : 0 < nx := by omega
  have ea : a = Real.sqrt (2 * (a ^ 2 / 2)) := by rw [mul_div_cancel₀ _ (by norm_num), Real.sqrt_sq ha]
  have eb : b = Real.sqrt (2 * (b ^ 2 / 2)) := by rw [mul_div_cancel₀ _ (by norm_num), Real.sqrt_sq hb]
  have ec : a ^ 2 + b ^ 2 = 2 * (a ^ 2 / 2 + b ^ 2 / 2) := by ring
  have h1 : smoothGauss ny nx sy sx b (smoothGauss ny nx sy sx a m) jy jx =
      filterMap ny nx (heatP ny nx sy sx (b ^ 2 / 2)) (smoothGauss ny nx sy sx a m) jy jx := by
    conv_lhs => rw [eb]
    exact smooth_heat ny nx sy sx _ (by positivity) _ jy jx hy hx
  rw [h1, ec, smooth_heat ny nx sy sx _ (by positivity) m jy jx hy hx]
  rw [filterMap_congr (m' := filterMap ny nx (heatP ny nx sy sx (a ^ 2 / 2)) m) hy0 hx0 (fun _ _ _ _ => rfl) (fun y x h1 h2 => by
    conv_lhs => rw [ea]
    exact smooth_heat ny nx sy sx _ (by positivity) m y x h1 h2)]
  rw [filterMap_comp ny nx hy0 hx0 _ _ (heat_hermitian ny nx sy sx _)]
  congr 1
  funext ky kx
  unfold heatP
  rw [← ofReal_mul, ← Real.exp_add]
  congr 2
  ring

/-- A negative sigma gives the complement: the smoothed map and its complement add up to the map. Not so for sigma = 0, where
both are the map. -/
theorem C127_smooth_complement (ny nx : Nat) (sy sx a : ℝ) (ha : 0 < a) (m : Nat → Nat → ℝ) (jy jx : Nat) (hy : jy < ny) (hx : jx < nx) :
    smoothGauss ny nx sy sx a m jy jx + smoothGauss ny nx sy sx (-a) m jy jx = m jy jx := by
  have hy0 : 0 < ny := by omega
  have hx0 : 0 < nx := by omega
  unfold smoothGauss
  have h1 : -a ≠ 0 := neg_ne_zero.2 ha.ne'
  have h2 : ¬ (0 ≤ -a) := by linarith
  rw [if_neg ha.ne', if_neg h1]
  simp only
  rw [if_pos ha.le, if_neg h2, filterMap_add ny nx hy0 hx0, ← filterMap_one ny nx m jy jx hy hx]
  congr 1
  funext ky kx
  rw [neg_sq]
  push_cast
  ring

theorem filter_mean (ny nx : Nat) (hy : 0 < ny) (hx : 0 < nx) (p : Nat → Nat → ℂ) (m : Nat → Nat → ℝ) (r : ℝ) (hp : p 0 0 = r) :
    ∑ y ∈ Finset.range ny, ∑ x ∈ Finset.range nx, filterMap ny nx p m y x =
      r * ∑ y ∈ Finset.range ny, ∑ x ∈ Finset.range nx, m y x := by
  have h := filterC_adjoint ny nx p (fun y x => (m y x : ℂ)) (fun _ _ => ((1 : ℝ) : ℂ))
  have e : filterC ny nx (fun ky kx => conj (p ky kx)) (fun _ _ => ((1 : ℝ) : ℂ)) = fun _ _ => (r : ℂ) := by
    funext y x
    have := filterC_wave ny nx 0 0 hy hx (fun ky kx => conj (p ky kx)) y x
    simp only [fftfreq_zero, zero_mul, add_zero, cis_zero, mul_one, hp, conj_ofReal] at this
    simpa using this
  rw [e] at h
  have h2 := congrArg Complex.re h
  have h3 := inner_re' ny nx (fun _ _ => (r : ℂ)) m
  rw [h3, inner_re] at h2
  simp only [mul_one, ofReal_re] at h2
  simp only [filterMap_eq ny nx hy hx]
  rw [h2, Finset.mul_sum]
  apply Finset.sum_congr rfl; intro y _
  rw [Finset.mul_sum]
  apply Finset.sum_congr rfl; intro x _
  ring

/-- Smoothing keeps the sum of the pixels, and the complement has zero sum. -/
theorem C127_smooth_mean (ny nx : Nat) (hy : 0 < ny) (hx : 0 < nx) (sy sx a : ℝ) (m : Nat → Nat → ℝ) :
    ∑ y ∈ Finset.range ny, ∑ x ∈ Finset.range nx, smoothGauss ny nx sy sx a m y x =
      if 0 ≤ a then ∑ y ∈ Finset.range ny, ∑ x ∈ Finset.range nx, m y x else 0 := by
  unfold smoothGauss
  by_cases h : a = 0
  · subst h; simp
  · simp only [if_neg h]
    by_cases h1 : 0 ≤ a
    · simp only [if_pos h1]
      rw [filter_mean ny nx hy hx _ m 1 (by simp [lAxis, fftfreq_zero]), one_mul]
    · simp only [if_neg h1]
      rw [filter_mean ny nx hy hx _ m 0 (by simp [lAxis, fftfreq_zero]), zero_mul]

theorem sinc_integral (f : ℝ) : npSinc f = ∫ t in (-(1 / 2 : ℝ))..(1 / 2), Real.cos (2 * Real.pi * f * t) := by
  unfold npSinc
  by_cases h : f = 0
  · rw [if_pos h]; subst h; simp; norm_num
  · rw [if_neg h]
    have hc : 2 * Real.pi * f ≠ 0 := mul_ne_zero (mul_ne_zero two_ne_zero Real.pi_ne_zero) h
    have hp : Real.pi * f ≠ 0 := mul_ne_zero Real.pi_ne_zero h
    rw [intervalIntegral.integral_comp_mul_left (fun t => Real.cos t) hc, integral_cos,
      show 2 * Real.pi * f * (1 / 2) = Real.pi * f by ring, show 2 * Real.pi * f * -(1 / 2) = -(Real.pi * f) by ring, Real.sin_neg,
      smul_eq_mul]
    field_simp
    ring

theorem tent_integral (f : ℝ) : npSinc f ^ 2 = ∫ t in (0 : ℝ)..1, 2 * (1 - t) * Real.cos (2 * Real.pi * f * t) := by
  unfold npSinc
  by_cases h : f = 0
  · rw [if_pos h]; subst h
    have hd : ∀ t ∈ Set.uIcc (0 : ℝ) 1, HasDerivAt (fun t : ℝ => 2 * t - t ^ 2) (2 * (1 - t) * Real.cos (2 * Real.pi * 0 * t)) t := by
      intro t _
      have h1 := ((hasDerivAt_id t).const_mul 2).sub ((hasDerivAt_id t).pow 2)
      refine h1.congr_deriv ?_
      norm_num
      ring
    rw [intervalIntegral.integral_eq_sub_of_hasDerivAt hd (Continuous.intervalIntegrable (by fun_prop) _ _)]
    norm_num
  · rw [if_neg h]
    have hc : 2 * Real.pi * f ≠ 0 := mul_ne_zero (mul_ne_zero two_ne_zero Real.pi_ne_zero) h
    have hp : Real.pi * f ≠ 0 := mul_ne_zero Real.pi_ne_zero h
    set a := 2 * Real.pi * f with ha
    have hd : ∀ t ∈ Set.uIcc (0 : ℝ) 1, HasDerivAt (fun t : ℝ => 2 * ((1 - t) * (Real.sin (a * t) / a) - Real.cos (a * t) / a ^ 2))
        (2 * (1 - t) * Real.cos (a * t)) t := by
      intro t _
      have h0 : HasDerivAt (fun t : ℝ => a * t) a t := by simpa using (hasDerivAt_id t).const_mul a
      have hs := h0.sin.div_const a
      have hcs := h0.cos.div_const (a ^ 2)
      have h1 : HasDerivAt (fun t : ℝ => 1 - t) (-1) t := by simpa using (hasDerivAt_id t).const_sub 1
      have := ((h1.mul hs).sub hcs).const_mul 2
      refine this.congr_deriv ?_
      field_simp
      ring
    rw [intervalIntegral.integral_eq_sub_of_hasDerivAt hd (Continuous.intervalIntegrable (by fun_prop) _ _)]
    have hcos : Real.cos a = 1 - 2 * Real.sin (Real.pi * f) ^ 2 := by
      rw [ha, show 2 * Real.pi * f = 2 * (Real.pi * f) by ring, Real.cos_two_mul]
      have := Real.sin_sq_add_cos_sq (Real.pi * f)
      linarith
    simp only [mul_one, mul_zero, Real.sin_zero, Real.cos_zero, sub_self, zero_mul, zero_div, sub_zero]
    rw [hcos, ha]
    field_simp
    ring

/-- What the pixel windows mean: nearest-neighbour pixels average a wave over the pixel; bilinear pixels weight it by a tent, up to
the factor (2+cos)/3 of the overlaps of the tents of neighbouring pixels. -/
theorem C127_pixwin (f : ℝ) :
    pixwin1d .no f = 1 ∧ pixwin1d .nearest f = (∫ t in (-(1 / 2 : ℝ))..(1 / 2), Real.cos (2 * Real.pi * f * t)) ∧
    pixwin1d .linear f * (2 / 3 + 2 * (1 / 6) * Real.cos (2 * Real.pi * f)) = ∫ t in (0 : ℝ)..1, 2 * (1 - t) * Real.cos (2 * Real.pi * f * t) := by
  refine ⟨by simp [pixwin1d], sinc_integral f, ?_⟩
  rw [← tent_integral]
  unfold pixwin1d
  have : 2 + Real.cos (2 * Real.pi * f) ≠ 0 := by linarith [Real.neg_one_le_cos (2 * Real.pi * f)]
  field_simp
  ring

theorem sinc_pos (f : ℝ) (h : |f| < 1) : 0 < npSinc f := by
  unfold npSinc
  by_cases h0 : f = 0
  · rw [if_pos h0]; exact one_pos
  · rw [if_neg h0]
    have hp := Real.pi_pos
    rw [abs_lt] at h
    rcases lt_or_gt_of_ne h0 with h1 | h1
    · have h2 : Real.pi * f < 0 := mul_neg_of_pos_of_neg hp h1
      exact div_pos_of_neg_of_neg (Real.sin_neg_of_neg_of_neg_pi_lt h2 (by nlinarith)) h2
    · have h2 : 0 < Real.pi * f := mul_pos hp h1
      exact div_pos (Real.sin_pos_of_pos_of_lt_pi h2 (by nlinarith)) h2

theorem window_pos (order : WinOrder) (scale : ℝ) (hs : 1 / 2 < scale) (n k : Nat) (hk : k < n) : 0 < calcWindow order scale n k := by
  have hf : |fftfreq n k / scale| < 1 := by
    rw [abs_div, abs_of_pos (by linarith : (0 : ℝ) < scale), div_lt_one (by linarith)]
    linarith [fftfreq_abs n k hk]
  unfold calcWindow pixwin1d
  cases order with
  | no => simp
  | nearest => exact sinc_pos _ hf
  | linear =>
    have : 0 < 2 + Real.cos (2 * Real.pi * (fftfreq n k / scale)) := by linarith [Real.neg_one_le_cos (2 * Real.pi * (fftfreq n k / scale))]
    exact div_pos (pow_pos (sinc_pos _ hf) 2) (by positivity)

theorem npSinc_neg (f : ℝ) : npSinc (-f) = npSinc f := by
  unfold npSinc
  by_cases h : f = 0
  · rw [if_pos h, if_pos (by simp [h])]
  · rw [if_neg h, if_neg (by simpa using h), mul_neg, Real.sin_neg, neg_div_neg_eq]

theorem window_even (order : WinOrder) (scale : ℝ) (n k : Nat) (hk : k < n) : calcWindow order scale n (hneg n k) = calcWindow order scale n k := by
  have hsq := fftfreq_hneg_sq n k hk
  unfold calcWindow
  rcases sq_eq_sq_iff_eq_or_eq_neg.1 hsq with h | h
  · rw [h]
  · rw [h, neg_div]
    unfold pixwin1d
    cases order with
    | no => simp
    | nearest => exact npSinc_neg _
    | linear => simp only; rw [npSinc_neg, mul_neg, Real.cos_neg]

/-- Powers of the window add, so unapply_window undoes apply_window, if the pixels of the window are less than twice as large as
those of the map. -/
theorem C127_window_partial (order : WinOrder) (scale a b : ℝ) (hs : 1 / 2 < scale) (ny nx : Nat) (m : Nat → Nat → ℝ) (jy jx : Nat)
    (hy : jy < ny) (hx : jx < nx) :
    applyWindow order scale b ny nx (applyWindow order scale a ny nx m) jy jx = applyWindow order scale (a + b) ny nx m jy jx ∧
    unapplyWindow order scale a ny nx (applyWindow order scale a ny nx m) jy jx = m jy jx := by
  have hy0 : 0 < ny := by omega
  have hx0 : 0 < nx := by omega
  have main : ∀ b, applyWindow order scale b ny nx (applyWindow order scale a ny nx m) jy jx = applyWindow order scale (a + b) ny nx m jy jx := by
    intro b
    unfold applyWindow
    rw [filterMap_comp ny nx hy0 hx0]
    · apply filterMap_congr hy0 hx0 _ (fun _ _ _ _ => rfl)
      intro ky kx h1 h2
      rw [Real.rpow_add (window_pos order scale hs ny ky h1), Real.rpow_add (window_pos order scale hs nx kx h2)]
      push_cast
      ring
    · intro ky kx h1 h2
      simp only
      rw [window_even order scale ny ky h1, window_even order scale nx kx h2, conj_ofReal]
  refine ⟨main b, ?_⟩
  unfold unapplyWindow
  rw [main, add_neg_cancel]
  unfold applyWindow
  rw [← filterMap_one ny nx m jy jx hy hx]
  simp

/-- For a window of twice the pixel size the window is zero at the highest frequency of an even number of rows: a map of
alternating rows is lost, and cannot be told from the empty map. -/
theorem C127_window_refuted (ny nx : Nat) (h0 : 0 < ny) (hx : 0 < nx) (he : ny % 2 = 0) (jy jx : Nat) :
    applyWindow .nearest (1 / 2) 1 ny nx (fun y _ => (-1) ^ y) jy jx = 0 ∧ applyWindow .nearest (1 / 2) 1 ny nx (fun _ _ => 0) jy jx = 0 := by
  have hn' : (ny : ℝ) ≠ 0 := by exact_mod_cast h0.ne'
  have h2 : ((ny / 2 : ℕ) : ℝ) = ny / 2 := by
    rw [Nat.cast_div (Nat.dvd_of_mod_eq_zero he) (by norm_num)]; norm_num
  have hf : fftfreq ny (ny / 2) = -(1 / 2) := by
    unfold fftfreq
    rw [if_neg (by omega), h2]; field_simp; norm_num
  constructor
  · unfold applyWindow
    rw [filterMap_alt ny nx h0 hx he, ofReal_re]
    have : calcWindow .nearest (1 / 2) ny (ny / 2) = 0 := by
      unfold calcWindow pixwin1d npSinc
      rw [hf, if_neg (by norm_num)]
      norm_num
    rw [this]; simp
  · exact filterMap_zero ny nx h0 hx _ jy jx

/-- The mean of the `os` wavenumbers that oversampled axes have in the place of wavenumber k. -/
noncomputable def overMean (n os : Nat) (step : ℝ) (k : Nat) : Option ℝ :=
  ((List.range os).mapM fun i => lAxisOver n os step (os * k + i)).map fun ls => ls.sum / os

theorem mapM_some {α β : Type} (f : α → β) (l : List α) : (l.mapM fun a => some (f a)) = some (l.map f) := by
  induction l with
  | nil => rfl
  | cons a l ih => simp [List.mapM_cons, ih]

theorem list_sum_range (os : Nat) (f : Nat → ℝ) : ((List.range os).map f).sum = ∑ i ∈ Finset.range os, f i := by
  induction os with
  | zero => simp
  | succ n ih => rw [List.range_succ, List.map_append, List.sum_append, ih, Finset.sum_range_succ]; simp

theorem sum_id_real (os : Nat) : ∑ i ∈ Finset.range os, (i : ℝ) = os * (os - 1) / 2 := by
  induction os with
  | zero => simp
  | succ n ih => rw [Finset.sum_range_succ, ih]; push_cast; ring

/-- Oversampled axes cover Fourier space evenly: the pixels in the place of one pixel have its wavenumber as their mean, for at
least three pixels, except for the middle one of an odd number of pixels. -/
theorem C127_oversample_partial (n os k : Nat) (step : ℝ) (hn : 3 ≤ n) (hos : 2 ≤ os) (_hk : k < n) (hmid : 2 * k + 1 ≠ n) :
    overMean n os step k = some (lAxis n step k) := by
  have hn' : (n : ℝ) ≠ 0 := by exact_mod_cast (by omega : n ≠ 0)
  have ho' : (os : ℝ) ≠ 0 := by exact_mod_cast (by omega : os ≠ 0)
  have hbig : os < n * os := by nlinarith
  have hcut : os < (n * os - 1) / 2 + 1 := by
    have : 3 * os ≤ n * os := Nat.mul_le_mul_right _ hn
    omega
  have ha : lAxis (n * os) step os = 1 / (n * step) * 2 * Real.pi := by
    unfold lAxis fftfreq
    rw [if_pos hcut]
    push_cast
    field_simp
  have hl : ∀ i, i < os → lAxis (n * os) step (os * k + i) = lAxis n step k + (i / os) * (1 / (n * step) * 2 * Real.pi) := by
    intro i hi
    unfold lAxis fftfreq
    by_cases h : k < (n - 1) / 2 + 1
    · have h1 : 2 * (k + 1) ≤ n := by omega
      have h2 : os * k + i < (n * os - 1) / 2 + 1 := by
        have h3 : os * (2 * (k + 1)) ≤ os * n := Nat.mul_le_mul_left _ h1
        have h4 : os * (2 * (k + 1)) = 2 * (os * k) + 2 * os := by ring
        have h5 : os * n = n * os := by ring
        omega
      rw [if_pos h, if_pos h2]
      push_cast
      field_simp
    · have h1 : n ≤ 2 * k := by omega
      have h2 : ¬ (os * k + i < (n * os - 1) / 2 + 1) := by
        have h3 : os * n ≤ os * (2 * k) := Nat.mul_le_mul_left _ h1
        have h4 : os * (2 * k) = 2 * (os * k) := by ring
        have h5 : os * n = n * os := by ring
        by_cases h6 : n = 2 * k
        · have h7 : n * os = 2 * (os * k) := by rw [h6]; ring
          omega
        · have h8 : os * (n + 1) ≤ os * (2 * k) := Nat.mul_le_mul_left _ (by omega)
          have h9 : os * (n + 1) = n * os + os := by ring
          omega
      rw [if_neg h, if_neg h2]
      push_cast
      field_simp
      ring
  unfold overMean
  have e : ((List.range os).mapM fun i => lAxisOver n os step (os * k + i)) =
      (List.range os).mapM fun i => some (lAxis (n * os) step (os * k + i) + lAxis (n * os) step os / 2 * (-1 + 1 / os)) := by
    congr 1
    funext i
    unfold lAxisOver
    simp only
    rw [if_neg (by omega), if_neg (by omega)]
  rw [e, mapM_some, Option.map_some, list_sum_range]
  congr 1
  have e2 : ∑ i ∈ Finset.range os, (lAxis (n * os) step (os * k + i) + lAxis (n * os) step os / 2 * (-1 + 1 / os)) =
      ∑ i ∈ Finset.range os, ((lAxis n step k + (1 / (n * step) * 2 * Real.pi) / 2 * (-1 + 1 / os)) + (1 / (n * step) * 2 * Real.pi) / os * (i : ℝ)) := by
    apply Finset.sum_congr rfl
    intro i hi
    rw [hl i (Finset.mem_range.1 hi), ha]
    ring
  rw [e2, Finset.sum_add_distrib, ← Finset.mul_sum, sum_id_real, Finset.sum_const, Finset.card_range, nsmul_eq_mul]
  field_simp
  ring

/-- The middle pixel of an odd number of pixels is torn apart: for oversample = 2 one half is at the highest frequency and the
other half at the lowest, and their mean is next to zero. Two pixels are shifted the wrong way, and one pixel is an error. -/
theorem C127_oversample_refuted (h : Nat) (hh : 1 ≤ h) :
    overMean (2 * h + 1) 2 1 h = some (-(Real.pi / (2 * h + 1))) ∧ lAxis (2 * h + 1) 1 h = 2 * h * (Real.pi / (2 * h + 1)) ∧
    overMean 2 2 1 0 = some (Real.pi / 2) ∧ lAxis 2 1 0 = 0 ∧ overMean 1 2 1 0 = none := by
  have hp : (2 * (h : ℝ) + 1) ≠ 0 := by positivity
  refine ⟨?_, ?_, ?_, ?_, ?_⟩
  · unfold overMean
    have e : ((List.range 2).mapM fun i => lAxisOver (2 * h + 1) 2 1 (2 * h + i)) =
        (List.range 2).mapM fun i => some (lAxis ((2 * h + 1) * 2) 1 (2 * h + i) + lAxis ((2 * h + 1) * 2) 1 2 / 2 * (-1 + 1 / (2 : ℕ))) := by
      congr 1
      funext i
      unfold lAxisOver
      simp only
      rw [if_neg (by omega), if_neg (by omega)]
    rw [e, mapM_some, Option.map_some, list_sum_range]
    congr 1
    rw [Finset.sum_range_succ, Finset.sum_range_succ, Finset.sum_range_zero]
    unfold lAxis fftfreq
    rw [if_pos (by omega : 2 * h + 0 < ((2 * h + 1) * 2 - 1) / 2 + 1), if_neg (by omega : ¬ (2 * h + 1 < ((2 * h + 1) * 2 - 1) / 2 + 1)),
      if_pos (by omega : 2 < ((2 * h + 1) * 2 - 1) / 2 + 1)]
    push_cast
    field_simp
    ring
  · unfold lAxis fftfreq
    rw [if_pos (by omega)]
    push_cast
    field_simp
  · unfold overMean lAxisOver lAxis fftfreq
    simp [List.range_succ]
    ring
  · simp [lAxis, fftfreq]
  · unfold overMean lAxisOver
    simp [List.range_succ]

/-- The conditions above are met: a 3 × 5 map, and oversampled axes of 4 pixels. -/
example : divMap 3 5 1 1 (gradY 3 5 1 fun y x => y + x) (gradX 3 5 1 fun y x => y + x) 0 0 = laplaceMap 3 5 1 1 (fun y x => y + x) 0 0 :=
  C127_div_grad_partial 3 5 rfl rfl 1 1 _ 0 0
example : unapplyWindow .linear 1 2 4 6 (applyWindow .linear 1 2 4 6 fun y x => y * x) 3 2 = ((3 : ℕ) * (2 : ℕ) : ℝ) :=
  (C127_window_partial .linear 1 2 0 (by norm_num) 4 6 _ 3 2 (by norm_num) (by norm_num)).2
example : overMean 4 3 1 2 = some (lAxis 4 1 2) := C127_oversample_partial 4 3 2 1 (by norm_num) (by norm_num) (by norm_num) (by norm_num)

end Pixell
