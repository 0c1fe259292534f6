import Mathlib.Tactic.IntervalCases
import Verif.Lemmas.Matched

/-
Property C107: the matched filter for noise with a constant covariance.
-/
namespace Pixell
open Complex
open scoped ComplexConjugate

/-- Specification: the map of a single point source: all of the flux `F` in the pixel (py,px), per steradian. -/
noncomputable def pointMap (Om : Nat → Nat → ℝ) (F : ℝ) (py px : Nat) : Nat → Nat → ℝ :=
  fun y x => if y = py ∧ x = px then F / Om y x else 0

/-- Specification: `obs` is the point source seen through the beam `B`: each Fourier coefficient of the point source is
multiplied by that of the beam. -/
def Observes (ny nx : Nat) (Om : Nat → Nat → ℝ) (B : Nat → Nat → ℝ) (F : ℝ) (py px : Nat) (obs : Nat → Nat → ℝ) : Prop :=
  ∀ ky kx, ky < ny → kx < nx →
    fft2 ny nx (cplx obs) ky kx = (B ky kx : ℂ) * fft2 ny nx (cplx (pointMap Om F py px)) ky kx

/-- Specification: the pixel covariance of noise whose harmonic power is `Ps`. -/
noncomputable def noiseCov (ny nx : Nat) (A : ℝ) (Ps : Nat → Nat → ℝ) (p q : Nat × Nat) : ℝ :=
  (∑ k ∈ grid ny nx, Ps k.1 k.2 * Real.cos (2 * Real.pi * ((k.1 : ℝ) * ((p.1 : ℝ) - q.1) / ny + (k.2 : ℝ) * ((p.2 : ℝ) - q.2) / nx))) /
    (A * ((ny : ℝ) * nx))

/-- Specification: the variance of Σ w·noise. -/
noncomputable def noiseVar (ny nx : Nat) (A : ℝ) (Ps : Nat → Nat → ℝ) (w : Nat × Nat → ℝ) : ℝ :=
  ∑ p ∈ grid ny nx, ∑ q ∈ grid ny nx, w p * w q * noiseCov ny nx A Ps p q

theorem wave_re (ny nx : Nat) (k : Nat × Nat) (dy dx : ℤ) :
    (wave ny nx k dy dx).re = Real.cos (2 * Real.pi * ((k.1 : ℝ) * dy / ny + (k.2 : ℝ) * dx / nx)) := by
  unfold wave cis
  rw [show (2 * (Real.pi : ℂ) * (((k.1 : ℝ) * dy / ny + (k.2 : ℝ) * dx / nx : ℝ) : ℂ) * I) =
    ((2 * Real.pi * ((k.1 : ℝ) * dy / ny + (k.2 : ℝ) * dx / nx) : ℝ) : ℂ) * I by push_cast; ring, Complex.exp_ofReal_mul_I_re]

theorem noiseCov_ker (ny nx : Nat) (A : ℝ) (Ps : Nat → Nat → ℝ) (p q : Nat × Nat) :
    noiseCov ny nx A Ps p q = kerR ny nx Ps (p.1 - q.1) (p.2 - q.2) / A := by
  unfold noiseCov
  rw [kerR_cos, div_div, mul_comm A]
  congr 1
  apply Finset.sum_congr rfl
  intro k _
  rw [wave_re]; push_cast; rfl

theorem fft2_wave (ny nx : Nat) (k l : Nat × Nat) (hk : k ∈ grid ny nx) (hl : l ∈ grid ny nx) :
    fft2 ny nx (fun y x => wave ny nx k y x) l.1 l.2 = if k = l then (ny : ℂ) * nx else 0 := by
  rw [mem_grid] at hl
  have h := fft2_ifft2 ny nx (fun a b => if (a, b) = k then (1 : ℂ) else 0) l.1 l.2 hl.1 hl.2
  have e : ∀ y x, ifft2 ny nx (fun a b => if (a, b) = k then (1 : ℂ) else 0) y x = wave ny nx k y x := by
    intro y x
    rw [ifft2_eq, Finset.sum_eq_single k]
    · simp
    · intro b _ hb; simp [hb]
    · intro hc; exact absurd hk hc
  rw [show (fun y x : Nat => wave ny nx k y x) = ifft2 ny nx (fun a b => if (a, b) = k then (1 : ℂ) else 0) from
    funext fun y => funext fun x => (e y x).symm, h]
  by_cases hc : k = l
  · subst hc; simp
  · rw [if_neg hc, if_neg (fun h => hc (by rw [← h])), mul_zero]

/-- The specification `noiseCov` is what it says: the expected square of each coefficient of map2harm (normalized
physically) is `Ps`. -/
theorem noiseCov_power {ny nx : Nat} {A : ℝ} (hA : 0 < A) {Ps : Nat → Nat → ℝ} (hP : EvenProf ny nx Ps) (k : Nat × Nat) (hk : k ∈ grid ny nx) :
    ((fftNorm .phys false ny nx A : ℝ) : ℂ) ^ 2 * ∑ p ∈ grid ny nx, ∑ q ∈ grid ny nx,
      (noiseCov ny nx A Ps p q : ℂ) * (conj (wave ny nx k p.1 p.2) * wave ny nx k q.1 q.2) = Ps k.1 k.2 := by
  have hk' := mem_grid.1 hk
  have h0y : 0 < ny := by omega
  have h0x : 0 < nx := by omega
  have h1 : (ny : ℂ) ≠ 0 := by exact_mod_cast h0y.ne'
  have h2 : (nx : ℂ) ≠ 0 := by exact_mod_cast h0x.ne'
  have hA' : (A : ℂ) ≠ 0 := by exact_mod_cast hA.ne'
  have eig : ∀ p ∈ grid ny nx, ∑ q ∈ grid ny nx, wave ny nx k q.1 q.2 * kerC ny nx (cplx Ps) (p.1 - q.1) (p.2 - q.2) =
      Ps k.1 k.2 * wave ny nx k p.1 p.2 := by
    intro p _
    have h := ifft2_filter ny nx h0y h0x (cplx Ps) (fun y x => wave ny nx k y x) p.1 p.2
    rw [ifft2_eq, Finset.sum_eq_single k] at h
    · rw [fft2_wave ny nx k k hk hk, if_pos rfl] at h
      apply mul_left_cancel₀ (mul_ne_zero h1 h2)
      rw [← h]; unfold cplx; ring
    · intro b hb hne
      rw [fft2_wave ny nx k b hk hb, if_neg (Ne.symm hne)]; ring
    · intro hc; exact absurd hk hc
  have e : ∀ p ∈ grid ny nx, ∑ q ∈ grid ny nx, (noiseCov ny nx A Ps p q : ℂ) * (conj (wave ny nx k p.1 p.2) * wave ny nx k q.1 q.2) =
      Ps k.1 k.2 / A := by
    intro p hp
    have h3 : wave ny nx k p.1 p.2 * conj (wave ny nx k p.1 p.2) = 1 := by unfold wave; exact cis_mul_conj _
    have : ∑ q ∈ grid ny nx, (noiseCov ny nx A Ps p q : ℂ) * (conj (wave ny nx k p.1 p.2) * wave ny nx k q.1 q.2) =
        conj (wave ny nx k p.1 p.2) / A * ∑ q ∈ grid ny nx, wave ny nx k q.1 q.2 * kerC ny nx (cplx Ps) (p.1 - q.1) (p.2 - q.2) := by
      rw [Finset.mul_sum]
      apply Finset.sum_congr rfl
      intro q _
      rw [noiseCov_ker, kerC_real hP]; push_cast; ring
    rw [this, eig p hp]
    linear_combination (Ps k.1 k.2 : ℂ) / A * h3
  rw [Finset.sum_congr rfl e, Finset.sum_const]
  have hcard : (grid ny nx).card = ny * nx := by unfold grid; simp
  rw [hcard, nsmul_eq_mul]
  have hn : (fftNorm .phys false ny nx A) ^ 2 = A / ((ny : ℝ) * nx) := by
    unfold fftNorm
    simp only [ne_eq, reduceCtorEq, not_false_eq_true, if_true, Bool.false_eq_true, if_false]
    rw [mul_pow, div_pow, Real.sq_sqrt hA.le, Real.sq_sqrt (by positivity)]; ring
  rw [← Complex.ofReal_pow, hn]
  push_cast
  field_simp

theorem sum_point {ny nx : Nat} {Om : Nat → Nat → ℝ} {F : ℝ} {py px : Nat} (hy : py < ny) (hx : px < nx) (f : Nat × Nat → ℝ) :
    ∑ p ∈ grid ny nx, pointMap Om F py px p.1 p.2 * f p = F / Om py px * f (py, px) := by
  rw [Finset.sum_eq_single (py, px)]
  · unfold pointMap; simp
  · intro b _ hb
    unfold pointMap
    rw [if_neg, zero_mul]
    rintro ⟨h1, h2⟩; exact hb (Prod.ext h1 h2)
  · intro h; exact absurd (mem_grid.2 ⟨hy, hx⟩) h

/-- The observed source is the beam kernel around its pixel. -/
theorem Observes.eq {ny nx : Nat} {Om B : Nat → Nat → ℝ} {F : ℝ} {py px : Nat} {obs : Nat → Nat → ℝ} (h : Observes ny nx Om B F py px obs)
    (hy : py < ny) (hx : px < nx) (y x : Nat) (hy' : y < ny) (hx' : x < nx) :
    obs y x = F / Om py px * kerR ny nx B (y - py) (x - px) := by
  have h0y : 0 < ny := by omega
  have h0x : 0 < nx := by omega
  have h1 : (ny : ℂ) ≠ 0 := by exact_mod_cast h0y.ne'
  have h2 : (nx : ℂ) ≠ 0 := by exact_mod_cast h0x.ne'
  have e := ifft2_fft2 ny nx (cplx obs) y x hy' hx'
  rw [ifft2_congr (x' := fun ky kx => cplx B ky kx * fft2 ny nx (cplx (pointMap Om F py px)) ky kx)
    (fun ky kx a b => h ky kx a b), ifft2_filter ny nx h0y h0x] at e
  have e2 : cplx obs y x = ∑ p ∈ grid ny nx, cplx (pointMap Om F py px) p.1 p.2 * kerC ny nx (cplx B) (y - p.1) (x - p.2) := by
    apply mul_left_cancel₀ (mul_ne_zero h1 h2)
    rw [e]
  have e3 := congrArg Complex.re e2
  rw [Complex.re_sum] at e3
  unfold cplx at e3
  simp only [Complex.re_ofReal_mul, Complex.ofReal_re] at e3
  rw [e3]
  exact sum_point (Om := Om) (F := F) hy hx fun p => (kerC ny nx (cplx B) (y - p.1) (x - p.2)).re

/-- For an even beam there is such a map. -/
theorem observes_exists (ny nx : Nat) (Om : Nat → Nat → ℝ) {B : Nat → Nat → ℝ} (hB : EvenProf ny nx B) (F : ℝ) {py px : Nat} (hy : py < ny)
    (hx : px < nx) : Observes ny nx Om B F py px fun y x => F / Om py px * kerR ny nx B (y - py) (x - px) := by
  have h0y : 0 < ny := by omega
  have h0x : 0 < nx := by omega
  intro ky kx hky hkx
  have h1 : (ny : ℂ) ≠ 0 := by exact_mod_cast h0y.ne'
  have h2 : (nx : ℂ) ≠ 0 := by exact_mod_cast h0x.ne'
  have e : (cplx fun y x : Nat => F / Om py px * kerR ny nx B ((y : ℤ) - py) ((x : ℤ) - px)) = fun y x =>
      ifft2 ny nx (fun ky kx => cplx B ky kx * fft2 ny nx (cplx (pointMap Om F py px)) ky kx) y x * ((1 : ℂ) / (ny * nx)) := by
    funext y x
    rw [ifft2_filter ny nx h0y h0x]
    have : ∑ p ∈ grid ny nx, cplx (pointMap Om F py px) p.1 p.2 * kerC ny nx (cplx B) ((y : ℤ) - p.1) ((x : ℤ) - p.2) =
        ((F / Om py px * kerR ny nx B (y - py) (x - px) : ℝ) : ℂ) := by
      rw [← sum_point (Om := Om) (F := F) hy hx fun p => kerR ny nx B (y - p.1) (x - p.2)]
      push_cast
      apply Finset.sum_congr rfl
      intro p _
      rw [kerC_real hB]; rfl
    rw [this]
    unfold cplx
    field_simp
  rw [e, fft2_mul, fft2_ifft2 ny nx _ ky kx hky hkx]
  unfold cplx
  field_simp

/-! ### C107 -/

theorem constcovKappa_ker (ny nx : Nat) (A : ℝ) (B iN : Nat → Nat → ℝ) :
    constcovKappa ny nx A B iN = kerR ny nx (fun ky kx => B ky kx ^ 2 * iN ky kx) 0 0 / A := by
  unfold constcovKappa uSumHprof
  simp only []
  rw [sum_grid2, ← Finset.sum_mul, kerR_zero]
  have := Real.pi_ne_zero
  by_cases hA : A = 0
  · subst hA; simp
  by_cases hn : ((ny : ℝ) * nx) = 0
  · rw [hn]; simp
  · field_simp

theorem constcovRho_ker (ny nx : Nat) (hy : 0 < ny) (hx : 0 < nx) (A : ℝ) (hA : 0 < A) (Om B iN m : Nat → Nat → ℝ) (y x : Nat) :
    constcovRho ny nx A Om B iN m y x =
      A / Om y x * ∑ p ∈ grid ny nx, m p.1 p.2 * kerR ny nx (fun ky kx => B ky kx * iN ky kx) (y - p.1) (x - p.2) := by
  unfold constcovRho
  rw [show (fun ky kx => ((B ky kx * iN ky kx : ℝ) : ℂ)) = cplx fun ky kx => B ky kx * iN ky kx from rfl,
    filter_adj_m2h ny nx hy hx A hA]
  unfold kerR; ring

theorem constcovRho_src {ny nx : Nat} {A : ℝ} (hA : 0 < A) {Om B iN : Nat → Nat → ℝ} (hB : EvenProf ny nx B)
    (hN : EvenProf ny nx iN) {F : ℝ} {py px : Nat} (hy : py < ny) (hx : px < nx) {obs : Nat → Nat → ℝ}
    (ho : Observes ny nx Om B F py px obs) (y x : Nat) :
    constcovRho ny nx A Om B iN obs y x =
      A / Om y x * (F / Om py px) * kerR ny nx (fun ky kx => B ky kx ^ 2 * iN ky kx) (y - py) (x - px) := by
  have h0y : 0 < ny := by omega
  have h0x : 0 < nx := by omega
  rw [constcovRho_ker ny nx h0y h0x A hA]
  have e : ∀ p ∈ grid ny nx, obs p.1 p.2 * kerR ny nx (fun ky kx => B ky kx * iN ky kx) (y - p.1) (x - p.2) =
      F / Om py px * (kerR ny nx (fun ky kx => B ky kx * iN ky kx) (y - p.1) (x - p.2) * kerR ny nx B (p.1 - py) (p.2 - px)) := by
    intro p hp
    rw [mem_grid] at hp
    rw [ho.eq hy hx p.1 p.2 hp.1 hp.2]; ring
  rw [Finset.sum_congr rfl e, ← Finset.mul_sum, kerR_conv h0y h0x (hB.mul hN) hB, mul_assoc]
  congr 4
  funext ky kx; ring

/-- A map of 4×4 pixels with a beam of more than one pixel and a source off centre, as the theorems below assume. -/
example : EvenProf 4 4 (fun ky kx => if ky % 2 = 0 ∧ kx % 2 = 0 then 1 else 1 / 2) ∧
    ∃ obs, Observes 4 4 (fun _ _ => 1 / 16) (fun ky kx => if ky % 2 = 0 ∧ kx % 2 = 0 then 1 else 1 / 2) 7 1 2 obs := by
  have h : EvenProf 4 4 (fun ky kx => if ky % 2 = 0 ∧ kx % 2 = 0 then 1 else 1 / 2) := by
    intro ky kx hy hx
    interval_cases ky <;> interval_cases kx <;> norm_num
  exact ⟨h, _, observes_exists 4 4 _ h 7 (by norm_num) (by norm_num)⟩

/-- C107: filtering the map of a single source of flux `F` gives rho/kappa = F at its pixel, for every map size, beam,
noise spectrum and position, when the pixel has the mean area; and F·(A/area of the pixel)² in general. -/
theorem C107_flux {ny nx : Nat} {A : ℝ} (hA : 0 < A) {Om B iN : Nat → Nat → ℝ} (hB : EvenProf ny nx B) (hN : EvenProf ny nx iN) {F : ℝ}
    {py px : Nat} (hy : py < ny) (hx : px < nx) {obs : Nat → Nat → ℝ} (ho : Observes ny nx Om B F py px obs) :
    (Om py px = A → constcovRho ny nx A Om B iN obs py px = F * constcovKappa ny nx A B iN) ∧
    constcovRho ny nx A Om B iN obs py px = F * (A / Om py px) ^ 2 * constcovKappa ny nx A B iN := by
  have key : constcovRho ny nx A Om B iN obs py px = F * (A / Om py px) ^ 2 * constcovKappa ny nx A B iN := by
    rw [constcovRho_src hA hB hN hy hx ho, constcovKappa_ker, sub_self, sub_self]
    have := hA.ne'
    by_cases h : Om py px = 0
    · rw [h]; simp
    · field_simp
  refine ⟨fun h => ?_, key⟩
  rw [key, h, div_self hA.ne']; ring

/-- C107: the filtered map of a source is largest at the position of the source. -/
theorem C107_peak {ny nx : Nat} {A : ℝ} (hA : 0 < A) {Om B iN : Nat → Nat → ℝ} (hOm : ∀ y x, y < ny → x < nx → Om y x = A)
    (hB : EvenProf ny nx B) (hN : EvenProf ny nx iN) (hpos : ∀ ky kx, 0 ≤ iN ky kx) {F : ℝ} (hF : 0 ≤ F) {py px : Nat} (hy : py < ny)
    (hx : px < nx) {obs : Nat → Nat → ℝ} (ho : Observes ny nx Om B F py px obs) (y x : Nat) (hy' : y < ny) (hx' : x < nx) :
    |constcovRho ny nx A Om B iN obs y x| ≤ constcovRho ny nx A Om B iN obs py px := by
  rw [constcovRho_src hA hB hN hy hx ho, constcovRho_src hA hB hN hy hx ho, hOm y x hy' hx', hOm py px hy hx, sub_self, sub_self,
    abs_mul, abs_of_nonneg (by positivity : (0 : ℝ) ≤ A / A * (F / A))]
  apply mul_le_mul_of_nonneg_left _ (by positivity)
  rw [kerR_cos, kerR_cos, abs_div, abs_of_nonneg (by positivity : (0 : ℝ) ≤ (ny : ℝ) * nx)]
  apply div_le_div_of_nonneg_right _ (by positivity)
  refine (Finset.abs_sum_le_sum_abs _ _).trans ?_
  apply Finset.sum_le_sum
  intro k _
  rw [abs_mul, wave_zero, Complex.one_re, mul_one, abs_of_nonneg (mul_nonneg (sq_nonneg _) (hpos _ _))]
  have h1 := Complex.abs_re_le_norm (wave ny nx k ((y : ℤ) - py) ((x : ℤ) - px))
  rw [wave_norm] at h1
  exact mul_le_of_le_one_right (mul_nonneg (sq_nonneg _) (hpos _ _)) h1

theorem noiseVar_nonneg (ny nx : Nat) (A : ℝ) (hA : 0 < A) (Ps : Nat → Nat → ℝ) (hP : ∀ ky kx, 0 ≤ Ps ky kx) (w : Nat × Nat → ℝ) :
    0 ≤ noiseVar ny nx A Ps w := by
  have e : noiseVar ny nx A Ps w = (∑ k ∈ grid ny nx, Ps k.1 k.2 * Complex.normSq (∑ p ∈ grid ny nx, (w p : ℂ) * wave ny nx k p.1 p.2)) /
      (A * ((ny : ℝ) * nx)) := by
    unfold noiseVar
    have e1 : ∀ p ∈ grid ny nx, ∀ q ∈ grid ny nx, w p * w q * noiseCov ny nx A Ps p q =
        (∑ k ∈ grid ny nx, Ps k.1 k.2 * ((w p : ℂ) * wave ny nx k p.1 p.2 * conj ((w q : ℂ) * wave ny nx k q.1 q.2)).re) /
          (A * ((ny : ℝ) * nx)) := by
      intro p _ q _
      rw [noiseCov_ker, kerR_cos, div_div, mul_comm ((ny : ℝ) * nx) A, ← mul_div_assoc, Finset.mul_sum]
      congr 1
      apply Finset.sum_congr rfl
      intro k _
      rw [map_mul, Complex.conj_ofReal, ← wave_neg]
      rw [show (w p : ℂ) * wave ny nx k p.1 p.2 * ((w q : ℂ) * wave ny nx k (-(q.1 : ℤ)) (-(q.2 : ℤ))) =
        ((w p * w q : ℝ) : ℂ) * (wave ny nx k p.1 p.2 * wave ny nx k (-(q.1 : ℤ)) (-(q.2 : ℤ))) by push_cast; ring,
        ← wave_add, Complex.re_ofReal_mul]
      simp only [sub_eq_add_neg]; ring
    rw [Finset.sum_congr rfl fun p hp => Finset.sum_congr rfl fun q hq => e1 p hp q hq]
    simp_rw [← Finset.sum_div]
    congr 1
    have e2 : ∀ p ∈ grid ny nx, ∑ q ∈ grid ny nx, ∑ k ∈ grid ny nx,
        Ps k.1 k.2 * ((w p : ℂ) * wave ny nx k p.1 p.2 * conj ((w q : ℂ) * wave ny nx k q.1 q.2)).re =
        ∑ k ∈ grid ny nx, ∑ q ∈ grid ny nx, Ps k.1 k.2 * ((w p : ℂ) * wave ny nx k p.1 p.2 * conj ((w q : ℂ) * wave ny nx k q.1 q.2)).re :=
      fun p _ => Finset.sum_comm
    rw [Finset.sum_congr rfl e2, Finset.sum_comm]
    apply Finset.sum_congr rfl
    intro k _
    have e3 := Complex.mul_conj (∑ p ∈ grid ny nx, (w p : ℂ) * wave ny nx k p.1 p.2)
    rw [map_sum, Finset.sum_mul_sum] at e3
    have e4 := congrArg Complex.re e3
    rw [Complex.ofReal_re] at e4
    rw [← e4, Complex.re_sum, Finset.mul_sum]
    apply Finset.sum_congr rfl
    intro p _
    rw [Complex.re_sum, Finset.mul_sum]
  rw [e]
  apply div_nonneg _ (by positivity)
  apply Finset.sum_nonneg
  intro k _
  exact mul_nonneg (hP _ _) (Complex.normSq_nonneg _)

/-- The weights of the filter, and what the noise covariance makes of them. -/
theorem weights_cov {ny nx : Nat} {A : ℝ} (hA : 0 < A) {B iN : Nat → Nat → ℝ} (hB : EvenProf ny nx B)
    (hN : EvenProf ny nx iN) (hpos : ∀ ky kx, 0 < iN ky kx) {py px : Nat} (hy : py < ny) (hx : px < nx) (q : Nat × Nat) :
    ∑ p ∈ grid ny nx, kerR ny nx (fun ky kx => B ky kx * iN ky kx) (py - p.1) (px - p.2) *
      noiseCov ny nx A (fun ky kx => 1 / iN ky kx) p q = kerR ny nx B (py - q.1) (px - q.2) / A := by
  have h0y : 0 < ny := by omega
  have h0x : 0 < nx := by omega
  simp only [noiseCov_ker, ← mul_div_assoc]
  rw [← Finset.sum_div, kerR_conv h0y h0x (hB.mul hN) (hN.comp fun z => 1 / z)]
  congr 2
  funext ky kx
  have := (hpos ky kx).ne'
  field_simp

/-- C107: when the noise has the covariance the filter was told, the variance of rho is kappa, so that the uncertainty
kappa^(-1/2) is that of the flux. -/
theorem C107_variance {ny nx : Nat} {A : ℝ} (hA : 0 < A) {Om B iN : Nat → Nat → ℝ} (hB : EvenProf ny nx B) (hN : EvenProf ny nx iN)
    (hpos : ∀ ky kx, 0 < iN ky kx) {py px : Nat} (hy : py < ny) (hx : px < nx) (hOm : Om py px = A) :
    ∃ w : Nat × Nat → ℝ, (∀ m, constcovRho ny nx A Om B iN m py px = ∑ p ∈ grid ny nx, w p * m p.1 p.2) ∧
      noiseVar ny nx A (fun ky kx => 1 / iN ky kx) w = constcovKappa ny nx A B iN := by
  have h0y : 0 < ny := by omega
  have h0x : 0 < nx := by omega
  refine ⟨fun p => kerR ny nx (fun ky kx => B ky kx * iN ky kx) (py - p.1) (px - p.2), ?_, ?_⟩
  · intro m
    rw [constcovRho_ker ny nx h0y h0x A hA, hOm, div_self hA.ne', one_mul]
    exact Finset.sum_congr rfl fun p _ => mul_comm _ _
  · unfold noiseVar
    rw [Finset.sum_comm]
    have e : ∀ q ∈ grid ny nx, ∑ p ∈ grid ny nx, kerR ny nx (fun ky kx => B ky kx * iN ky kx) (py - p.1) (px - p.2) *
        kerR ny nx (fun ky kx => B ky kx * iN ky kx) (py - q.1) (px - q.2) * noiseCov ny nx A (fun ky kx => 1 / iN ky kx) p q =
        kerR ny nx (fun ky kx => B ky kx * iN ky kx) (py - q.1) (px - q.2) * kerR ny nx B (q.1 - py) (q.2 - px) / A := by
      intro q _
      rw [kerR_sub ny nx B q.1, mul_div_assoc, ← weights_cov hA hB hN hpos hy hx q, Finset.mul_sum]
      exact Finset.sum_congr rfl fun p _ => by ring
    rw [Finset.sum_congr rfl e, ← Finset.sum_div, kerR_conv h0y h0x (hB.mul hN) hB, constcovKappa_ker, sub_self, sub_self]
    congr 2
    funext ky kx; ring

/-- C107: no other unbiased linear estimate of the flux has a smaller variance: 1/kappa is the least one possible. -/
theorem C107_optimal {ny nx : Nat} {A : ℝ} (hA : 0 < A) {Om B iN : Nat → Nat → ℝ} (hB : EvenProf ny nx B) (hN : EvenProf ny nx iN)
    (hpos : ∀ ky kx, 0 < iN ky kx) {py px : Nat} (hy : py < ny) (hx : px < nx) (hOm : Om py px = A) {obs : Nat → Nat → ℝ}
    (ho : Observes ny nx Om B 1 py px obs) (v : Nat × Nat → ℝ) (hv : ∑ p ∈ grid ny nx, v p * obs p.1 p.2 = 1) :
    1 ≤ constcovKappa ny nx A B iN * noiseVar ny nx A (fun ky kx => 1 / iN ky kx) v := by
  have h0y : 0 < ny := by omega
  have h0x : 0 < nx := by omega
  set Ps := fun ky kx => 1 / iN ky kx with hPs
  set w : Nat × Nat → ℝ := fun p => kerR ny nx (fun ky kx => B ky kx * iN ky kx) (py - p.1) (px - p.2) with hw
  set κ := constcovKappa ny nx A B iN with hκ
  have hww : noiseVar ny nx A Ps w = κ := by
    obtain ⟨w', h1, h2⟩ := C107_variance (Om := Om) hA hB hN hpos hy hx hOm
    have : ∀ p ∈ grid ny nx, w' p = w p := by
      intro p hp
      have a := h1 (fun y x => if (y, x) = p then 1 else 0)
      rw [constcovRho_ker ny nx h0y h0x A hA, hOm, div_self hA.ne', one_mul, Finset.sum_eq_single p, Finset.sum_eq_single p] at a
      · simp only [Prod.mk.eta, if_true, one_mul, mul_one] at a; exact a.symm
      · intro b _ hb; simp [hb]
      · intro h; exact absurd hp h
      · intro b _ hb; simp [hb]
      · intro h; exact absurd hp h
    rw [hκ, ← h2]
    unfold noiseVar
    exact Finset.sum_congr rfl fun p hp => Finset.sum_congr rfl fun q hq => by rw [this p hp, this q hq]
  have hcov : ∀ q ∈ grid ny nx, ∑ p ∈ grid ny nx, w p * noiseCov ny nx A Ps p q = obs q.1 q.2 := by
    intro q hq
    rw [mem_grid] at hq
    rw [weights_cov hA hB hN hpos hy hx q, ho.eq hy hx q.1 q.2 hq.1 hq.2, hOm, kerR_sub]; ring
  have hwv : ∑ p ∈ grid ny nx, ∑ q ∈ grid ny nx, w p * v q * noiseCov ny nx A Ps p q = 1 := by
    rw [Finset.sum_comm, ← hv]
    apply Finset.sum_congr rfl
    intro q hq
    rw [← hcov q hq, Finset.mul_sum]
    exact Finset.sum_congr rfl fun p _ => by ring
  have hvw : ∑ p ∈ grid ny nx, ∑ q ∈ grid ny nx, v p * w q * noiseCov ny nx A Ps p q = 1 := by
    rw [Finset.sum_comm, ← hwv]
    apply Finset.sum_congr rfl
    intro q _
    apply Finset.sum_congr rfl
    intro p _
    rw [noiseCov_ker, noiseCov_ker, kerR_sub]; ring
  have hex : ∀ t : ℝ, noiseVar ny nx A Ps (fun p => t * v p - w p) = t ^ 2 * noiseVar ny nx A Ps v - 2 * t + κ := by
    intro t
    have : noiseVar ny nx A Ps (fun p => t * v p - w p) =
        t ^ 2 * noiseVar ny nx A Ps v - t * (∑ p ∈ grid ny nx, ∑ q ∈ grid ny nx, v p * w q * noiseCov ny nx A Ps p q) -
          t * (∑ p ∈ grid ny nx, ∑ q ∈ grid ny nx, w p * v q * noiseCov ny nx A Ps p q) + noiseVar ny nx A Ps w := by
      unfold noiseVar
      simp only [Finset.mul_sum, ← Finset.sum_sub_distrib, ← Finset.sum_add_distrib]
      apply Finset.sum_congr rfl
      intro p _
      apply Finset.sum_congr rfl
      intro q _
      ring
    rw [this, hvw, hwv, hww]; ring
  have hP : ∀ ky kx, 0 ≤ Ps ky kx := fun ky kx => by rw [hPs]; exact (one_div_pos.2 (hpos ky kx)).le
  have h1 := noiseVar_nonneg ny nx A hA Ps hP (fun p => κ * v p - w p)
  have h2 := noiseVar_nonneg ny nx A hA Ps hP w
  rw [hex] at h1
  rw [hww] at h2
  by_cases hz : κ = 0
  · exfalso
    have h3 := noiseVar_nonneg ny nx A hA Ps hP (fun p => (1 / (noiseVar ny nx A Ps v + 1)) * v p - w p)
    rw [hex, hz] at h3
    have h4 := noiseVar_nonneg ny nx A hA Ps hP v
    set W := noiseVar ny nx A Ps v
    have h5 : (0 : ℝ) < W + 1 := by linarith
    have h6 : (1 / (W + 1)) ^ 2 * W - 2 * (1 / (W + 1)) = -(W + 2) / (W + 1) ^ 2 := by field_simp; ring
    rw [h6, add_zero] at h3
    have h7 : -(W + 2) / (W + 1) ^ 2 < 0 := div_neg_of_neg_of_pos (by linarith) (by positivity)
    linarith
  · have hk : 0 < κ := lt_of_le_of_ne h2 (Ne.symm hz)
    have : 0 ≤ κ * (κ * noiseVar ny nx A Ps v - 1) := by nlinarith
    have := nonneg_of_mul_nonneg_right this hk
    linarith

/-- The flux is wrong in a pixel whose area differs from the mean: a pixel of half the mean area makes it four times too
large. -/
theorem C107_area_refuted : ∃ (A : ℝ) (Om B iN obs : Nat → Nat → ℝ), 0 < A ∧ (Om 0 0 + Om 1 0) / 2 = A ∧ (∀ y x, 0 < Om y x) ∧
    EvenProf 2 1 B ∧ EvenProf 2 1 iN ∧ Observes 2 1 Om B 1 0 0 obs ∧ 0 < constcovKappa 2 1 A B iN ∧
    constcovRho 2 1 A Om B iN obs 0 0 / constcovKappa 2 1 A B iN = 4 := by
  have e : EvenProf 2 1 fun _ _ => (1 : ℝ) := fun _ _ _ _ => rfl
  have hk : 0 < constcovKappa 2 1 2 (fun _ _ => 1) fun _ _ => 1 := by
    rw [constcovKappa_ker, kerR_zero]
    simp [grid]
  refine ⟨2, fun y _ => if y = 0 then 1 else 3, fun _ _ => 1, fun _ _ => 1, _, by norm_num, by norm_num, ?_, e, e,
    observes_exists 2 1 (fun y _ => if y = 0 then 1 else 3) e 1 (py := 0) (px := 0) (by norm_num) (by norm_num), hk, ?_⟩
  · intro y x; simp only []; split_ifs <;> norm_num
  · have h := (C107_flux (by norm_num : (0 : ℝ) < 2) e e (by norm_num) (by norm_num)
      (observes_exists 2 1 (fun y _ => if y = 0 then (1 : ℝ) else 3) e 1 (py := 0) (px := 0) (by norm_num) (by norm_num))).2
    rw [h, mul_div_assoc, div_self hk.ne']
    norm_num

end Pixell
