import Verif.Model.Discs
import Mathlib.Analysis.SpecialFunctions.Integrals.Basic
import Mathlib.Analysis.SpecialFunctions.Trigonometric.InverseDeriv
import Mathlib.Analysis.SpecialFunctions.Trigonometric.Bounds
import Mathlib.Analysis.SpecialFunctions.Sqrt

/-! C154: the Airy beam in real space. -/

namespace Pixell
open MeasureTheory intervalIntegral

/-- The field of a circular aperture of radius one in direction x: the strips of the aperture added with their phases, divided by
its area (half the disc is π/2). Its square is the Airy beam. -/
noncomputable def apertureField (x : ℝ) : ℝ := (2 / Real.pi) * ∫ t in (-1 : ℝ)..1, Real.sqrt (1 - t ^ 2) * Real.cos (x * t)

/-- The Bessel function of order one, by Poisson's integral: what scipy.special.j1 computes. -/
noncomputable def besselJ1 (x : ℝ) : ℝ := x / Real.pi * ∫ t in (-1 : ℝ)..1, Real.sqrt (1 - t ^ 2) * Real.cos (x * t)

theorem besselJ1_field {x : ℝ} (hx : x ≠ 0) : 2 * besselJ1 x / x = apertureField x := by
  unfold besselJ1 apertureField
  field_simp

theorem cont_w (x : ℝ) : Continuous fun t : ℝ => Real.sqrt (1 - t ^ 2) * Real.cos (x * t) := by fun_prop

theorem second_moment : ∫ t in (-1 : ℝ)..1, t ^ 2 * Real.sqrt (1 - t ^ 2) = Real.pi / 8 := by
  have hc : Continuous fun t : ℝ => (Real.arcsin t - t * (1 - 2 * t ^ 2) * Real.sqrt (1 - t ^ 2)) / 8 := by
    have := Real.continuous_arcsin
    fun_prop
  have h := integral_eq_sub_of_hasDerivAt_of_le (a := -1) (b := 1) (by norm_num)
    (f := fun t : ℝ => (Real.arcsin t - t * (1 - 2 * t ^ 2) * Real.sqrt (1 - t ^ 2)) / 8) (f' := fun t => t ^ 2 * Real.sqrt (1 - t ^ 2))
    hc.continuousOn ?_ ((by fun_prop : Continuous fun t : ℝ => t ^ 2 * Real.sqrt (1 - t ^ 2)).intervalIntegrable _ _)
  · rw [h, Real.arcsin_one, Real.arcsin_neg_one]
    norm_num
    ring
  · rintro x ⟨h0, h1⟩
    have hq0 : 0 < 1 - x ^ 2 := by nlinarith
    have hq : 0 < Real.sqrt (1 - x ^ 2) := Real.sqrt_pos.2 hq0
    have hqq : Real.sqrt (1 - x ^ 2) ^ 2 = 1 - x ^ 2 := Real.sq_sqrt hq0.le
    have hs : HasDerivAt (fun t : ℝ => 1 - t ^ 2) (-(2 * x)) x := by
      have := (hasDerivAt_pow 2 x).const_sub 1
      simpa using this
    have ds := hs.sqrt hq0.ne'
    have dS := Real.hasDerivAt_arcsin h0.ne' h1.ne
    have t3 := ((dS.sub (((hasDerivAt_id x).mul (((hasDerivAt_pow 2 x).const_mul 2).const_sub 1)).mul ds)).div_const 8)
    refine t3.congr_deriv ?_
    simp only [id, Pi.mul_apply]
    set q := Real.sqrt (1 - x ^ 2) with hqd
    field_simp
    push_cast
    linear_combination -(1 + 2 * x ^ 2) * hqq

theorem field_le (x : ℝ) : |apertureField x| ≤ 1 := by
  unfold apertureField
  rw [abs_mul, abs_of_pos (by positivity)]
  have h1 : |∫ t in (-1 : ℝ)..1, Real.sqrt (1 - t ^ 2) * Real.cos (x * t)| ≤ ∫ t in (-1 : ℝ)..1, Real.sqrt (1 - t ^ 2) := by
    refine (abs_integral_le_integral_abs (by norm_num)).trans ?_
    refine integral_mono_on (by norm_num) ((cont_w x).abs.intervalIntegrable _ _) ((by fun_prop : Continuous fun t : ℝ => Real.sqrt (1 - t ^ 2)).intervalIntegrable _ _) ?_
    intro t _
    rw [abs_mul, abs_of_nonneg (Real.sqrt_nonneg _)]
    exact mul_le_of_le_one_right (Real.sqrt_nonneg _) (Real.abs_cos_le_one _)
  rw [integral_sqrt_one_sub_sq] at h1
  have hp := Real.pi_pos
  calc 2 / Real.pi * _ ≤ 2 / Real.pi * (Real.pi / 2) := by gcongr
    _ = 1 := by field_simp

theorem field_small {x : ℝ} (hx : |x| ≤ 1) : |apertureField x - (1 - x ^ 2 / 8)| ≤ x ^ 4 / 76 := by
  have c0 : IntervalIntegrable (fun t : ℝ => Real.sqrt (1 - t ^ 2)) volume (-1) 1 := (by fun_prop : Continuous fun t : ℝ => Real.sqrt (1 - t ^ 2)).intervalIntegrable _ _
  have c2 : IntervalIntegrable (fun t : ℝ => x ^ 2 / 2 * (t ^ 2 * Real.sqrt (1 - t ^ 2))) volume (-1) 1 :=
    (by fun_prop : Continuous fun t : ℝ => x ^ 2 / 2 * (t ^ 2 * Real.sqrt (1 - t ^ 2))).intervalIntegrable _ _
  have hp := Real.pi_pos
  have e : apertureField x - (1 - x ^ 2 / 8) =
      (2 / Real.pi) * ∫ t in (-1 : ℝ)..1, (Real.sqrt (1 - t ^ 2) * Real.cos (x * t) - (Real.sqrt (1 - t ^ 2) - x ^ 2 / 2 * (t ^ 2 * Real.sqrt (1 - t ^ 2)))) := by
    rw [integral_sub ((cont_w x).intervalIntegrable _ _) (c0.sub c2), integral_sub c0 c2, intervalIntegral.integral_const_mul, integral_sqrt_one_sub_sq, second_moment]
    unfold apertureField
    generalize (∫ t in (-1 : ℝ)..1, Real.sqrt (1 - t ^ 2) * Real.cos (x * t)) = J
    field_simp
  rw [e, abs_mul, abs_of_pos (by positivity)]
  have h1 : |∫ t in (-1 : ℝ)..1, (Real.sqrt (1 - t ^ 2) * Real.cos (x * t) - (Real.sqrt (1 - t ^ 2) - x ^ 2 / 2 * (t ^ 2 * Real.sqrt (1 - t ^ 2))))| ≤
      ∫ t in (-1 : ℝ)..1, x ^ 4 * (5 / 96) * (t ^ 2 * Real.sqrt (1 - t ^ 2)) := by
    refine (abs_integral_le_integral_abs (by norm_num)).trans ?_
    refine integral_mono_on (by norm_num) (((cont_w x).intervalIntegrable _ _).sub (c0.sub c2)).abs
      ((by fun_prop : Continuous fun t : ℝ => x ^ 4 * (5 / 96) * (t ^ 2 * Real.sqrt (1 - t ^ 2))).intervalIntegrable _ _) ?_
    rintro t ⟨ht1, ht2⟩
    have hs := Real.sqrt_nonneg (1 - t ^ 2)
    have ht : t ^ 2 ≤ 1 := by nlinarith
    have hxt : |x * t| ≤ 1 := by rw [abs_mul]; exact mul_le_one₀ hx (abs_nonneg _) (abs_le.2 ⟨ht1, ht2⟩)
    have hb := Real.cos_bound hxt
    have e2 : |x * t| ^ 4 = x ^ 4 * t ^ 4 := by rw [show (4 : ℕ) = 2 * 2 by norm_num, pow_mul, sq_abs]; ring
    rw [e2] at hb
    rw [show Real.sqrt (1 - t ^ 2) * Real.cos (x * t) - (Real.sqrt (1 - t ^ 2) - x ^ 2 / 2 * (t ^ 2 * Real.sqrt (1 - t ^ 2))) =
      Real.sqrt (1 - t ^ 2) * (Real.cos (x * t) - (1 - (x * t) ^ 2 / 2)) by ring, abs_mul, abs_of_nonneg hs]
    have h3 : x ^ 4 * t ^ 4 * (5 / 96) ≤ x ^ 4 * t ^ 2 * (5 / 96) := by
      have : t ^ 4 ≤ t ^ 2 := by nlinarith [sq_nonneg t]
      have : 0 ≤ x ^ 4 := by positivity
      gcongr
    calc _ ≤ Real.sqrt (1 - t ^ 2) * (x ^ 4 * t ^ 2 * (5 / 96)) := by gcongr; exact hb.trans h3
      _ = _ := by ring
  rw [intervalIntegral.integral_const_mul, second_moment] at h1
  calc _ ≤ 2 / Real.pi * (x ^ 4 * (5 / 96) * (Real.pi / 8)) := by gcongr
    _ = x ^ 4 * (5 / 384) := by field_simp; ring
    _ ≤ x ^ 4 / 76 := by have : 0 ≤ x ^ 4 := by positivity
                         linarith

/-- C154: for all distances the Airy beam is the square of the field of a circular aperture to 25 digits, lies between zero and
one, and is one in the centre. -/
theorem C154_airy (x : ℝ) (hx : 0 ≤ x) :
    |airy besselJ1 x - apertureField x ^ 2| ≤ 1 / 10 ^ 25 ∧ 0 ≤ airy besselJ1 x ∧ airy besselJ1 x ≤ 1 ∧ airy besselJ1 0 = 1 := by
  have h00 : airy besselJ1 0 = 1 := by unfold airy; norm_num
  refine ⟨?_, ?_, ?_, h00⟩
  · unfold airy
    split_ifs with h
    · have hx1 : |x| ≤ 1 := by rw [abs_of_nonneg hx]; linarith [(by norm_num : (1 : ℝ) / 10 ^ 6 ≤ 1)]
      have h1 := field_small hx1
      have h2 := field_le x
      have e : 1 - 1 / 4 * x ^ 2 - apertureField x ^ 2 =
          -(apertureField x - (1 - x ^ 2 / 8)) * (apertureField x + (1 - x ^ 2 / 8)) - x ^ 4 / 64 := by ring
      rw [e]
      have hx2 : x ^ 2 ≤ 1 := by rw [abs_of_nonneg hx] at hx1; nlinarith
      have h3 : |apertureField x + (1 - x ^ 2 / 8)| ≤ 2 := by
        rw [abs_le] at h2 ⊢
        constructor <;> nlinarith [sq_nonneg x]
      have h4 : |-(apertureField x - (1 - x ^ 2 / 8)) * (apertureField x + (1 - x ^ 2 / 8))| ≤ x ^ 4 / 76 * 2 := by
        rw [abs_mul, abs_neg]; gcongr
      have h5 : x ^ 4 ≤ (1 / 10 ^ 6) ^ 4 := by gcongr
      have h6 : 0 ≤ x ^ 4 := by positivity
      norm_num at h5
      rw [abs_le] at h4 ⊢
      constructor <;> norm_num <;> linarith
    · have h0 : x ≠ 0 := by rintro rfl; norm_num at h
      rw [besselJ1_field h0, sub_self, abs_zero]; positivity
  · unfold airy
    split_ifs with h
    · nlinarith [(by norm_num : (1 : ℝ) / 10 ^ 6 ≤ 1)]
    · positivity
  · unfold airy
    split_ifs with h
    · nlinarith [sq_nonneg x]
    · have h0 : x ≠ 0 := by rintro rfl; norm_num at h
      rw [besselJ1_field h0, ← sq_abs]
      have := field_le x
      nlinarith [abs_nonneg (apertureField x)]

/-- The beam at distance 1, well inside the first dark ring, is above one half. -/
example : 1 / 2 < airy besselJ1 1 := by
  have h := (C154_airy 1 (by norm_num)).1
  have h1 := field_small (x := 1) (by norm_num)
  rw [abs_le] at h h1
  norm_num at h h1
  nlinarith

end Pixell
