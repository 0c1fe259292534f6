import Verif.Model.Discs
import Mathlib.MeasureTheory.Integral.IntervalIntegral.FundThmCalculus
import Mathlib.MeasureTheory.Measure.Lebesgue.Integral
import Mathlib.MeasureTheory.Measure.Lebesgue.Basic
import Mathlib.Analysis.SpecialFunctions.Trigonometric.InverseDeriv
import Mathlib.Analysis.SpecialFunctions.Trigonometric.ArctanDeriv
import Mathlib.Analysis.SpecialFunctions.Trigonometric.Bounds
import Mathlib.Analysis.Real.Pi.Bounds
import Mathlib.Analysis.Calculus.Deriv.Abs
import Mathlib.Analysis.SpecialFunctions.Sqrt
import Mathlib.Algebra.Polynomial.Taylor
import Mathlib.Tactic.FieldSimp

/-! C154: conversions, complex-step derivatives, overlaps of discs and Airy beams. -/

namespace Pixell
open MeasureTheory

/-! ### Areas -/

/-- The area of a region that is symmetric in both coordinates. -/
theorem area_sym (h R : ℝ) (hR : h < R) (g F : ℝ → ℝ) (hg : ContinuousOn g (Set.Icc h R)) (hF : ContinuousOn F (Set.Icc h R))
    (hd : ∀ t ∈ Set.Ioo h R, HasDerivAt F (g t) t) (hp : ∀ t ∈ Set.Icc h R, 0 ≤ g t) :
    volume {p : ℝ × ℝ | |p.1| + h < R ∧ |p.2| < g (|p.1| + h)} = ENNReal.ofReal (4 * (F R - F h)) := by
  set s := Set.Ioo (-(R - h)) (R - h) with hs
  set G : ℝ → ℝ := fun x => g (|x| + h) with hG
  have hmem : ∀ x ∈ Set.Icc (-(R - h)) (R - h), |x| + h ∈ Set.Icc h R := by
    intro x hx
    have := abs_le.2 hx
    exact ⟨by have := abs_nonneg x; linarith, by linarith⟩
  have hGc : ContinuousOn G (Set.Icc (-(R - h)) (R - h)) := by
    apply hg.comp (by fun_prop)
    exact hmem
  have hset : {p : ℝ × ℝ | |p.1| + h < R ∧ |p.2| < g (|p.1| + h)} = regionBetween (-G) G s := by
    ext p
    simp only [regionBetween, Set.mem_ofPred_eq, hs, Set.mem_Ioo, hG, abs_lt, Pi.neg_apply]
    constructor
    · rintro ⟨h1, h2⟩
      have := abs_lt.1 (show |p.1| < R - h by linarith)
      exact ⟨⟨by linarith, this.2⟩, h2⟩
    · rintro ⟨h1, h2⟩
      have := abs_lt.2 (show -(R - h) < p.1 ∧ p.1 < R - h from h1)
      exact ⟨by linarith, h2⟩
  have hint : IntegrableOn G s := (hGc.integrableOn_Icc).mono_set Set.Ioo_subset_Icc_self
  rw [hset, Measure.volume_eq_prod, volume_regionBetween_eq_integral hint.neg hint measurableSet_Ioo]
  · congr 1
    have e1 : (∫ y in s, (G - -G) y) = ∫ y in (-(R - h))..(R - h), 2 * G y := by
      rw [intervalIntegral.integral_of_le (by linarith), integral_Ioc_eq_integral_Ioo]
      apply setIntegral_congr_fun measurableSet_Ioo
      intro y _
      simp only [Pi.sub_apply, Pi.neg_apply]
      ring
    have hi1 : IntervalIntegrable G volume 0 (R - h) := by
      apply ContinuousOn.intervalIntegrable
      rw [Set.uIcc_of_le (by linarith)]
      exact hGc.mono (Set.Icc_subset_Icc (by linarith) le_rfl)
    have hi2 : IntervalIntegrable G volume (-(R - h)) 0 := by
      apply ContinuousOn.intervalIntegrable
      rw [Set.uIcc_of_le (by linarith)]
      exact hGc.mono (Set.Icc_subset_Icc le_rfl (by linarith))
    have e2 : (∫ y in (-(R - h))..0, G y) = ∫ y in (0 : ℝ)..(R - h), G y := by
      have := intervalIntegral.integral_comp_neg (a := 0) (b := R - h) G
      rw [neg_zero] at this
      rw [← this]
      congr 1
      funext x
      simp [hG]
    have e3 : (∫ y in (0 : ℝ)..(R - h), G y) = F R - F h := by
      have e : (∫ y in (0 : ℝ)..(R - h), G y) = ∫ y in (0 : ℝ)..(R - h), g (y + h) := by
        apply intervalIntegral.integral_congr
        intro y hy
        rw [Set.uIcc_of_le (by linarith)] at hy
        simp only [hG, abs_of_nonneg hy.1]
      rw [e, intervalIntegral.integral_comp_add_right, zero_add, sub_add_cancel]
      apply intervalIntegral.integral_eq_sub_of_hasDerivAt_of_le hR.le hF hd
      apply ContinuousOn.intervalIntegrable
      rwa [Set.uIcc_of_le hR.le]
    rw [e1, intervalIntegral.integral_const_mul, ← intervalIntegral.integral_add_adjacent_intervals hi2 hi1, e2, e3]
    ring
  · intro x hx
    have := hp _ (hmem x (Set.Ioo_subset_Icc_self hx))
    simp only [hG, Pi.neg_apply]
    linarith

theorem sqrtDisc_deriv {t R : ℝ} (hR : 0 < R) (ht : |t| < R) :
    HasDerivAt (fun t => (t * Real.sqrt (R ^ 2 - t ^ 2) + R ^ 2 * Real.arcsin (t / R)) / 2) (Real.sqrt (R ^ 2 - t ^ 2)) t := by
  have h0 : 0 < R ^ 2 - t ^ 2 := by have := sq_lt_sq' (abs_lt.1 ht).1 (abs_lt.1 ht).2; linarith
  have hb := abs_lt.1 ht
  have h1 : t / R ≠ -1 := by
    intro h; rw [div_eq_iff hR.ne'] at h; linarith
  have h2 : t / R ≠ 1 := by
    intro h; rw [div_eq_iff hR.ne'] at h; linarith
  have hs : HasDerivAt (fun t : ℝ => R ^ 2 - t ^ 2) (-(2 * t)) t := by
    have := (hasDerivAt_pow 2 t).const_sub (R ^ 2)
    simpa using this
  have d1 := (hasDerivAt_id t).mul (hs.sqrt h0.ne')
  have d2 := ((Real.hasDerivAt_arcsin h1 h2).comp t ((hasDerivAt_id t).div_const R)).const_mul (R ^ 2)
  have d := (d1.add d2).div_const 2
  refine d.congr_deriv ?_
  have hsR : Real.sqrt (1 - (t / R) ^ 2) = Real.sqrt (R ^ 2 - t ^ 2) / R := by
    rw [show 1 - (t / R) ^ 2 = (R ^ 2 - t ^ 2) / R ^ 2 by field_simp, Real.sqrt_div h0.le, Real.sqrt_sq hR.le]
  have hq : 0 < Real.sqrt (R ^ 2 - t ^ 2) := Real.sqrt_pos.2 h0
  have hqq : Real.sqrt (R ^ 2 - t ^ 2) ^ 2 = R ^ 2 - t ^ 2 := Real.sq_sqrt h0.le
  simp only [id]
  rw [hsR]
  field_simp
  rw [hqq]
  ring

theorem diskOverlap_far {d R : ℝ} (hR : 0 < R) (h : 2 * R ≤ d) : diskOverlap d R = 0 := by
  have : 1 ≤ d / (2 * R) := by rw [le_div_iff₀ (by linarith)]; linarith
  unfold diskOverlap
  dsimp only
  rw [max_eq_left (by linarith), min_eq_right this]
  simp

theorem diskOverlap_near {d R : ℝ} (hR : 0 < R) (h0 : 0 ≤ d) (h : d ≤ 2 * R) :
    diskOverlap d R = (Real.arccos (d / (2 * R)) - d / (2 * R) * Real.sqrt (1 - (d / (2 * R)) ^ 2)) * (2 * R ^ 2) := by
  have h1 : d / (2 * R) ≤ 1 := by rw [div_le_one (by linarith)]; exact h
  have h2 : 0 ≤ d / (2 * R) := by positivity
  unfold diskOverlap
  dsimp only
  rw [max_eq_left h2, min_eq_left h1]

/-- C154: disk_overlap is the area of the intersection of two discs of radius R whose centres have the distance d, for every radius and distance. -/
theorem C154_overlap (d R : ℝ) (hR : 0 < R) (hd : 0 ≤ d) :
    volume ({p : ℝ × ℝ | (p.1 + d / 2) ^ 2 + p.2 ^ 2 < R ^ 2} ∩ {p : ℝ × ℝ | (p.1 - d / 2) ^ 2 + p.2 ^ 2 < R ^ 2}) = ENNReal.ofReal (diskOverlap d R) := by
  have key : {p : ℝ × ℝ | (p.1 + d / 2) ^ 2 + p.2 ^ 2 < R ^ 2} ∩ {p : ℝ × ℝ | (p.1 - d / 2) ^ 2 + p.2 ^ 2 < R ^ 2}
      = {p : ℝ × ℝ | (|p.1| + d / 2) ^ 2 + p.2 ^ 2 < R ^ 2} := by
    ext p
    simp only [Set.mem_inter_iff, Set.mem_ofPred_eq]
    rcases le_total 0 p.1 with h | h
    · rw [abs_of_nonneg h]
      exact ⟨fun h => h.1, fun h' => ⟨h', by nlinarith⟩⟩
    · rw [abs_of_nonpos h]
      exact ⟨fun h => by nlinarith [h.2], fun h' => ⟨by nlinarith, by nlinarith⟩⟩
  rw [key]
  rcases lt_or_ge d (2 * R) with h | h
  · have hset : {p : ℝ × ℝ | (|p.1| + d / 2) ^ 2 + p.2 ^ 2 < R ^ 2} = {p : ℝ × ℝ | |p.1| + d / 2 < R ∧ |p.2| < Real.sqrt (R ^ 2 - (|p.1| + d / 2) ^ 2)} := by
      ext p
      simp only [Set.mem_ofPred_eq]
      have hx : 0 ≤ |p.1| + d / 2 := by positivity
      rw [Real.lt_sqrt (abs_nonneg _), sq_abs]
      constructor
      · intro h
        refine ⟨?_, by linarith⟩
        by_contra hc
        nlinarith [sq_nonneg p.2]
      · rintro ⟨_, h⟩
        linarith
    rw [hset, area_sym (d / 2) R (by linarith) (fun t => Real.sqrt (R ^ 2 - t ^ 2))
      (fun t => (t * Real.sqrt (R ^ 2 - t ^ 2) + R ^ 2 * Real.arcsin (t / R)) / 2)]
    · congr 1
      have e1 : Real.sqrt (R ^ 2 - R ^ 2) = 0 := by simp
      have e2 : Real.sqrt (R ^ 2 - (d / 2) ^ 2) = R * Real.sqrt (1 - (d / (2 * R)) ^ 2) := by
        rw [show R ^ 2 - (d / 2) ^ 2 = R ^ 2 * (1 - (d / (2 * R)) ^ 2) by field_simp, Real.sqrt_mul (by positivity), Real.sqrt_sq hR.le]
      rw [diskOverlap_near hR hd h.le, e1, e2, div_self hR.ne', Real.arcsin_one, Real.arccos_eq_pi_div_two_sub_arcsin,
        show d / 2 / R = d / (2 * R) by field_simp]
      field_simp
      ring
    · fun_prop
    · have : ContinuousOn (fun t => Real.arcsin (t / R)) (Set.Icc (d / 2) R) := (Real.continuous_arcsin.comp (continuous_id.div_const R)).continuousOn
      fun_prop
    · intro t ht
      exact sqrtDisc_deriv hR (by rw [abs_of_nonneg (by linarith [ht.1])]; exact ht.2)
    · intro t _
      exact Real.sqrt_nonneg _
  · rw [diskOverlap_far hR h, ENNReal.ofReal_zero]
    have : {p : ℝ × ℝ | (|p.1| + d / 2) ^ 2 + p.2 ^ 2 < R ^ 2} = ∅ := by
      ext p
      simp only [Set.mem_ofPred_eq, Set.mem_empty_iff_false, iff_false, not_lt]
      have := abs_nonneg p.1
      nlinarith [sq_nonneg p.2]
    rw [this, measure_empty]

/-- The area of a whole disc. -/
example (R : ℝ) (hR : 0 < R) : diskOverlap 0 R = Real.pi * R ^ 2 := by
  rw [diskOverlap_near hR le_rfl (by linarith)]
  simp
  ring

/-! ### The sphere -/

theorem arccos_double {x : ℝ} (h0 : 0 ≤ x) (h1 : x ≤ 1) : Real.arccos (2 * x ^ 2 - 1) = 2 * Real.arccos x := by
  have e : 2 * x ^ 2 - 1 = Real.cos (2 * Real.arccos x) := by
    rw [Real.cos_two_mul, Real.cos_arccos (by linarith) h1]
  rw [e, Real.arccos_cos (by have := Real.arccos_nonneg x; linarith) (by have := Real.arccos_le_pi_div_two.2 h0; linarith)]

theorem cos_eq_half (d : ℝ) : Real.cos d = 1 - 2 * Real.sin (d / 2) ^ 2 := by
  have h := Real.cos_two_mul (d / 2)
  have h2 := Real.sin_sq_add_cos_sq (d / 2)
  rw [mul_div_cancel₀ d (two_ne_zero' ℝ)] at h
  linarith

theorem capDeriv {u R : ℝ} (hu : 0 ≤ u) (huR : u < R) (hR : R < Real.pi / 2) :
    HasDerivAt (fun u => Real.cos R * Real.arccos (Real.cos R / Real.sin R * Real.tan u) - Real.arccos (Real.sin u / Real.sin R))
      (Real.sqrt (1 - Real.cos R ^ 2 / Real.cos u ^ 2)) u := by
  have hpi := Real.pi_pos
  have hsR : 0 < Real.sin R := Real.sin_pos_of_pos_of_lt_pi (by linarith) (by linarith)
  have hcR : 0 < Real.cos R := Real.cos_pos_of_mem_Ioo ⟨by linarith, hR⟩
  have hcu : 0 < Real.cos u := Real.cos_pos_of_mem_Ioo ⟨by linarith, by linarith⟩
  have hsu : 0 ≤ Real.sin u := Real.sin_nonneg_of_nonneg_of_le_pi hu (by linarith)
  have hlt : Real.sin u < Real.sin R := Real.sin_lt_sin_of_lt_of_le_pi_div_two (by linarith) hR.le huR
  have p1 := Real.sin_sq_add_cos_sq u
  have p2 := Real.sin_sq_add_cos_sq R
  set q := Real.sqrt (Real.sin R ^ 2 - Real.sin u ^ 2) with hq
  have hq0 : 0 < Real.sin R ^ 2 - Real.sin u ^ 2 := by nlinarith
  have hqp : 0 < q := Real.sqrt_pos.2 hq0
  have hqq : q ^ 2 = Real.sin R ^ 2 - Real.sin u ^ 2 := Real.sq_sqrt hq0.le
  have x1 : Real.sqrt (1 - (Real.sin u / Real.sin R) ^ 2) = q / Real.sin R := by
    rw [show 1 - (Real.sin u / Real.sin R) ^ 2 = (Real.sin R ^ 2 - Real.sin u ^ 2) / Real.sin R ^ 2 by field_simp, Real.sqrt_div hq0.le, Real.sqrt_sq hsR.le]
  have x2 : Real.sqrt (1 - (Real.cos R / Real.sin R * Real.tan u) ^ 2) = q / (Real.sin R * Real.cos u) := by
    have : 1 - (Real.cos R / Real.sin R * Real.tan u) ^ 2 = (Real.sin R ^ 2 - Real.sin u ^ 2) / (Real.sin R * Real.cos u) ^ 2 := by
      rw [Real.tan_eq_sin_div_cos]
      field_simp
      have : Real.cos R ^ 2 = 1 - Real.sin R ^ 2 := by linarith
      have h' : Real.cos u ^ 2 = 1 - Real.sin u ^ 2 := by linarith
      rw [this, h']
      ring
    rw [this, Real.sqrt_div hq0.le, Real.sqrt_sq (by positivity)]
  have x3 : Real.sqrt (1 - Real.cos R ^ 2 / Real.cos u ^ 2) = q / Real.cos u := by
    have : 1 - Real.cos R ^ 2 / Real.cos u ^ 2 = (Real.sin R ^ 2 - Real.sin u ^ 2) / Real.cos u ^ 2 := by
      field_simp
      linarith
    rw [this, Real.sqrt_div hq0.le, Real.sqrt_sq hcu.le]
  have n1 : Real.sqrt (1 - (Real.sin u / Real.sin R) ^ 2) ≠ 0 := by rw [x1]; positivity
  have n2 : Real.sqrt (1 - (Real.cos R / Real.sin R * Real.tan u) ^ 2) ≠ 0 := by rw [x2]; positivity
  have ne : ∀ y : ℝ, Real.sqrt (1 - y ^ 2) ≠ 0 → y ≠ -1 ∧ y ≠ 1 := by
    intro y hy
    constructor <;> · rintro rfl; simp at hy
  have d1 := (Real.hasDerivAt_arccos (ne _ n1).1 (ne _ n1).2).comp u ((Real.hasDerivAt_sin u).div_const (Real.sin R))
  have d2 := ((Real.hasDerivAt_arccos (ne _ n2).1 (ne _ n2).2).comp u ((Real.hasDerivAt_tan hcu.ne').const_mul (Real.cos R / Real.sin R))).const_mul (Real.cos R)
  refine (d2.sub d1).congr_deriv ?_
  rw [x1, x2, x3]
  field_simp
  rw [hqq]
  linarith

/-- Inside two caps of radius R around points of the equator at longitudes -h and h. -/
theorem caps_iff {x z h R : ℝ} (hx : |x| < Real.pi) (hh : 0 ≤ h) (hh' : h ≤ Real.pi / 2) (hR0 : 0 < R) (hR : R < Real.pi / 2) :
    (|z| < 1 ∧ Real.cos R < Real.sqrt (1 - z ^ 2) * Real.cos (x + h) ∧ Real.cos R < Real.sqrt (1 - z ^ 2) * Real.cos (x - h)) ↔
      |x| + h < R ∧ |z| < Real.sqrt (1 - Real.cos R ^ 2 / Real.cos (|x| + h) ^ 2) := by
  have hpi := Real.pi_pos
  have hcR : 0 < Real.cos R := Real.cos_pos_of_mem_Ioo ⟨by linarith, hR⟩
  have habs := abs_nonneg x
  have hsx : 0 ≤ Real.sin |x| := Real.sin_nonneg_of_nonneg_of_le_pi habs hx.le
  have hsh : 0 ≤ Real.sin h := Real.sin_nonneg_of_nonneg_of_le_pi hh (by linarith)
  have hmin : Real.cos (|x| + h) ≤ Real.cos (|x| - h) := by
    rw [Real.cos_add, Real.cos_sub]
    nlinarith [mul_nonneg hsx hsh]
  have hboth : (Real.cos R < Real.sqrt (1 - z ^ 2) * Real.cos (x + h) ∧ Real.cos R < Real.sqrt (1 - z ^ 2) * Real.cos (x - h)) ↔
      Real.cos R < Real.sqrt (1 - z ^ 2) * Real.cos (|x| + h) := by
    have hs := Real.sqrt_nonneg (1 - z ^ 2)
    have hm := mul_le_mul_of_nonneg_left hmin hs
    rcases le_total 0 x with h0 | h0
    · rw [abs_of_nonneg h0] at hm ⊢
      exact ⟨fun h => h.1, fun h => ⟨h, by linarith⟩⟩
    · rw [abs_of_nonpos h0] at hm ⊢
      have e1 : Real.cos (-x + h) = Real.cos (x - h) := by rw [← Real.cos_neg]; congr 1; ring
      have e2 : Real.cos (-x - h) = Real.cos (x + h) := by rw [← Real.cos_neg]; congr 1; ring
      rw [e1, e2] at hm
      rw [e1]
      exact ⟨fun h => h.2, fun h => ⟨by linarith, h⟩⟩
  rw [hboth]
  set u := |x| + h with hu
  have hu0 : 0 ≤ u := by linarith
  constructor
  · rintro ⟨hz, hc⟩
    have hz1 : 0 < 1 - z ^ 2 := by have := (sq_lt_one_iff_abs_lt_one z).2 hz; linarith
    have hs := Real.sqrt_nonneg (1 - z ^ 2)
    have hcu : 0 < Real.cos u := by
      by_contra hn
      nlinarith
    have hu2 : u < Real.pi / 2 := by
      by_contra hn
      have := Real.cos_nonpos_of_pi_div_two_le_of_le (not_lt.1 hn) (show u ≤ Real.pi + Real.pi / 2 by linarith)
      linarith
    have hs1 : Real.sqrt (1 - z ^ 2) ≤ 1 := by
      rw [Real.sqrt_le_one]; nlinarith [sq_nonneg z]
    refine ⟨?_, ?_⟩
    · by_contra hn
      have := Real.cos_le_cos_of_nonneg_of_le_pi hR0.le (by linarith : u ≤ Real.pi) (not_lt.1 hn)
      nlinarith
    · rw [Real.lt_sqrt (abs_nonneg _), sq_abs]
      have h1 : Real.cos R / Real.cos u < Real.sqrt (1 - z ^ 2) := by rw [div_lt_iff₀ hcu]; exact hc
      rw [Real.lt_sqrt (by positivity), div_pow] at h1
      linarith
  · rintro ⟨huR, hz⟩
    have hcu : Real.cos R < Real.cos u := Real.cos_lt_cos_of_nonneg_of_le_pi_div_two hu0 hR.le huR
    have hcu0 : 0 < Real.cos u := by linarith
    rw [Real.lt_sqrt (abs_nonneg _), sq_abs] at hz
    have hq : 0 < Real.cos R ^ 2 / Real.cos u ^ 2 := by positivity
    refine ⟨(sq_lt_one_iff_abs_lt_one z).1 (by linarith), ?_⟩
    rw [← div_lt_iff₀ hcu0, Real.lt_sqrt (by positivity), div_pow]
    linarith

/-- The part of the sphere inside two caps, in coordinates in which areas on the sphere are areas in the plane: longitude, and height above the equator.
The caps have the radius R and their centres the distance d; a point is inside if its angle from the centre is less than R. -/
def capsRegion (d R : ℝ) : Set (ℝ × ℝ) :=
  {p | |p.1| < Real.pi ∧ |p.2| < 1 ∧ Real.cos R < Real.sqrt (1 - p.2 ^ 2) * Real.cos (p.1 + d / 2) ∧ Real.cos R < Real.sqrt (1 - p.2 ^ 2) * Real.cos (p.1 - d / 2)}

theorem capsRegion_eq {d R : ℝ} (hR0 : 0 < R) (hR : R < Real.pi / 2) (hd : 0 ≤ d) (hd' : d ≤ Real.pi) :
    capsRegion d R = {p : ℝ × ℝ | |p.1| + d / 2 < R ∧ |p.2| < Real.sqrt (1 - Real.cos R ^ 2 / Real.cos (|p.1| + d / 2) ^ 2)} := by
  have hpi := Real.pi_pos
  ext p
  simp only [capsRegion, Set.mem_ofPred_eq]
  constructor
  · rintro ⟨h1, h2⟩
    exact (caps_iff h1 (by linarith) (by linarith) hR0 hR).1 h2
  · rintro ⟨h1, h2⟩
    have hp : |p.1| < Real.pi := by linarith
    exact ⟨hp, (caps_iff hp (by linarith) (by linarith) hR0 hR).2 ⟨h1, h2⟩⟩

theorem curvedMain_eq {d R : ℝ} (hR0 : 0 < R) (hR : R < Real.pi / 2) (hd : 0 ≤ d) (hd' : d < 2 * R) :
    curvedMain d R = some (4 * Real.arccos (Real.sin (d / 2) / Real.sin R) - 4 * Real.cos R * Real.arccos (Real.cos R / Real.sin R * Real.tan (d / 2))) := by
  have hpi := Real.pi_pos
  have hsR : 0 < Real.sin R := Real.sin_pos_of_pos_of_lt_pi (by linarith) (by linarith)
  have hcR : 0 < Real.cos R := Real.cos_pos_of_mem_Ioo ⟨by linarith, hR⟩
  have hcu : 0 < Real.cos (d / 2) := Real.cos_pos_of_mem_Ioo ⟨by linarith, by linarith⟩
  have hsu : 0 ≤ Real.sin (d / 2) := Real.sin_nonneg_of_nonneg_of_le_pi (by linarith) (by linarith)
  have hlt : Real.sin (d / 2) < Real.sin R := Real.sin_lt_sin_of_lt_of_le_pi_div_two (by linarith) hR.le (by linarith)
  have hclt : Real.cos R < Real.cos (d / 2) := Real.cos_lt_cos_of_nonneg_of_le_pi_div_two (by linarith) hR.le (by linarith)
  have hx0 : 0 ≤ Real.sin (d / 2) / Real.sin R := by positivity
  have hx1 : Real.sin (d / 2) / Real.sin R ≤ 1 := by rw [div_le_one hsR]; exact hlt.le
  have e1 : (1 - Real.cos d) / Real.sin R ^ 2 - 1 = 2 * (Real.sin (d / 2) / Real.sin R) ^ 2 - 1 := by
    rw [cos_eq_half d]
    field_simp
    ring
  have hy0 : 0 ≤ Real.cos R / Real.sin R * Real.tan (d / 2) := by
    rw [Real.tan_eq_sin_div_cos]; positivity
  have hy1 : Real.cos R / Real.sin R * Real.tan (d / 2) ≤ 1 := by
    rw [Real.tan_eq_sin_div_cos, div_mul_div_comm, div_le_one (by positivity)]
    nlinarith
  unfold curvedMain npArccos
  rw [e1, if_pos (by rw [abs_le]; constructor <;> nlinarith), Option.bind_some, if_pos (by rw [abs_le]; constructor <;> linarith), Option.map_some, arccos_double hx0 hx1]
  congr 1
  ring

theorem caps_volume {d R : ℝ} (hR0 : 0 < R) (hR : R < Real.pi / 2) (hd : 0 ≤ d) (hd' : d < 2 * R) :
    volume (capsRegion d R) = ENNReal.ofReal (4 * Real.arccos (Real.sin (d / 2) / Real.sin R) - 4 * Real.cos R * Real.arccos (Real.cos R / Real.sin R * Real.tan (d / 2))) := by
  have hpi := Real.pi_pos
  have hsR : 0 < Real.sin R := Real.sin_pos_of_pos_of_lt_pi (by linarith) (by linarith)
  have hcR : 0 < Real.cos R := Real.cos_pos_of_mem_Ioo ⟨by linarith, hR⟩
  have hcos : ∀ t ∈ Set.Icc (d / 2) R, Real.cos t ≠ 0 := fun t ht => (Real.cos_pos_of_mem_Ioo ⟨by linarith [ht.1], by linarith [ht.2]⟩).ne'
  rw [capsRegion_eq hR0 hR hd (by linarith), area_sym (d / 2) R (by linarith) (fun u => Real.sqrt (1 - Real.cos R ^ 2 / Real.cos u ^ 2))
    (fun u => Real.cos R * Real.arccos (Real.cos R / Real.sin R * Real.tan u) - Real.arccos (Real.sin u / Real.sin R))]
  · congr 1
    have : Real.cos R / Real.sin R * Real.tan R = 1 := by
      rw [Real.tan_eq_sin_div_cos]; field_simp
    rw [this, div_self hsR.ne', Real.arccos_one]
    ring
  · apply ContinuousOn.sqrt
    apply ContinuousOn.sub continuousOn_const
    exact ContinuousOn.div continuousOn_const (Real.continuous_cos.pow 2).continuousOn fun t ht => pow_ne_zero 2 (hcos t ht)
  · apply ContinuousOn.sub
    · apply ContinuousOn.mul continuousOn_const
      apply Real.continuous_arccos.comp_continuousOn
      apply ContinuousOn.mul continuousOn_const
      exact Real.continuousOn_tan.mono fun t ht => hcos t ht
    · exact (Real.continuous_arccos.comp (Real.continuous_sin.div_const _)).continuousOn
  · intro t ht
    exact capDeriv (by linarith [ht.1]) ht.2 hR
  · intro t _
    exact Real.sqrt_nonneg _

/-- C154: disk_overlap_curved is the solid angle of the intersection of two discs on the sphere, for distances given as floats. Missing: radii below tol_flat or distances between 0 and
tol_tiny, where it is an approximation, radii from 90 degrees on, see C154_curved_refuted, and distances given as ints, see C154_curved_int_refuted. -/
theorem C154_curved_partial (d R : ℝ) (hR0 : 1/10^4 ≤ R) (hR : R < Real.pi / 2) (hd : d = 0 ∨ 1/10^10 ≤ d) (hd' : d ≤ Real.pi) :
    ∃ v, diskOverlapCurved false d R = some v ∧ volume (capsRegion d R) = ENNReal.ofReal v := by
  have hpi := Real.pi_pos
  have hR1 : 0 < R := by linarith [show (0:ℝ) < 1/10^4 by norm_num]
  have hd0 : 0 ≤ d := by rcases hd with rfl | h; exacts [le_rfl, by linarith [show (0:ℝ) < 1/10^10 by norm_num]]
  unfold diskOverlapCurved
  dsimp only
  rw [if_neg (by simp)]
  rcases le_or_gt (2 * R) d with h | h
  · rw [if_pos (Or.inl h)]
    refine ⟨0, rfl, ?_⟩
    rw [capsRegion_eq hR1 hR hd0 hd']
    have : {p : ℝ × ℝ | |p.1| + d / 2 < R ∧ |p.2| < Real.sqrt (1 - Real.cos R ^ 2 / Real.cos (|p.1| + d / 2) ^ 2)} = ∅ := by
      ext p
      simp only [Set.mem_ofPred_eq, Set.mem_empty_iff_false, iff_false, not_and]
      intro h1
      have := abs_nonneg p.1
      linarith
    rw [this, measure_empty, ENNReal.ofReal_zero]
  · rw [if_neg (by rintro (h' | h') <;> linarith)]
    rcases hd with rfl | hd
    · rw [if_pos (by norm_num)]
      refine ⟨_, rfl, ?_⟩
      rw [caps_volume hR1 hR le_rfl h]
      congr 1
      unfold curvedTiny
      simp
      ring
    · rw [if_neg (by linarith), if_neg (by linarith), curvedMain_eq hR1 hR hd0 h]
      exact ⟨_, rfl, caps_volume hR1 hR hd0 h⟩

/-- **C154 refuted (large discs).** Discs of more than 90 degrees radius that overlap on both sides have no overlap for disk_overlap_curved: the result is NaN. -/
theorem C154_curved_refuted (b : Bool) (d R : ℝ) (hR : Real.pi / 2 < R) (hR' : R < Real.pi) (hd : 2 * (Real.pi - R) < d) (hd' : d ≤ Real.pi) (h10 : 1/10^10 ≤ d) :
    diskOverlapCurved b d R = none := by
  have hpi := Real.pi_gt_three
  have hsR : 0 < Real.sin R := Real.sin_pos_of_pos_of_lt_pi (by linarith) hR'
  have hlt : Real.sin R < Real.sin (d / 2) := by
    rw [← Real.sin_pi_sub]
    exact Real.sin_lt_sin_of_lt_of_le_pi_div_two (by linarith) (by linarith) (by linarith)
  have hmain : curvedMain d R = none := by
    unfold curvedMain npArccos
    rw [if_neg, Option.bind_none]
    rw [cos_eq_half d, not_le]
    refine lt_of_lt_of_le ?_ (le_abs_self _)
    have h2 : 2 < (1 - (1 - 2 * Real.sin (d / 2) ^ 2)) / Real.sin R ^ 2 := by
      rw [lt_div_iff₀ (by positivity)]
      nlinarith
    linarith
  unfold diskOverlapCurved
  dsimp only
  have hn : ¬ (2 * R ≤ d ∨ R = 0) := by rintro (h' | h') <;> linarith
  have hn2 : ¬ R < 1/10^4 := by norm_num; linarith
  rw [if_neg hn, if_neg (not_lt.2 h10), if_neg hn2, hmain]
  cases b <;> rfl

/-- **C154 refuted (whole numbers).** With the distance 0 given as an int, small discs do not overlap themselves. -/
theorem C154_curved_int_refuted (R : ℝ) (h0 : 0 < R) (hR : R < 1/2) : diskOverlapCurved true 0 R = some 0 := by
  have hpi := Real.pi_le_four
  have hpi0 := Real.pi_pos
  unfold diskOverlapCurved
  dsimp only
  rw [if_pos rfl, if_neg (by rintro (h' | h') <;> linarith), if_pos (by norm_num), Option.map_some]
  have h1 : 1 - Real.cos R ≤ R ^ 2 / 2 := by have := Real.one_sub_sq_div_two_le_cos (x := R); linarith
  have h2 : 0 ≤ 1 - Real.cos R := by have := Real.cos_le_one R; linarith
  have e : curvedTiny 0 R = 2 * Real.pi * (1 - Real.cos R) := by simp [curvedTiny]
  have hv0 : 0 ≤ curvedTiny 0 R := by rw [e]; positivity
  have hv1 : curvedTiny 0 R < 1 := by rw [e]; nlinarith
  rw [if_pos hv0, show ⌊curvedTiny 0 R⌋ = 0 from Int.floor_eq_zero_iff.2 ⟨hv0, hv1⟩]
  simp

/-! ### Airy beams -/

theorem lairy_near {x : ℝ} (h0 : 0 ≤ x) (h1 : x ≤ 1) : lairy x = (Real.arccos x - x * Real.sqrt (1 - x ^ 2)) / (Real.pi / 2) := by
  unfold lairy
  dsimp only
  rw [max_eq_left h0, min_eq_left h1]

/-- C154: lairy is the part of the aperture that overlaps itself when it is moved by x times its diameter. -/
theorem C154_lairy (x : ℝ) (hx : 0 ≤ x) :
    volume ({p : ℝ × ℝ | (p.1 + x) ^ 2 + p.2 ^ 2 < 1} ∩ {p : ℝ × ℝ | (p.1 - x) ^ 2 + p.2 ^ 2 < 1}) = ENNReal.ofReal (lairy x) * volume {p : ℝ × ℝ | p.1 ^ 2 + p.2 ^ 2 < 1} := by
  have hpi := Real.pi_pos
  have h := C154_overlap (2 * x) 1 one_pos (by linarith)
  have h0 := C154_overlap 0 1 one_pos le_rfl
  have e0 : diskOverlap 0 1 = Real.pi := by
    rw [diskOverlap_near one_pos le_rfl (by norm_num)]
    simp
  have e : diskOverlap (2 * x) 1 = lairy x * Real.pi := by
    unfold diskOverlap lairy
    dsimp only
    rw [show 2 * x / (2 * 1) = x by ring]
    field_simp
  have hl : 0 ≤ lairy x := by
    rcases le_or_gt x 1 with h1 | h1
    · rw [lairy_near hx h1, ← Real.sin_arccos]
      apply div_nonneg _ (by positivity)
      have a0 := Real.arccos_nonneg x
      have a1 := Real.sin_le a0
      have a2 : 0 ≤ Real.sin (Real.arccos x) := by rw [Real.sin_arccos]; exact Real.sqrt_nonneg _
      nlinarith
    · unfold lairy
      dsimp only
      rw [min_eq_right (by rw [max_eq_left hx]; exact h1.le)]
      simp
  rw [e0] at h0
  simp only [zero_div, add_zero, sub_zero, Set.inter_self, one_pow] at h0
  rw [h0, ← ENNReal.ofReal_mul hl, ← e, ← h]
  simp only [mul_div_cancel_left₀ x (two_ne_zero' ℝ), one_pow]

theorem xlairy_deriv {x : ℝ} (h0 : 0 < x) (h1 : x < 1) :
    HasDerivAt (fun x => x ^ 2 / 2 * Real.arccos x + (Real.arcsin x - x * Real.sqrt (1 - x ^ 2)) / 4 - (Real.arcsin x - x * (1 - 2 * x ^ 2) * Real.sqrt (1 - x ^ 2)) / 8)
      (x * (Real.arccos x - x * Real.sqrt (1 - x ^ 2))) x := by
  have hq0 : 0 < 1 - x ^ 2 := by nlinarith
  have hq : 0 < Real.sqrt (1 - x ^ 2) := Real.sqrt_pos.2 hq0
  have hqq : Real.sqrt (1 - x ^ 2) ^ 2 = 1 - x ^ 2 := Real.sq_sqrt hq0.le
  have n1 : x ≠ -1 := by linarith
  have n2 : x ≠ 1 := h1.ne
  have hs : HasDerivAt (fun t : ℝ => 1 - t ^ 2) (-(2 * x)) x := by
    have := (hasDerivAt_pow 2 x).const_sub 1
    simpa using this
  have ds := hs.sqrt hq0.ne'
  have dA := Real.hasDerivAt_arccos n1 n2
  have dS := Real.hasDerivAt_arcsin n1 n2
  have t1 := (((hasDerivAt_pow 2 x).div_const 2).mul dA)
  have t2 := ((dS.sub ((hasDerivAt_id x).mul ds)).div_const 4)
  have t3 := ((dS.sub (((hasDerivAt_id x).mul (((hasDerivAt_pow 2 x).const_mul 2).const_sub 1)).mul ds)).div_const 8)
  refine ((t1.add t2).sub t3).congr_deriv ?_
  simp only [id, Pi.mul_apply]
  set q := Real.sqrt (1 - x ^ 2) with hqd
  field_simp
  push_cast
  linear_combination (16 * x ^ 2 - 8) * hqq

/-- C154: the harmonic representation times the area is a beam whose value in the centre is one: the sum of l/(2 pi) times it over all multipoles, for every aperture and wavelength. -/
theorem C154_airy_peak (D lam : ℝ) (hD : 0 < D) (hl : 0 < lam) :
    ∫ l in (0 : ℝ)..airyLmax D lam, l / (2 * Real.pi) * (airyArea D lam * lairy (l / airyLmax D lam)) = 1 := by
  have hpi := Real.pi_pos
  set L := airyLmax D lam with hL
  have hLp : 0 < L := by rw [hL]; unfold airyLmax; positivity
  have hI : ∫ x in (0 : ℝ)..1, x * (Real.arccos x - x * Real.sqrt (1 - x ^ 2)) = Real.pi / 16 := by
    rw [intervalIntegral.integral_eq_sub_of_hasDerivAt_of_le zero_le_one (f := fun x => x ^ 2 / 2 * Real.arccos x + (Real.arcsin x - x * Real.sqrt (1 - x ^ 2)) / 4 - (Real.arcsin x - x * (1 - 2 * x ^ 2) * Real.sqrt (1 - x ^ 2)) / 8)]
    · simp
      ring
    · have := Real.continuous_arccos
      have := Real.continuous_arcsin
      fun_prop
    · intro x hx
      exact xlairy_deriv hx.1 hx.2
    · apply Continuous.intervalIntegrable
      have := Real.continuous_arccos
      fun_prop
  have e : ∀ l : ℝ, l / (2 * Real.pi) * (airyArea D lam * lairy (l / L)) = (L * airyArea D lam / (2 * Real.pi)) * ((l / L) * lairy (l / L)) := by
    intro l
    field_simp
  simp only [e]
  rw [intervalIntegral.integral_const_mul, intervalIntegral.integral_comp_div (fun x => x * lairy x) hLp.ne', zero_div, div_self hLp.ne']
  have e2 : ∫ x in (0 : ℝ)..1, x * lairy x = 1 / 8 := by
    have : ∫ x in (0 : ℝ)..1, x * lairy x = ∫ x in (0 : ℝ)..1, (2 / Real.pi) * (x * (Real.arccos x - x * Real.sqrt (1 - x ^ 2))) := by
      apply intervalIntegral.integral_congr
      intro x hx
      rw [Set.uIcc_of_le zero_le_one] at hx
      simp only
      rw [lairy_near hx.1 hx.2]
      field_simp
    rw [this, intervalIntegral.integral_const_mul, hI]
    field_simp
    norm_num
  rw [e2, smul_eq_mul, hL]
  unfold airyArea airyLmax
  field_simp
  norm_num

/-- **C154 refuted (the other side).** Airy beams are symmetric and not negative, but airy is negative at every x below -2, whatever the Bessel function. -/
theorem C154_airy_refuted (j1 : ℝ → ℝ) (x : ℝ) (hx : 2 < x) : airy j1 (-x) < 0 ∧ 0 ≤ airy j1 x := by
  unfold airy
  rw [if_pos (by norm_num; linarith), if_neg (by norm_num; linarith)]
  exact ⟨by nlinarith, by positivity⟩

/-! ### Conversions -/

/-- C154: the conversions between times are inverse to each other, a day has 86400 seconds, and the time 0 is the Julian date 2440587.5. -/
theorem C154_times (t : ℚ) :
    mjd2ctime (ctime2mjd t) = t ∧ ctime2mjd (mjd2ctime t) = t ∧ djd2ctime (ctime2djd t) = t ∧ ctime2djd (djd2ctime t) = t ∧ jd2ctime (ctime2jd t) = t ∧ ctime2jd (jd2ctime t) = t ∧
    mjd2djd (djd2mjd t) = t ∧ djd2mjd (mjd2djd t) = t ∧ mjd2jd (jd2mjd t) = t ∧ jd2mjd (mjd2jd t) = t ∧
    ctime2jd t = 24405875/10 + t / 86400 ∧ ctime2djd t = ctime2jd t - 2415020 ∧ ctime2mjd t = ctime2jd t - 24000005/10 := by
  unfold djd2ctime ctime2djd jd2ctime ctime2jd mjd2djd djd2mjd mjd2jd jd2mjd ctime2mjd mjd2ctime
  refine ⟨?_, ?_, ?_, ?_, ?_, ?_, ?_, ?_, ?_, ?_, ?_, ?_, ?_⟩ <;> ring

/-- C154: scales and multipoles, and resolutions and nsides, are inverse to each other. (l+1)^2 coefficients have as many pixels of their scale, and 12 nside^2 pixels of their
resolution, as the sky is large. -/
theorem C154_scales (l a n : ℝ) (hl : 0 ≤ l) (ha : 0 < a) (hn : 0 < n) :
    ang2l (l2ang l) = l ∧ l2ang (ang2l a) = a ∧ (l + 1) ^ 2 * l2ang l ^ 2 = 4 * Real.pi ∧
    res2nside (nside2res n) = n ∧ nside2res (res2nside a) = a ∧ 12 * n ^ 2 * nside2res n ^ 2 = 4 * Real.pi := by
  have hpi := Real.pi_pos
  have h1 : 0 < Real.sqrt (4 * Real.pi) := Real.sqrt_pos.2 (by positivity)
  have h2 : 0 < Real.sqrt (Real.pi / 3) := Real.sqrt_pos.2 (by positivity)
  have h1s : Real.sqrt (4 * Real.pi) ^ 2 = 4 * Real.pi := Real.sq_sqrt (by positivity)
  have h2s : Real.sqrt (Real.pi / 3) ^ 2 = Real.pi / 3 := Real.sq_sqrt (by positivity)
  have hl1 : l + 1 ≠ 0 := by linarith
  unfold ang2l l2ang res2nside nside2res
  refine ⟨?_, ?_, ?_, ?_, ?_, ?_⟩
  · field_simp; ring
  · rw [sub_add_cancel]; field_simp
  · rw [div_pow, h1s]; field_simp
  · field_simp
  · field_simp
  · rw [div_pow, h2s]; field_simp; norm_num

/-- C154: ang2chord is the distance of two points of the unit circle, and chord2ang gives the angle back, for angles up to half a turn. Missing: larger angles, see C154_chord_refuted. -/
theorem C154_chord_partial (a b : ℝ) (h : |a - b| ≤ Real.pi) :
    ang2chord |a - b| ^ 2 = (Real.cos a - Real.cos b) ^ 2 + (Real.sin a - Real.sin b) ^ 2 ∧ 0 ≤ ang2chord |a - b| ∧ chord2ang (ang2chord |a - b|) = some |a - b| := by
  have hpi := Real.pi_pos
  have h0 := abs_nonneg (a - b)
  have hc : Real.cos |a - b| = Real.cos a * Real.cos b + Real.sin a * Real.sin b := by rw [Real.cos_abs, Real.cos_sub]
  have hh := cos_eq_half |a - b|
  have h2 := Real.sin_sq_add_cos_sq (|a - b| / 2)
  have pa := Real.sin_sq_add_cos_sq a
  have pb := Real.sin_sq_add_cos_sq b
  have e : 2 * Real.sin (|a - b| / 2) / 2 = Real.sin (|a - b| / 2) := by ring
  refine ⟨?_, ?_, ?_⟩
  · unfold ang2chord
    nlinarith
  · unfold ang2chord
    have := Real.sin_nonneg_of_nonneg_of_le_pi (x := |a - b| / 2) (by linarith) (by linarith)
    linarith
  · unfold ang2chord chord2ang
    rw [e, if_pos (Real.abs_sin_le_one _), Real.arcsin_sin (by linarith) (by linarith)]
    congr 1
    ring

/-- **C154 refuted (more than half a turn).** Beyond half a turn chord2ang gives another angle, and beyond a whole one the chord is negative. -/
theorem C154_chord_refuted (a : ℝ) : (Real.pi < a → chord2ang (ang2chord a) ≠ some a) ∧ (2 * Real.pi < a → a < 4 * Real.pi → ang2chord a < 0) := by
  have hpi := Real.pi_pos
  constructor
  · intro h hc
    have e : 2 * Real.sin (a / 2) / 2 = Real.sin (a / 2) := by ring
    unfold ang2chord chord2ang at hc
    rw [e, if_pos (Real.abs_sin_le_one _), Option.some.injEq] at hc
    have := Real.arcsin_le_pi_div_two (Real.sin (a / 2))
    linarith
  · intro h1 h2
    unfold ang2chord
    have := Real.sin_neg_of_neg_of_neg_pi_lt (x := a / 2 - 2 * Real.pi) (by linarith) (by linarith)
    rw [Real.sin_sub_two_pi] at this
    linarith

/-! ### Derivatives and ranges -/

/-- C154: D gives the derivative of every real polynomial up to an error of second order in eps. Missing: functions that are not analytic, see C154_deriv_refuted. -/
theorem C154_deriv_partial (p : Polynomial ℝ) (x : ℝ) :
    ∃ C, ∀ eps : ℝ, 0 < eps → eps ≤ 1 → |stepDeriv (fun z => Polynomial.aeval z p) eps x - p.derivative.eval x| ≤ C * eps ^ 2 := by
  set T := Polynomial.taylor x p with hT
  set T3 := T.divX.divX.divX with hT3
  refine ⟨∑ i ∈ Finset.range (T3.natDegree + 1), |T3.coeff i|, fun eps h0 h1 => ?_⟩
  set w : ℂ := eps * Complex.I with hw
  have e1 : Polynomial.aeval ((x : ℂ) + w) p = Polynomial.aeval w T := by
    rw [hT, Polynomial.aeval_def, Polynomial.aeval_def, Polynomial.eval₂_eq_eval_map, Polynomial.eval₂_eq_eval_map, Polynomial.map_taylor, Polynomial.taylor_eval, add_comm]
    rfl
  have e2 : Polynomial.aeval w T = T.coeff 0 + w * (T.coeff 1 + w * (T.coeff 2 + w * Polynomial.aeval w T3)) := by
    have step : ∀ q : Polynomial ℝ, Polynomial.aeval w q = (q.coeff 0 : ℂ) + w * Polynomial.aeval w q.divX := by
      intro q
      conv_lhs => rw [← Polynomial.divX_mul_X_add q]
      rw [map_add, map_mul, Polynomial.aeval_X, Polynomial.aeval_C, add_comm, mul_comm]
      rfl
    rw [step T, step T.divX, step T.divX.divX, Polynomial.coeff_divX, Polynomial.coeff_divX, Polynomial.coeff_divX]
  have hb : |(Polynomial.aeval w T3).re| ≤ ∑ i ∈ Finset.range (T3.natDegree + 1), |T3.coeff i| := by
    refine (Complex.abs_re_le_norm _).trans ?_
    rw [Polynomial.aeval_eq_sum_range]
    refine (norm_sum_le _ _).trans (Finset.sum_le_sum fun i _ => ?_)
    rw [norm_smul, norm_pow, Real.norm_eq_abs]
    have : ‖w‖ ≤ 1 := by rw [hw, norm_mul, Complex.norm_I, mul_one, Complex.norm_real, Real.norm_eq_abs, abs_of_pos h0]; exact h1
    calc |T3.coeff i| * ‖w‖ ^ i ≤ |T3.coeff i| * 1 := mul_le_mul_of_nonneg_left (pow_le_one₀ (norm_nonneg _) this) (abs_nonneg _)
      _ = _ := mul_one _
  have hc1 : T.coeff 1 = p.derivative.eval x := Polynomial.taylor_coeff_one x p
  have key : stepDeriv (fun z => Polynomial.aeval z p) eps x - p.derivative.eval x = -(eps ^ 2 * (Polynomial.aeval w T3).re) := by
    unfold stepDeriv
    rw [← hw]
    dsimp only
    rw [e1, e2, ← hc1]
    set t := Polynomial.aeval w T3
    simp only [hw, Complex.add_im, Complex.mul_im, Complex.add_re, Complex.mul_re, Complex.ofReal_re, Complex.ofReal_im, Complex.I_re, Complex.I_im]
    field_simp
    ring
  rw [key, abs_neg, abs_mul, abs_of_nonneg (by positivity), mul_comm]
  exact mul_le_mul_of_nonneg_right hb (by positivity)

/-- **C154 refuted (absolute value).** D of abs is 0 everywhere, also where the derivative is 1. -/
theorem C154_deriv_refuted (x eps : ℝ) (hx : 0 < x) : stepDeriv (fun z => (‖z‖ : ℂ)) eps x = 0 ∧ HasDerivAt (fun t : ℝ => |t|) 1 x := by
  refine ⟨by simp [stepDeriv], ?_⟩
  have := hasDerivAt_abs_pos hx
  exact this

/-- C154: rescale is an increasing or decreasing line that takes the smallest value to the start of the range and the largest to its end. Missing: constant arrays, see C154_rescale_refuted. -/
theorem C154_rescale_partial (a : List ℚ) (r0 r1 : ℚ) (lo hi : ℚ) (hlo : lo ∈ a) (hhi : hi ∈ a) (h : ∀ x ∈ a, lo ≤ x ∧ x ≤ hi) (hne : lo ≠ hi) :
    ∃ s c, rescale a r0 r1 = some (a.map fun x => s * x + c) ∧ s * lo + c = r0 ∧ s * hi + c = r1 := by
  have e1 : a.min? = some lo := List.min?_eq_some_iff.2 ⟨hlo, fun x hx => (h x hx).1⟩
  have e2 : a.max? = some hi := List.max?_eq_some_iff.2 ⟨hhi, fun x hx => (h x hx).2⟩
  have hd : hi - lo ≠ 0 := sub_ne_zero.2 (Ne.symm hne)
  refine ⟨(r1 - r0) / (hi - lo), r0 - lo * (r1 - r0) / (hi - lo), ?_, ?_, ?_⟩
  · unfold rescale
    rw [e1, e2]
    dsimp only
    rw [if_neg hd]
    congr 1
    apply List.map_congr_left
    intro x _
    field_simp
    ring
  · field_simp; ring
  · field_simp; ring

example : rescale [3, 1, 2] 0 10 = some [10, 0, 5] := by decide +kernel

/-- **C154 refuted (constant).** A constant array cannot be rescaled. -/
theorem C154_rescale_refuted (v r0 r1 : ℚ) (n : ℕ) : rescale (List.replicate n v) r0 r1 = none := by
  cases n with
  | zero => rfl
  | succ n =>
    have e1 : (List.replicate (n + 1) v).min? = some v := List.min?_eq_some_iff.2 ⟨by simp, fun x hx => (List.eq_of_mem_replicate hx).ge⟩
    have e2 : (List.replicate (n + 1) v).max? = some v := List.max?_eq_some_iff.2 ⟨by simp, fun x hx => (List.eq_of_mem_replicate hx).le⟩
    unfold rescale
    rw [e1, e2]
    simp

end Pixell
