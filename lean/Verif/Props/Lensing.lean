import Verif.Model.Lensing
import Verif.Props.Aberration
import Verif.Props.Coordinates
import Mathlib.Tactic.LinearCombination

/-!
C105: offset_by_grad moves positions along great circles (not over the poles), with the rotation of polarization.
C106: wrapping at the poles.
-/
namespace Pixell
open Real

/-! ### Specification: great circles -/

/-- The unit vector of zenith angle t and longitude p, and the two unit tangent vectors, as functions of the index 0,1,2. -/
noncomputable def nVec (t p : ℝ) : Fin 3 → ℝ := ![sin t * cos p, sin t * sin p, cos t]
noncomputable def eTheta (t p : ℝ) : Fin 3 → ℝ := ![cos t * cos p, cos t * sin p, -sin t]
noncomputable def ePhi (p : ℝ) : Fin 3 → ℝ := ![-sin p, cos p, 0]

/-- The point reached from (t,p) after the angle d in the tangent direction g. -/
noncomputable def geoPoint (t p : ℝ) (g : ℝ × ℝ) (d : ℝ) : Fin 3 → ℝ :=
  fun i => cos d * nVec t p i + sin d * (g.1 * eTheta t p i + g.2 * ePhi p i)

/-- The direction of travel there. -/
noncomputable def geoDir (t p : ℝ) (g : ℝ × ℝ) (d : ℝ) : Fin 3 → ℝ :=
  fun i => -sin d * nVec t p i + cos d * (g.1 * eTheta t p i + g.2 * ePhi p i)

/-- The direction is the derivative of the point. -/
theorem geoDir_deriv (t p : ℝ) (g : ℝ × ℝ) (d : ℝ) (i : Fin 3) :
    HasDerivAt (fun s => geoPoint t p g s i) (geoDir t p g d i) d := by
  unfold geoPoint geoDir
  exact ((hasDerivAt_cos d).mul_const _).add ((hasDerivAt_sin d).mul_const _)

/-! ### Helper lemmas -/

theorem fixGrad_ne (g : ℝ × ℝ) : ¬ ((fixGrad g).1 = 0 ∧ (fixGrad g).2 = 0) := by
  unfold fixGrad
  split
  · norm_num
  · assumption

theorem gradLen_pos {g : ℝ × ℝ} (h : ¬ (g.1 = 0 ∧ g.2 = 0)) : 0 < gradLen g := by
  unfold gradLen
  apply sqrt_pos.mpr
  rcases not_and_or.mp h with h | h
  · have := sq_nonneg g.2
    have : 0 < g.1 ^ 2 := by positivity
    linarith
  · have := sq_nonneg g.1
    have : 0 < g.2 ^ 2 := by positivity
    linarith

theorem gradDir_unit {g : ℝ × ℝ} (h : ¬ (g.1 = 0 ∧ g.2 = 0)) : (gradDir g).1 ^ 2 + (gradDir g).2 ^ 2 = 1 := by
  have hl := gradLen_pos h
  unfold gradDir
  simp only [div_pow]
  rw [← add_div, div_eq_one_iff_eq (by positivity)]
  unfold gradLen
  rw [sq_sqrt (by positivity)]

/-- The component of the end point along the meridian plane of the start is positive when no pole is reached. -/
theorem meridian_pos {t d x : ℝ} (hx1 : -1 ≤ x) (hx2 : x ≤ 1) (hd : 0 < d) (h1 : d < t) (h2 : d < π - t) :
    0 < cos d * sin t + sin d * cos t * x := by
  have hsd : 0 < sin d := sin_pos_of_pos_of_lt_pi hd (by linarith)
  rcases le_total 0 (cos t) with hc | hc
  · have := sin_pos_of_pos_of_lt_pi (x := t - d) (by linarith) (by linarith)
    rw [sin_sub] at this
    have : 0 ≤ sin d * cos t * (x + 1) := mul_nonneg (mul_nonneg hsd.le hc) (by linarith)
    nlinarith
  · have := sin_pos_of_pos_of_lt_pi (x := t + d) (by linarith) (by linarith)
    rw [sin_add] at this
    have : 0 ≤ sin d * (-cos t) * (1 - x) := mul_nonneg (mul_nonneg hsd.le (by linarith)) (by linarith)
    nlinarith

/-- Sine and cosine of the longitude difference. -/
theorem offset_trig {t d g0 g1 : ℝ} (hg : g0 ^ 2 + g1 ^ 2 = 1) (hR : 0 < cos d * sin t + sin d * cos t * g0) :
    let oc := cos d * cos t - sin d * sin t * g0
    let S := √(1 - oc ^ 2)
    0 < S ∧ S ^ 2 = 1 - oc ^ 2 ∧ cos (arccos oc) = oc ∧ sin (arccos oc) = S ∧
    sin (arcsin (sin d * g1 / S)) = sin d * g1 / S ∧ cos (arcsin (sin d * g1 / S)) = (cos d * sin t + sin d * cos t * g0) / S := by
  intro oc S
  have hS2 : 1 - oc ^ 2 = (cos d * sin t + sin d * cos t * g0) ^ 2 + (sin d * g1) ^ 2 := by
    simp only [oc]
    have e1 := sin_sq_add_cos_sq d
    have e2 := sin_sq_add_cos_sq t
    linear_combination (-1 : ℝ) * e1 - ((cos d) ^ 2 + (sin d) ^ 2 * g0 ^ 2) * e2 - (sin d) ^ 2 * hg
  have hpos : 0 < 1 - oc ^ 2 := by rw [hS2]; positivity
  have hS : 0 < S := sqrt_pos.mpr hpos
  have hSS : S ^ 2 = 1 - oc ^ 2 := sq_sqrt hpos.le
  have hoc : oc ^ 2 ≤ 1 := by linarith
  obtain ⟨o1, o2⟩ := abs_le.mp ((sq_le_one_iff_abs_le_one oc).mp hoc)
  have hq : (sin d * g1 / S) ^ 2 ≤ 1 := by
    rw [div_pow, div_le_one (by positivity), hSS, hS2]
    have := sq_nonneg (cos d * sin t + sin d * cos t * g0)
    linarith
  obtain ⟨q1, q2⟩ := abs_le.mp ((sq_le_one_iff_abs_le_one _).mp hq)
  refine ⟨hS, hSS, cos_arccos o1 o2, sin_arccos oc, sin_arcsin q1 q2, ?_⟩
  rw [cos_arcsin]
  have : 1 - (sin d * g1 / S) ^ 2 = ((cos d * sin t + sin d * cos t * g0) / S) ^ 2 := by
    rw [div_pow, div_pow, eq_div_iff (by positivity), sub_mul, div_mul_cancel₀ _ (by positivity), one_mul, hSS, hS2]
    ring
  rw [this, sqrt_sq (by positivity)]

/-- **C105_offset_partial.** For every position and every gradient shorter than the distance to the nearest pole,
offset_by_grad returns the point of the great circle in the direction of the gradient at the distance of the gradient's
length, in zenith angle and longitude. (A zero gradient stands for one of 1e-20.) Missing: longer gradients, for which
it is false (`C105_pole_refuted`). -/
theorem C105_offset_partial (t p : ℝ) (g : ℝ × ℝ) (h1 : gradLen (fixGrad g) < t) (h2 : gradLen (fixGrad g) < π - t) :
    nVec (offsetHelper (t, p) g).1.1 (offsetHelper (t, p) g).1.2
      = geoPoint t p (gradDir (fixGrad g)) (gradLen (fixGrad g)) := by
  have hl := gradLen_pos (fixGrad_ne g)
  have hu := gradDir_unit (fixGrad_ne g)
  simp only [offsetHelper]
  generalize gradLen (fixGrad g) = d at *
  generalize (gradDir (fixGrad g)) = w at *
  obtain ⟨g0, g1⟩ := w
  simp only at hu ⊢
  have hb := (sq_le_one_iff_abs_le_one g0).mp (by nlinarith [sq_nonneg g1])
  obtain ⟨x1, x2⟩ := abs_le.mp hb
  obtain ⟨hS, hSS, c1, s1, s2, c2⟩ := offset_trig hu (meridian_pos x1 x2 hl h1 h2)
  funext i
  fin_cases i
  · simp only [nVec, geoPoint, eTheta, ePhi, Fin.zero_eta, Matrix.cons_val_zero]
    rw [s1, cos_add, c2, s2]
    field_simp
    ring
  · simp only [nVec, geoPoint, eTheta, ePhi, Fin.mk_one, Matrix.cons_val_one, Matrix.cons_val_zero]
    rw [s1, sin_add, c2, s2]
    field_simp
    ring
  · simp only [nVec, geoPoint, eTheta, ePhi, Fin.reduceFinMk, Matrix.cons_val]
    rw [c1]
    ring

/-- **C105_declination_partial.** The same in declination and right ascension, with gradients (north,east). -/
theorem C105_declination_partial (dec ra : ℝ) (g : ℝ × ℝ)
    (h : gradLen (fixGrad (-g.1, g.2)) < π / 2 - |dec|) :
    nVec (π / 2 - (offsetByGrad (dec, ra) g).1) (offsetByGrad (dec, ra) g).2.1
      = geoPoint (π / 2 - dec) ra (gradDir (fixGrad (-g.1, g.2))) (gradLen (fixGrad (-g.1, g.2))) := by
  have h1 := le_abs_self dec
  have h2 := neg_abs_le dec
  have := C105_offset_partial (π / 2 - dec) ra (-g.1, g.2) (by linarith) (by linarith)
  unfold offsetByGrad
  simp only [sub_sub_cancel]
  exact this

/-- **C105_pole_refuted.** A gradient that leads straight over the pole ends on the wrong side: at every distance from the
pole and for every longer gradient (up to half a turn) the longitude is not changed, so that the position is mirrored. -/
theorem C105_pole_refuted {t d : ℝ} (p : ℝ) (ht : 0 < t) (h1 : t < d) (h2 : d < π) :
    (offsetHelper (t, p) (-d, 0)).1 = (d - t, p) ∧
    nVec (offsetHelper (t, p) (-d, 0)).1.1 (offsetHelper (t, p) (-d, 0)).1.2 ≠ geoPoint t p (-1, 0) d ∧
    geoPoint t p (-1, 0) d = nVec (d - t) (p + π) := by
  have hd : 0 < d := by linarith
  have hf : fixGrad (-d, 0) = (-d, 0) := by
    unfold fixGrad
    rw [if_neg]
    rintro ⟨h, _⟩
    simp only [neg_eq_zero] at h
    linarith
  have hl : gradLen (-d, 0) = d := by
    unfold gradLen
    simp only [neg_sq, zero_pow (two_ne_zero), add_zero]
    exact sqrt_sq hd.le
  have hg : gradDir (-d, 0) = (-1, 0) := by
    unfold gradDir
    rw [hl]
    simp only [zero_div, neg_div, div_self hd.ne']
  have e : (offsetHelper (t, p) (-d, 0)).1 = (d - t, p) := by
    simp only [offsetHelper, hf, hl, hg, mul_zero, zero_div, arcsin_zero, add_zero, mul_neg, mul_one, sub_neg_eq_add]
    rw [← cos_sub, arccos_cos (by linarith) (by linarith)]
  have hs : 0 < sin (d - t) := sin_pos_of_pos_of_lt_pi (by linarith) (by linarith)
  have e2 : geoPoint t p (-1, 0) d = nVec (d - t) (p + π) := by
    funext i
    fin_cases i
    · simp only [nVec, geoPoint, eTheta, ePhi, Fin.zero_eta, Matrix.cons_val_zero, sin_sub, cos_add_pi]
      ring
    · simp only [nVec, geoPoint, eTheta, ePhi, Fin.mk_one, Matrix.cons_val_one, Matrix.cons_val_zero, sin_sub, sin_add_pi]
      ring
    · simp only [nVec, geoPoint, eTheta, ePhi, Fin.reduceFinMk, Matrix.cons_val, cos_sub]
      ring
  refine ⟨e, ?_, e2⟩
  rw [e, e2]
  intro hc
  have h0 := congrFun hc 0
  have h1 := congrFun hc 1
  simp only [nVec, Matrix.cons_val_zero, Matrix.cons_val_one, cos_add_pi, sin_add_pi] at h0 h1
  have a0 : sin (d - t) * cos p = 0 := by linarith
  have a1 : sin (d - t) * sin p = 0 := by linarith
  have b0 := (mul_eq_zero.mp a0).resolve_left hs.ne'
  have b1 := (mul_eq_zero.mp a1).resolve_left hs.ne'
  have := sin_sq_add_cos_sq p
  rw [b0, b1] at this
  norm_num at this

/-! ### Rotation -/

/-- The direction of travel at the end point in the frame of the returned position. -/
noncomputable def endDir (t p : ℝ) (g : ℝ × ℝ) : ℝ × ℝ :=
  let r := (offsetHelper (t, p) g).1
  let v := geoDir t p (gradDir (fixGrad g)) (gradLen (fixGrad g))
  (dot3 v (eTheta r.1 r.2), dot3 v (ePhi r.2))

/-- A pair of components as a complex number. -/
noncomputable def toC (x : ℝ × ℝ) : ℂ := x.1 + x.2 * Complex.I

theorem endDir_eq (t p : ℝ) (g : ℝ × ℝ) (h1 : gradLen (fixGrad g) < t) (h2 : gradLen (fixGrad g) < π - t) :
    let d := gradLen (fixGrad g)
    let w := gradDir (fixGrad g)
    let S := √(1 - (cos d * cos t - sin d * sin t * w.1) ^ 2)
    0 < S ∧ endDir t p g = ((sin d * cos t + cos d * sin t * w.1) / S, sin t * w.2 / S) ∧
      ((sin d * cos t + cos d * sin t * w.1) / S) ^ 2 + (sin t * w.2 / S) ^ 2 = 1 := by
  have hl := gradLen_pos (fixGrad_ne g)
  have hu := gradDir_unit (fixGrad_ne g)
  simp only [endDir, offsetHelper]
  generalize gradLen (fixGrad g) = d at *
  generalize (gradDir (fixGrad g)) = w at *
  obtain ⟨g0, g1⟩ := w
  simp only at hu ⊢
  have hb := (sq_le_one_iff_abs_le_one g0).mp (by nlinarith [sq_nonneg g1])
  obtain ⟨x1, x2⟩ := abs_le.mp hb
  obtain ⟨hS, hSS, c1, s1, s2, c2⟩ := offset_trig hu (meridian_pos x1 x2 hl h1 h2)
  have e1 := sin_sq_add_cos_sq d
  have e2 := sin_sq_add_cos_sq t
  have e3 := sin_sq_add_cos_sq p
  have key : ((sin d * cos t + cos d * sin t * g0)) ^ 2 + (sin t * g1) ^ 2 = 1 - (cos d * cos t - sin d * sin t * g0) ^ 2 := by
    linear_combination ((cos t) ^ 2 + (sin t) ^ 2 * g0 ^ 2) * e1 + e2 + (sin t) ^ 2 * hu
  refine ⟨hS, ?_, ?_⟩
  · generalize hSd : √(1 - (cos d * cos t - sin d * sin t * g0) ^ 2) = S at *
    generalize arccos (cos d * cos t - sin d * sin t * g0) = T at *
    generalize arcsin (sin d * g1 / S) = D at *
    have hcT : cos D * S = cos d * sin t + sin d * cos t * g0 := by rw [c2]; field_simp
    have hsT : sin D * S = sin d * g1 := by rw [s2]; field_simp
    have hS2 := hSS
    ext
    · simp only [dot3, geoDir, nVec, eTheta, ePhi, Matrix.cons_val_zero, Matrix.cons_val_one, Matrix.cons_val]
      rw [eq_div_iff hS.ne', cos_add, sin_add, c1, s1]
      have hperp : (cos d * sin t + sin d * cos t * g0) * (-sin d * sin t + cos d * (g0 * cos t)) + sin d * g1 * (cos d * g1)
          = (cos d * cos t - sin d * sin t * g0) * (sin d * cos t + cos d * sin t * g0) := by
        linear_combination (sin d * cos d) * hu + (sin d * cos d) * (g0 ^ 2 - 1) * e2
      generalize cos d * cos t - sin d * sin t * g0 = oc at *
      linear_combination (oc * S * (cos D * (-sin d * sin t + cos d * (g0 * cos t)) + sin D * (cos d * g1))) * e3
        + oc * (-sin d * sin t + cos d * (g0 * cos t)) * hcT + oc * (cos d * g1) * hsT + oc * hperp
        + (sin d * cos t + cos d * sin t * g0) * hS2
    · simp only [dot3, geoDir, nVec, eTheta, ePhi, Matrix.cons_val_zero, Matrix.cons_val_one, Matrix.cons_val]
      rw [eq_div_iff hS.ne', cos_add, sin_add]
      linear_combination (S * (-sin D * (-sin d * sin t + cos d * (g0 * cos t)) + cos D * (cos d * g1))) * e3
        + (cos d * g1) * hcT - (-sin d * sin t + cos d * (g0 * cos t)) * hsT + (sin t * g1) * e1
  · rw [div_pow, div_pow, ← add_div, div_eq_one_iff_eq (by positivity), hSS, key]

/-- **C105_rotation.** The rotation that offset_by_grad computes is twice the angle by which the direction of the great
circle turns against the coordinate frame between the two points: the pair (cosgam,singam) is the square of the direction
at the start times the conjugate of the direction at the end, as complex numbers. -/
theorem C105_rotation (t p : ℝ) (g : ℝ × ℝ) (h1 : gradLen (fixGrad g) < t) (h2 : gradLen (fixGrad g) < π - t)
    (h0 : (endDir t p g).1 ≠ 0) :
    toC (offsetHelper (t, p) g).2 = (toC (gradDir (fixGrad g)) * (starRingEnd ℂ) (toC (endDir t p g))) ^ 2 ∧
    ‖toC (endDir t p g)‖ = 1 := by
  have hl := gradLen_pos (fixGrad_ne g)
  have hu := gradDir_unit (fixGrad_ne g)
  obtain ⟨hS, he, hn⟩ := endDir_eq t p g h1 h2
  rw [he] at h0 ⊢
  have hst : 0 < sin t := sin_pos_of_pos_of_lt_pi (by linarith) (by linarith)
  simp only [offsetHelper]
  generalize gradLen (fixGrad g) = d at *
  generalize (gradDir (fixGrad g)) = w at *
  obtain ⟨g0, g1⟩ := w
  simp only at hu hS hn h0 ⊢
  generalize √(1 - (cos d * cos t - sin d * sin t * g0) ^ 2) = S at *
  have hA : g1 / (sin d * cos t / sin t + g0 * cos d) = (sin t * g1 / S) / ((sin d * cos t + cos d * sin t * g0) / S) := by
    rw [div_div_div_cancel_right₀ hS.ne']
    have : sin d * cos t / sin t + g0 * cos d = (sin d * cos t + cos d * sin t * g0) / sin t := by
      field_simp
    rw [this, div_div_eq_mul_div]
    ring
  rw [hA]
  generalize (sin d * cos t + cos d * sin t * g0) / S = u0 at *
  generalize sin t * g1 / S = u1 at *
  constructor
  · have hden : 1 + (u1 / u0) ^ 2 = 1 / u0 ^ 2 := by
      field_simp
      linarith
    have e1 : 2 * (g0 + g1 * (u1 / u0)) ^ 2 / (1 + (u1 / u0) ^ 2) - 1 = 2 * (g0 * u0 + g1 * u1) ^ 2 - 1 := by
      rw [hden]
      field_simp
    have e2 : 2 * (g0 + g1 * (u1 / u0)) * (g1 - g0 * (u1 / u0)) / (1 + (u1 / u0) ^ 2) = 2 * (g0 * u0 + g1 * u1) * (g1 * u0 - g0 * u1) := by
      rw [hden]
      field_simp
    rw [e1, e2]
    apply Complex.ext
    · simp [toC, pow_two]
      linear_combination hu + (g0 ^ 2 + g1 ^ 2) * hn
    · simp [toC, pow_two]
      ring
  · rw [← sq_eq_sq₀ (norm_nonneg _) (by norm_num), Complex.sq_norm, Complex.normSq_apply]
    simp [toC]
    linarith

/-- **C105_lens_rotation.** lens_map_curved rotates polarization by the square of what parallel transport along
the great circle asks for: it hands the angle of (cosgam,singam), which already is the rotation of Q+iU, to rotate_pol,
which doubles it. -/
theorem C105_lens_rotation (dec ra : ℝ) (g : ℝ × ℝ) (m : Nat → ℝ)
    (h : gradLen (fixGrad (-g.1, g.2)) < π / 2 - |dec|) (h0 : (endDir (π / 2 - dec) ra (-g.1, g.2)).1 ≠ 0) :
    toC (lensRotate (dec, ra) g m 1, lensRotate (dec, ra) g m 2)
      = ((toC (gradDir (fixGrad (-g.1, g.2))) * (starRingEnd ℂ) (toC (endDir (π / 2 - dec) ra (-g.1, g.2)))) ^ 2) ^ 2 * toC (m 1, m 2) := by
  have hd1 := le_abs_self dec
  have hd2 := neg_abs_le dec
  obtain ⟨hr, hn⟩ := C105_rotation (π / 2 - dec) ra (-g.1, g.2) (by linarith) (by linarith) h0
  have hc := (C102_complex (p := 1) (q := 2) (by norm_num) 2 (offsetByGrad (dec, ra) g).2.2 m).1
  have hang : (offsetByGrad (dec, ra) g).2.2 = Complex.arg (toC (offsetHelper (π / 2 - dec, ra) (-g.1, g.2)).2) := by
    unfold offsetByGrad atan2 toC
    simp only
    congr 1
    apply Complex.ext <;> simp
  have hu := gradDir_unit (fixGrad_ne (-g.1, g.2))
  have hn1 : ‖toC (offsetHelper (π / 2 - dec, ra) (-g.1, g.2)).2‖ = 1 := by
    rw [hr, norm_pow, norm_mul, Complex.norm_conj, hn]
    have : ‖toC (gradDir (fixGrad (-g.1, g.2)))‖ = 1 := by
      rw [← sq_eq_sq₀ (norm_nonneg _) (by norm_num), Complex.sq_norm, Complex.normSq_apply]
      simp only [toC, Complex.add_re, Complex.ofReal_re, Complex.mul_re, Complex.I_re, mul_zero, Complex.ofReal_im, Complex.I_im, mul_one,
        sub_self, add_zero, Complex.add_im, Complex.mul_im, zero_add]
      linarith
    rw [this]
    norm_num
  have hexp : Complex.exp (((2 : ℤ) : ℂ) * ((offsetByGrad (dec, ra) g).2.2 : ℂ) * Complex.I)
      = (toC (offsetHelper (π / 2 - dec, ra) (-g.1, g.2)).2) ^ 2 := by
    rw [hang]
    have := Complex.norm_mul_exp_arg_mul_I (toC (offsetHelper (π / 2 - dec, ra) (-g.1, g.2)).2)
    rw [hn1, Complex.ofReal_one, one_mul] at this
    conv_rhs => rw [← this]
    rw [← Complex.exp_nat_mul]
    congr 1
    push_cast
    ring
  rw [hexp, hr] at hc
  exact hc

/-- **C105_lens_rotation_refuted.** So the polarization is not the parallel-transported one: for every position off the
equator and every gradient to the east (shorter than the distance to the pole), pure Q=1 is rotated wrongly. -/
theorem C105_lens_rotation_refuted {dec d : ℝ} (ra : ℝ) (h0 : dec ≠ 0) (hd : 0 < d) (h : d < π / 2 - |dec|) :
    toC (lensRotate (dec, ra) (0, d) (fun i => if i = 1 then 1 else 0) 1, lensRotate (dec, ra) (0, d) (fun i => if i = 1 then 1 else 0) 2)
      ≠ (toC (gradDir (fixGrad (-0, d))) * (starRingEnd ℂ) (toC (endDir (π / 2 - dec) ra (-0, d)))) ^ 2 := by
  have hd1 := le_abs_self dec
  have hd2 := neg_abs_le dec
  have hf : fixGrad (-0, d) = (0, d) := by
    unfold fixGrad
    rw [if_neg]
    · simp
    · rintro ⟨_, hc⟩
      exact hd.ne' hc
  have hl : gradLen (0, d) = d := by
    unfold gradLen
    simp only [zero_pow two_ne_zero, zero_add]
    exact sqrt_sq hd.le
  have hg : gradDir (0, d) = (0, 1) := by
    unfold gradDir
    rw [hl]
    simp only [zero_div, div_self hd.ne']
  have hfl : gradLen (fixGrad (-0, d)) = d := by rw [hf, hl]
  obtain ⟨hS, he, hn⟩ := endDir_eq (π / 2 - dec) ra (-0, d) (by rw [hfl]; linarith) (by rw [hfl]; linarith)
  rw [hf, hl, hg] at he hS hn
  simp only [mul_zero, add_zero, sub_zero, mul_one] at he hS hn
  rw [cos_pi_div_two_sub, sin_pi_div_two_sub] at he
  have hsd : 0 < sin d := sin_pos_of_pos_of_lt_pi hd (by linarith [abs_nonneg dec])
  have hcd : 0 < cos dec := cos_pos_of_mem_Ioo ⟨by linarith, by linarith⟩
  have hsdec : sin dec ≠ 0 := by
    intro hs
    rw [sin_eq_zero_iff_of_lt_of_lt (by linarith) (by linarith)] at hs
    exact h0 hs
  rw [cos_pi_div_two_sub] at hS hn
  have hu0 : sin d * sin dec / √(1 - (cos d * sin dec) ^ 2) ≠ 0 := div_ne_zero (mul_ne_zero hsd.ne' hsdec) hS.ne'
  have hu1 : cos dec / √(1 - (cos d * sin dec) ^ 2) ≠ 0 := div_ne_zero hcd.ne' hS.ne'
  have hmain := C105_lens_rotation dec ra (0, d) (fun i => if i = 1 then 1 else 0) (by rw [hfl]; exact h) (by rw [he]; exact hu0)
  simp only at hmain
  rw [hmain, he, hf, hg]
  have hm : toC ((if True then (1 : ℝ) else 0), (if (2 : Nat) = 1 then (1 : ℝ) else 0)) = 1 := by simp [toC]
  rw [hm, mul_one]
  rw [sin_pi_div_two_sub] at hn
  generalize sin d * sin dec / √(1 - (cos d * sin dec) ^ 2) = u0 at *
  generalize cos dec / √(1 - (cos d * sin dec) ^ 2) = u1 at *
  intro hc
  set z := (toC (0, 1) * (starRingEnd ℂ) (toC (u0, u1))) ^ 2 with hz
  have hzim : z.im = 2 * u0 * u1 := by
    rw [hz]
    simp [toC, pow_two]
    ring
  have hzz : z * (z - 1) = 0 := by linear_combination hc
  have hne : z.im ≠ 0 := by
    rw [hzim]
    exact mul_ne_zero (mul_ne_zero two_ne_zero hu0) hu1
  rcases mul_eq_zero.mp hzz with h1 | h1
  · rw [h1] at hne; simp at hne
  · have : z = 1 := by linear_combination h1
    rw [this] at hne; simp at hne

/-! ### Wrapping at the poles -/

/-- The direction of a latitude and longitude. -/
noncomputable def latVec (lat lon : ℝ) : Fin 3 → ℝ := ![cos lat * cos lon, cos lat * sin lon, sin lat]

theorem latVec_mirror (lat lon : ℝ) : latVec (π - lat) (lon + π) = latVec lat lon := by
  unfold latVec
  rw [cos_pi_sub, sin_pi_sub, cos_add_pi, sin_add_pi]
  simp

theorem latVec_mirror' (lat lon : ℝ) : latVec (-π - lat) (lon + π) = latVec lat lon := by
  unfold latVec
  have h1 : cos (-π - lat) = -cos lat := by rw [← cos_neg, neg_sub, sub_neg_eq_add, cos_add_pi]
  have h2 : sin (-π - lat) = sin lat := by rw [← neg_neg (sin (-π - lat)), ← sin_neg, neg_sub, sub_neg_eq_add, sin_add_pi, neg_neg]
  rw [h1, h2, cos_add_pi, sin_add_pi]
  simp

/-- **C106_pole_wrap.** utils.pole_wrap keeps every direction, and always returns a latitude between the poles; latitudes
already there are not changed. -/
theorem C106_pole_wrap (p : ℝ × ℝ) :
    latVec (poleWrap p).1 (poleWrap p).2 = latVec p.1 p.2 ∧ -(π / 2) ≤ (poleWrap p).1 ∧ (poleWrap p).1 ≤ π / 2 ∧
    (-(π / 2) ≤ p.1 → p.1 < π / 2 → poleWrap p = p) := by
  have hp := pi_pos
  obtain ⟨lat, lon⟩ := p
  simp only [poleWrap]
  have f1 : (⌊(lat + π / 2) / π⌋ : ℝ) ≤ (lat + π / 2) / π := Int.floor_le _
  have f2 : (lat + π / 2) / π < (⌊(lat + π / 2) / π⌋ : ℝ) + 1 := Int.lt_floor_add_one _
  rw [le_div_iff₀ hp] at f1
  rw [div_lt_iff₀ hp] at f2
  have hid : -(π / 2) ≤ lat → lat < π / 2 → ⌊(lat + π / 2) / π⌋ = 0 := by
    intro h1 h2
    rw [Int.floor_eq_zero_iff]
    constructor
    · exact div_nonneg (by linarith) hp.le
    · rw [div_lt_one hp]; linarith
  generalize ⌊(lat + π / 2) / π⌋ = n at *
  refine ⟨?_, ?_, ?_, ?_⟩
  · by_cases hn : n % 2 = 0
    · obtain ⟨k, rfl⟩ : ∃ k, n = 2 * k := ⟨n / 2, by omega⟩
      simp only [if_pos hn]
      unfold latVec
      have e : lat - π * ((2 * k : ℤ) : ℝ) = lat - k * (2 * π) := by push_cast; ring
      rw [e, cos_sub_int_mul_two_pi, sin_sub_int_mul_two_pi]
    · obtain ⟨k, rfl⟩ : ∃ k, n = 2 * k + 1 := ⟨n / 2, by omega⟩
      simp only [if_neg hn]
      have e : -(lat - π * ((2 * k + 1 : ℤ) : ℝ)) = π - (lat - k * (2 * π)) := by push_cast; ring
      rw [e, latVec_mirror]
      unfold latVec
      rw [cos_sub_int_mul_two_pi, sin_sub_int_mul_two_pi]
  · by_cases hn : n % 2 = 0
    · simp only [if_pos hn]; linarith
    · simp only [if_neg hn]; linarith
  · by_cases hn : n % 2 = 0
    · simp only [if_pos hn]; linarith
    · simp only [if_neg hn]; linarith
  · intro h1 h2
    rw [hid h1 h2]
    simp

/-- **C106_lens_pole_wrap.** lensing.pole_wrap keeps every direction, and returns a latitude between the poles for
latitudes from -3π/2 to 5π/2. -/
theorem C106_lens_pole_wrap (a : ℝ × ℝ) :
    latVec (lensPoleWrap a).1 (lensPoleWrap a).2 = latVec a.1 a.2 ∧
    (-(3 * π / 2) ≤ a.1 → a.1 ≤ 5 * π / 2 → -(π / 2) ≤ (lensPoleWrap a).1 ∧ (lensPoleWrap a).1 ≤ π / 2) ∧
    (-(π / 2) ≤ a.1 → a.1 ≤ π / 2 → lensPoleWrap a = a) := by
  have hp := pi_pos
  obtain ⟨lat, lon⟩ := a
  simp only [lensPoleWrap]
  by_cases h1 : lat > π / 2
  · by_cases h2 : π - lat < -π / 2
    · simp only [if_pos h1, if_pos h2]
      refine ⟨by rw [latVec_mirror', latVec_mirror], fun _ _ => ⟨by linarith, by linarith⟩, fun _ h => by linarith⟩
    · simp only [if_pos h1, if_neg h2]
      refine ⟨latVec_mirror _ _, fun _ _ => ⟨by linarith, by linarith⟩, fun _ h => by linarith⟩
  · by_cases h2 : lat < -π / 2
    · simp only [if_neg h1, if_pos h2]
      refine ⟨latVec_mirror' _ _, fun _ _ => ⟨by linarith, by linarith⟩, fun h _ => by linarith⟩
    · simp only [if_neg h1, if_neg h2]
      refine ⟨trivial, fun _ _ => ⟨by linarith, by linarith⟩, fun _ _ => trivial⟩

/-- **C106_lens_range_refuted.** Beyond that range the result of lensing.pole_wrap is not between the poles. -/
theorem C106_lens_range_refuted : ∀ lat, 5 * π / 2 < lat → ∀ lon, π / 2 < (lensPoleWrap (lat, lon)).1 := by
  intro lat h lon
  have hp := pi_pos
  have h1 : lat > π / 2 := by linarith
  have h2 : π - lat < -π / 2 := by linarith
  simp only [lensPoleWrap, if_pos h1, if_pos h2]
  linarith

/-- **C106_flat_offset.** The fast approximation of offset_by_grad returns a latitude between the poles for gradients
shorter than a half turn, and is the plain sum of coordinates where no pole is passed. -/
theorem C106_flat_offset (ipos g : ℝ × ℝ) (h : |ipos.1| ≤ π / 2) (hg : |g.1| ≤ π) :
    -(π / 2) ≤ (offsetFlat ipos g).1 ∧ (offsetFlat ipos g).1 ≤ π / 2 ∧
    latVec (offsetFlat ipos g).1 (offsetFlat ipos g).2 = latVec (ipos.1 + g.1) (ipos.2 + g.2 / cos ipos.1) ∧
    (|ipos.1 + g.1| ≤ π / 2 → offsetFlat ipos g = (ipos.1 + g.1, ipos.2 + g.2 / cos ipos.1)) := by
  have hp := pi_pos
  obtain ⟨a1, a2⟩ := abs_le.mp h
  obtain ⟨b1, b2⟩ := abs_le.mp hg
  obtain ⟨c1, c2, c3⟩ := C106_lens_pole_wrap (ipos.1 + g.1, ipos.2 + g.2 / cos ipos.1)
  have := c2 (by simp only; linarith) (by simp only; linarith)
  refine ⟨this.1, this.2, c1, ?_⟩
  intro hh
  obtain ⟨d1, d2⟩ := abs_le.mp hh
  exact c3 d1 d2

/-! ### Potential and convergence -/

/-- **C106_kappa.** kappa_to_phi undoes phi_to_kappa and conversely, except for the monopole, which is lost. -/
theorem C106_kappa (l : Nat) (a : ℂ) :
    (0 < l → kappaToPhi l (phiToKappa l a) = a ∧ phiToKappa l (kappaToPhi l a) = a) ∧
    phiToKappa 0 a = 0 ∧ kappaToPhi 0 a = 0 := by
  refine ⟨?_, by simp [phiToKappa], by simp [kappaToPhi]⟩
  intro hl
  have h : ((l * (l + 1) / 2 : ℝ)) ≠ 0 := by
    have : (0 : ℝ) < l := by exact_mod_cast hl
    positivity
  have e : (((l * (l + 1) / 2 : ℝ) : ℝ) : ℂ) * ((1 / (l * (l + 1) / 2) : ℝ) : ℂ) = 1 := by
    rw [← Complex.ofReal_mul, mul_one_div, div_self h, Complex.ofReal_one]
  unfold kappaToPhi phiToKappa
  simp only [if_neg (show ¬ l = 0 by omega)]
  constructor
  · rw [mul_assoc, e, mul_one]
  · rw [mul_assoc, mul_comm (((1 / (l * (l + 1) / 2) : ℝ) : ℝ) : ℂ), e, mul_one]

/-- Non-vacuity: the gradient (3/10,4/10) from the equator. -/
example : gradLen (fixGrad (3 / 10, 4 / 10)) = 1 / 2 ∧ gradLen (fixGrad (3 / 10, 4 / 10)) < π / 2 := by
  have h : gradLen (fixGrad (3 / 10, 4 / 10)) = 1 / 2 := by
    unfold fixGrad
    rw [if_neg (by norm_num)]
    unfold gradLen
    rw [show ((3 / 10, 4 / 10) : ℝ × ℝ).1 ^ 2 + ((3 / 10, 4 / 10) : ℝ × ℝ).2 ^ 2 = (1 / 2 : ℝ) ^ 2 by norm_num]
    exact sqrt_sq (by norm_num)
  refine ⟨h, ?_⟩
  rw [h]
  have := two_le_pi
  linarith

end Pixell
