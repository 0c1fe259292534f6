import Verif.Model.Aberration
import Mathlib.Analysis.SpecialFunctions.ExpDeriv
import Mathlib.Analysis.SpecialFunctions.Trigonometric.Deriv
import Mathlib.Analysis.SpecialFunctions.Trigonometric.DerivHyp
import Mathlib.Tactic.Linarith
import Mathlib.Tactic.FieldSimp
import Mathlib.Tactic.LinearCombination
import Mathlib.Tactic.NormNum

/-!
C100: a Doppler boost is undone by the boost with the opposite speed, boosts compose by the addition of velocities, and
the modulation is the one that keeps the number of photons per solid angle. C101: planck, iplanck_T and dplanck belong
together, and the modulation modes are each other's inverse (only for the standard monopole). C102: rotations of
polarization act as a group. C103: the periodic extension used by the interpolation of full-sky maps, and fast_rewind.
-/
namespace Pixell
open Real

/-! ### Boosts -/

/-- 1+zβ is positive for directions z and speeds β below that of light. -/
theorem boost_den {z b : ℝ} (hz : |z| ≤ 1) (hb : |b| < 1) : 0 < 1 + z * b := by
  have h : |z * b| < 1 := by
    rw [abs_mul]
    calc |z| * |b| ≤ 1 * |b| := by gcongr
      _ < 1 := by linarith
  have := (abs_lt.mp h).1
  linarith

theorem boost_sq {b : ℝ} (hb : |b| < 1) : 0 < 1 - b ^ 2 := by
  have := (sq_lt_one_iff_abs_lt_one b).mpr hb
  linarith

/-- Without clipping, the boosted cosine is between -1 and 1. -/
theorem boost_range {z b : ℝ} (hz : |z| ≤ 1) (hb : |b| < 1) : |(z + b) / (1 + z * b)| ≤ 1 := by
  have hd := boost_den hz hb
  obtain ⟨z1, z2⟩ := abs_le.mp hz
  obtain ⟨b1, b2⟩ := abs_lt.mp hb
  rw [abs_le]
  constructor
  · rw [le_div_iff₀ hd]; nlinarith
  · rw [div_le_one hd]; nlinarith

theorem calcBoost1d_eq {z b : ℝ} (hz : |z| ≤ 1) (hb : |b| < 1) :
    calcBoost1d z b = ((z + b) / (1 + z * b), (1 + z * b) / √(1 - b ^ 2)) := by
  have hd := boost_den hz hb
  have hs := boost_sq hb
  have hr := abs_le.mp (boost_range hz hb)
  have hc : clipR ((z + b) / (1 + z * b)) (-1) 1 = (z + b) / (1 + z * b) := by
    unfold clipR
    rw [max_eq_left hr.1, min_eq_left hr.2]
  have hq : √(1 - b ^ 2) ≠ 0 := (sqrt_pos.mpr hs).ne'
  have hqq : √(1 - b ^ 2) * √(1 - b ^ 2) = 1 - b ^ 2 := mul_self_sqrt hs.le
  unfold calcBoost1d
  simp only [hc]
  congr 1
  have e : 1 - (z + b) / (1 + z * b) * b = (1 - b ^ 2) / (1 + z * b) := by
    field_simp
    ring
  have hqq' : √(1 - b ^ 2) ^ 2 = 1 - b ^ 2 := by rw [sq]; exact hqq
  rw [e]
  generalize √(1 - b ^ 2) = g at *
  rw [← hqq']
  field_simp

/-- **C100_boost_inverse.** The boosted direction is a direction, the amplitude is positive, and boosting again with the
opposite speed gives the direction back and undoes the amplitude. -/
theorem C100_boost_inverse {z b : ℝ} (hz : |z| ≤ 1) (hb : |b| < 1) :
    |(calcBoost1d z b).1| ≤ 1 ∧ 0 < (calcBoost1d z b).2 ∧
    (calcBoost1d (calcBoost1d z b).1 (-b)).1 = z ∧
    (calcBoost1d (calcBoost1d z b).1 (-b)).2 * (calcBoost1d z b).2 = 1 := by
  have hd := boost_den hz hb
  have hs := boost_sq hb
  have hr := boost_range hz hb
  have hq : 0 < √(1 - b ^ 2) := sqrt_pos.mpr hs
  have hqq : √(1 - b ^ 2) * √(1 - b ^ 2) = 1 - b ^ 2 := mul_self_sqrt hs.le
  have e : 1 + (z + b) / (1 + z * b) * -b = (1 - b ^ 2) / (1 + z * b) := by
    field_simp
    ring
  have e' : (z + b) / (1 + z * b) + -b = z * (1 - b ^ 2) / (1 + z * b) := by
    field_simp
    ring
  rw [calcBoost1d_eq hz hb]
  simp only
  rw [calcBoost1d_eq hr (by rwa [abs_neg])]
  simp only
  refine ⟨hr, by positivity, ?_, ?_⟩
  · rw [e, e', div_div_div_cancel_right₀ hd.ne', mul_div_cancel_right₀ _ hs.ne']
  · rw [e, neg_sq]
    rw [div_mul_div_comm, div_mul_cancel₀ _ hd.ne', hqq, div_self hs.ne']

/-- The sum of two velocities along one line. -/
noncomputable def addVel (a b : ℝ) : ℝ := (a + b) / (1 + a * b)

theorem addVel_lt {a b : ℝ} (ha : |a| < 1) (hb : |b| < 1) : |addVel a b| < 1 := by
  have hd := boost_den ha.le hb
  obtain ⟨z1, z2⟩ := abs_lt.mp ha
  obtain ⟨b1, b2⟩ := abs_lt.mp hb
  unfold addVel
  rw [abs_lt]
  constructor
  · rw [lt_div_iff₀ hd]; nlinarith
  · rw [div_lt_one hd]; nlinarith

/-- **C100_boost_compose.** Two boosts one after the other are the boost with the relativistic sum of the velocities, both
for the direction and for the amplitude. -/
theorem C100_boost_compose {z a b : ℝ} (hz : |z| ≤ 1) (ha : |a| < 1) (hb : |b| < 1) :
    (calcBoost1d (calcBoost1d z a).1 b).1 = (calcBoost1d z (addVel a b)).1 ∧
    (calcBoost1d (calcBoost1d z a).1 b).2 * (calcBoost1d z a).2 = (calcBoost1d z (addVel a b)).2 := by
  have hd := boost_den hz ha
  have hab := boost_den ha.le hb
  have hr := boost_range hz ha
  have hd2 := boost_den hr hb
  have hd3 := boost_den hz (addVel_lt ha hb)
  have sa := boost_sq ha
  have sb := boost_sq hb
  have e : 1 + z * addVel a b = (1 + (z + a) / (1 + z * a) * b) * (1 + z * a) / (1 + a * b) := by
    unfold addVel
    field_simp
    ring
  have e' : z + addVel a b = ((z + a) / (1 + z * a) + b) * (1 + z * a) / (1 + a * b) := by
    unfold addVel
    field_simp
    ring
  have es : 1 - addVel a b ^ 2 = (1 - b ^ 2) * (1 - a ^ 2) / (1 + a * b) ^ 2 := by
    unfold addVel
    field_simp
    ring
  rw [calcBoost1d_eq hz ha, calcBoost1d_eq hz (addVel_lt ha hb)]
  simp only
  rw [calcBoost1d_eq hr hb]
  simp only
  constructor
  · rw [e, e', div_div_div_cancel_right₀ hab.ne', mul_div_mul_right _ _ hd.ne']
  · rw [e, es, sqrt_div' _ (sq_nonneg _), sqrt_sq hab.le, sqrt_mul sb.le, div_div_div_cancel_right₀ hab.ne', div_mul_div_comm]

/-- **C100_solid_angle.** The aberration changes solid angles by the inverse square of the amplitude: dz_obs/dz = 1/A².
(So T_obs=A·T_rest keeps the number of photons of each mode.) -/
theorem C100_solid_angle {z b : ℝ} (hz : |z| < 1) (hb : |b| < 1) :
    HasDerivAt (fun x => (calcBoost1d x b).1) (1 / (calcBoost1d z b).2 ^ 2) z := by
  have hd := boost_den hz.le hb
  have hs := boost_sq hb
  have h1 : HasDerivAt (fun x : ℝ => (x + b) / (1 + x * b)) ((1 * (1 + z * b) - (z + b) * (1 * b)) / (1 + z * b) ^ 2) z := by
    apply HasDerivAt.div
    · exact (hasDerivAt_id z).add_const b
    · exact ((hasDerivAt_id z).mul_const b).const_add 1
    · exact hd.ne'
  have hv : (1 * (1 + z * b) - (z + b) * (1 * b)) / (1 + z * b) ^ 2 = 1 / (calcBoost1d z b).2 ^ 2 := by
    rw [calcBoost1d_eq hz.le hb]
    simp only [div_pow, sq_sqrt hs.le, one_div, inv_div]
    congr 1
    ring
  rw [← hv]
  apply h1.congr_of_eventuallyEq
  have ho : ∀ᶠ x in nhds z, |x| < 1 := continuous_abs.continuousAt.eventually_lt continuousAt_const hz
  filter_upwards [ho] with x hx
  rw [calcBoost1d_eq hx.le hb]

/-- **C100_order.** The aberration keeps the order of directions and moves every direction but the poles towards the
direction of travel. -/
theorem C100_order {z w b : ℝ} (hz : |z| ≤ 1) (hw : |w| ≤ 1) (hb : |b| < 1) :
    ((calcBoost1d z b).1 < (calcBoost1d w b).1 ↔ z < w) ∧
    (0 < b → |z| < 1 → z < (calcBoost1d z b).1) ∧ (|z| = 1 → (calcBoost1d z b).1 = z) := by
  have h1 := boost_den hz hb
  have h2 := boost_den hw hb
  have hs := boost_sq hb
  rw [calcBoost1d_eq hz hb, calcBoost1d_eq hw hb]
  simp only
  refine ⟨?_, ?_, ?_⟩
  · rw [div_lt_div_iff₀ h1 h2]
    constructor
    · intro h
      by_contra hc
      nlinarith [mul_nonneg hs.le (sub_nonneg.mpr (not_lt.mp hc))]
    · intro h
      nlinarith [mul_pos hs (sub_pos.mpr h)]
  · intro hp hl
    rw [lt_div_iff₀ h1]
    have := boost_sq hl
    nlinarith [mul_pos hp this]
  · intro h
    have h2 : z ^ 2 = 1 := (sq_eq_one_iff_of_side h)
    rw [div_eq_iff h1.ne']
    linear_combination (-b) * h2
where
  sq_eq_one_iff_of_side {z : ℝ} (h : |z| = 1) : z ^ 2 = 1 := by rw [← sq_abs, h, one_pow]

/-- Non-vacuity: the direction 1/2 with the speed 3/5. -/
example : calcBoost1d (1 / 2) (3 / 5) = (11 / 13, 13 / 8) := by
  rw [calcBoost1d_eq (by rw [abs_of_pos] <;> norm_num) (by rw [abs_of_pos] <;> norm_num)]
  rw [show (1 - (3 / 5 : ℝ) ^ 2) = (4 / 5) ^ 2 by norm_num, sqrt_sq (by norm_num)]
  norm_num

/-! ### Planck spectra and modulation -/

/-- The constants are positive (they are physical constants). -/
structure PlanckConst.Ok (u : PlanckConst) : Prop where
  h : 0 < u.h
  c : 0 < u.c
  k : 0 < u.k

theorem planck_den {u : PlanckConst} (hu : u.Ok) {f T : ℝ} (hf : 0 < f) (hT : 0 < T) : 0 < exp (u.h * f / (u.k * T)) - 1 := by
  have := hu.h; have := hu.k
  have : 1 < exp (u.h * f / (u.k * T)) := one_lt_exp_iff.mpr (by positivity)
  linarith

/-- **C101_planck_inverse.** planck and iplanck_T are each other's inverse: temperatures to intensities and back, and
intensities to temperatures and back. -/
theorem C101_planck_inverse {u : PlanckConst} (hu : u.Ok) {f : ℝ} (hf : 0 < f) :
    (∀ T, 0 < T → 0 < planckI u f T ∧ iplanckT u f (planckI u f T) = T) ∧
    (∀ I, 0 < I → 0 < iplanckT u f I ∧ planckI u f (iplanckT u f I) = I) := by
  have h1 := hu.h; have h2 := hu.k; have h3 := hu.c
  constructor
  · intro T hT
    have hd := planck_den hu hf hT
    refine ⟨by unfold planckI; positivity, ?_⟩
    have e : 1 + 1 / (planckI u f T / 10 ^ 26 * u.c ^ 2 / (2 * u.h * f ^ 3)) = exp (u.h * f / (u.k * T)) := by
      have e1 : planckI u f T / 10 ^ 26 * u.c ^ 2 / (2 * u.h * f ^ 3) = 1 / (exp (u.h * f / (u.k * T)) - 1) := by
        unfold planckI
        have := hd.ne'
        field_simp
      rw [e1, one_div_one_div]
      ring
    unfold iplanckT
    rw [e, log_exp]
    field_simp
  · intro I hI
    have hp : 0 < 1 / (I / 10 ^ 26 * u.c ^ 2 / (2 * u.h * f ^ 3)) := by positivity
    have hl : 0 < log (1 + 1 / (I / 10 ^ 26 * u.c ^ 2 / (2 * u.h * f ^ 3))) := log_pos (by linarith)
    refine ⟨by unfold iplanckT; positivity, ?_⟩
    have e : u.h * f / (u.k * iplanckT u f I) = log (1 + 1 / (I / 10 ^ 26 * u.c ^ 2 / (2 * u.h * f ^ 3))) := by
      unfold iplanckT
      have := hl.ne'
      field_simp
    unfold planckI
    rw [e, exp_log (by linarith), add_sub_cancel_left]
    field_simp

/-- **C101_dplanck.** dplanck is the derivative of planck with respect to the temperature. -/
theorem C101_dplanck {u : PlanckConst} (hu : u.Ok) {f T : ℝ} (hf : 0 < f) (hT : 0 < T) :
    HasDerivAt (fun t => planckI u f t) (dplanck u f T) T ∧ 0 < dplanck u f T := by
  have h1 := hu.h; have h2 := hu.k; have h3 := hu.c
  have hd := planck_den hu hf hT
  have hx : 0 < u.h * f / (u.k * T) := by positivity
  have hsh : 0 < sinh (u.h * f / (u.k * T) / 2) := Real.sinh_pos_iff.mpr (by linarith)
  constructor
  · have d1 : HasDerivAt (fun t : ℝ => u.h * f / (u.k * t)) (-(u.h * f) * (u.k * 1) / (u.k * T) ^ 2) T := by
      have := ((hasDerivAt_const T (u.h * f)).div ((hasDerivAt_id T).const_mul u.k) (by simp; exact ⟨h2.ne', hT.ne'⟩))
      refine (this.congr_deriv (by simp)).congr_of_eventuallyEq ?_
      filter_upwards with t
      rfl
    have d2 := (((hasDerivAt_const T (2 * u.h * f * f * f / u.c ^ 2)).div (d1.exp.sub_const 1) hd.ne').mul_const ((10 : ℝ) ^ 26))
    unfold planckI
    refine d2.congr_deriv ?_
    have hs : 4 * sinh (u.h * f / (u.k * T) / 2) ^ 2 * exp (u.h * f / (u.k * T)) = (exp (u.h * f / (u.k * T)) - 1) ^ 2 := by
      have e2 : exp (u.h * f / (u.k * T)) = exp (u.h * f / (u.k * T) / 2) * exp (u.h * f / (u.k * T) / 2) := by
        rw [← exp_add]; congr 1; ring
      have e3 : exp (u.h * f / (u.k * T) / 2) * exp (-(u.h * f / (u.k * T) / 2)) = 1 := by rw [← exp_add]; simp
      rw [sinh_eq, e2]
      generalize exp (u.h * f / (u.k * T) / 2) = p at *
      generalize exp (-(u.h * f / (u.k * T) / 2)) = q at *
      have : 4 * ((p - q) / 2) ^ 2 * (p * p) = (p * p - p * q) ^ 2 := by ring
      rw [this, e3]
    unfold dplanck
    simp only
    have hs' : (exp (u.h * f / (u.k * T)) - 1) ^ 2 = 4 * sinh (u.h * f / (u.k * T) / 2) ^ 2 * exp (u.h * f / (u.k * T)) := hs.symm
    rw [hs']
    have hE := (exp_pos (u.h * f / (u.k * T))).ne'
    have hS := hsh.ne'
    generalize exp (u.h * f / (u.k * T)) = E at *
    generalize sinh (u.h * f / (u.k * T) / 2) = S at *
    field_simp
    ring
  · unfold dplanck
    simp only
    positivity

/-- The intensity that the two modulations share. -/
theorem lin_intensity {u : PlanckConst} {T0 f unit : ℝ} (s : ℤ) (dip : Bool) {A x : ℝ} (hs : dplanck u f T0 ≠ 0)
    (hun : unit ≠ 0) :
    modulateT2lin u T0 f unit s dip A x * unit * dplanck u f T0 + (if s = 0 ∧ dip then planckI u f T0 else planckI u f (A * T0))
      = planckI u f (A * (x * unit + T0)) := by
  unfold modulateT2lin
  simp only
  split
  · field_simp; ring
  · field_simp; ring

/-- **C101_modulate_partial.** "lin2T" with the inverse amplitude undoes "T2lin", and "T2lin" undoes "lin2T", for every
pixel whose temperature is positive — when the monopole T0 is the standard T_cmb. (For other T0 this is false:
`C101_modulate_refuted`.) -/
theorem C101_modulate_partial {u : PlanckConst} (hu : u.Ok) {T0 f unit : ℝ} (hf : 0 < f) (hT : 0 < T0) (hun : 0 < unit)
    (s : ℤ) (dip : Bool) {A : ℝ} (hA : 0 < A) (x : ℝ) :
    (0 < x * unit + T0 → modulateLin2T u T0 T0 f unit s dip (1 / A) (modulateT2lin u T0 f unit s dip A x) = x) ∧
    (0 < x * unit * dplanck u f T0 + (if s = 0 ∧ dip then planckI u f T0 else planckI u f (A * T0)) →
      modulateT2lin u T0 f unit s dip A (modulateLin2T u T0 T0 f unit s dip (1 / A) x) = x) := by
  have hs := (C101_dplanck hu hf hT).2
  obtain ⟨i1, i2⟩ := C101_planck_inverse hu hf
  constructor
  · intro hx
    have hl := lin_intensity (u := u) (T0 := T0) (f := f) s dip (A := A) (x := x) hs.ne' hun.ne'
    unfold modulateLin2T
    simp only [one_div_one_div]
    have e : (if s = 0 ∧ dip = true then modulateT2lin u T0 f unit s dip A x * unit * dplanck u f T0 + planckI u f T0
        else modulateT2lin u T0 f unit s dip A x * unit * dplanck u f T0 + planckI u f (A * T0))
        = planckI u f (A * (x * unit + T0)) := by
      rw [← hl]; split <;> rfl
    rw [e, (i1 _ (by positivity)).2]
    field_simp
    ring
  · intro hx
    set I := x * unit * dplanck u f T0 + (if s = 0 ∧ dip = true then planckI u f T0 else planckI u f (A * T0)) with hI
    have e : modulateLin2T u T0 T0 f unit s dip (1 / A) x = (iplanckT u f I * (1 / A) - T0) / unit := by
      unfold modulateLin2T
      simp only [one_div_one_div]
      congr 4
      rw [hI]; split <;> rfl
    rw [e]
    have e2 : A * ((iplanckT u f I * (1 / A) - T0) / unit * unit + T0) = iplanckT u f I := by
      field_simp
      ring
    unfold modulateT2lin
    simp only
    rw [e2, (i2 I hx).2, hI]
    split
    · field_simp; ring
    · field_simp; ring

/-- **C101_modulate_refuted.** With a monopole T0 other than the standard one, "lin2T" does not undo "T2lin": every pixel
ends up off by (T0-T_cmb)/unit (_modulate_lin2T subtracts utils.T_cmb and not T0). -/
theorem C101_modulate_refuted {u : PlanckConst} (hu : u.Ok) {Tcmb T0 f unit : ℝ} (hf : 0 < f) (hT : 0 < T0) (hun : 0 < unit)
    (hne : T0 ≠ Tcmb) (s : ℤ) (dip : Bool) {A : ℝ} (hA : 0 < A) {x : ℝ} (hx : 0 < x * unit + T0) :
    modulateLin2T u Tcmb T0 f unit s dip (1 / A) (modulateT2lin u T0 f unit s dip A x) = x + (T0 - Tcmb) / unit ∧
    modulateLin2T u Tcmb T0 f unit s dip (1 / A) (modulateT2lin u T0 f unit s dip A x) ≠ x := by
  have h := (C101_modulate_partial hu hf hT hun s dip hA x).1 hx
  have e : ∀ v, modulateLin2T u Tcmb T0 f unit s dip (1 / A) v
      = modulateLin2T u T0 T0 f unit s dip (1 / A) v + (T0 - Tcmb) / unit := by
    intro v
    unfold modulateLin2T
    simp only
    rw [← add_div]
    congr 1
    ring
  rw [e, h]
  refine ⟨rfl, ?_⟩
  intro hc
  have : (T0 - Tcmb) / unit = 0 := by linarith
  rw [div_eq_zero_iff] at this
  rcases this with h0 | h0
  · exact hne (by linarith)
  · exact hun.ne' h0

/-- **C101_linear_units.** Without boost, "T2lin" is the change to linearized units: it keeps zero and has slope one
there. -/
theorem C101_linear_units {u : PlanckConst} (hu : u.Ok) {T0 f unit : ℝ} (hf : 0 < f) (hT : 0 < T0) (hun : 0 < unit) (s : ℤ)
    (dip : Bool) : modulateT2lin u T0 f unit s dip 1 0 = 0 ∧ HasDerivAt (fun x => modulateT2lin u T0 f unit s dip 1 x) 1 0 := by
  have ⟨hd, hs⟩ := C101_dplanck hu hf hT
  have e : ∀ x, modulateT2lin u T0 f unit s dip 1 x
      = (planckI u f (x * unit + T0) / dplanck u f T0 - planckI u f T0 / dplanck u f T0) / unit := by
    intro x
    unfold modulateT2lin
    simp only [one_mul, ite_self]
  constructor
  · rw [e]; simp
  · have hi : HasDerivAt (fun x : ℝ => x * unit + T0) (1 * unit) 0 := ((hasDerivAt_id (0 : ℝ)).mul_const unit).add_const T0
    have hd' : HasDerivAt (fun t => planckI u f t) (dplanck u f T0) ((fun x : ℝ => x * unit + T0) 0) := by simpa using hd
    have hc := ((((hd'.comp (0 : ℝ) hi).div_const (dplanck u f T0)).sub_const (planckI u f T0 / dplanck u f T0)).div_const unit)
    have hv : dplanck u f T0 * (1 * unit) / dplanck u f T0 / unit = 1 := by
      have := hs.ne'
      field_simp
    rw [hv] at hc
    refine hc.congr_of_eventuallyEq ?_
    filter_upwards with x
    rw [e]
    rfl

/-- **C101_plain.** The "plain" modulation is the multiplication of the whole temperature by A: with dipole, the map plus
the monopole is multiplied; it is undone by the inverse amplitude. -/
theorem C101_plain {T0 unit A x : ℝ} (hun : unit ≠ 0) (hA : A ≠ 0) (dip first : Bool) :
    modulatePlain T0 unit dip first (1 / A) (modulatePlain T0 unit dip first A x) = x ∧
    modulatePlain T0 unit true true A x * unit + T0 = A * (x * unit + T0) ∧
    modulatePlain T0 unit false first A x = A * x ∧ modulatePlain T0 unit dip false A x = A * x := by
  unfold modulatePlain
  refine ⟨?_, ?_, ?_, ?_⟩
  · cases dip <;> cases first <;> simp
    all_goals field_simp
    all_goals ring
  · simp
    field_simp
    ring
  · simp; ring
  · simp; ring

/-- Non-vacuity. -/
example : (PlanckConst.mk 1 2 3).Ok := ⟨by norm_num, by norm_num, by norm_num⟩

/-! ### Rotations of polarization -/

/-- **C102_group.** Rotations of polarization act as a group: two rotations add up, the rotation by zero changes nothing,
the opposite rotation undoes. -/
theorem C102_group {p q : Nat} (hpq : p ≠ q) (spin : ℤ) (a b : ℝ) (m : Nat → ℝ) :
    rotatePol b p q spin (rotatePol a p q spin m) = rotatePol (a + b) p q spin m ∧ rotatePol 0 p q spin m = m ∧
    rotatePol (-a) p q spin (rotatePol a p q spin m) = m := by
  have h1 : ∀ a b, rotatePol b p q spin (rotatePol a p q spin m) = rotatePol (a + b) p q spin m := by
    intro a b
    unfold rotatePol
    by_cases h : spin = 0
    · simp [h]
    · simp only [if_neg h]
      funext i
      have e : (spin : ℝ) * (a + b) = spin * a + spin * b := by ring
      rw [e, cos_add, sin_add]
      by_cases hq : i = q
      · simp only [if_pos hq, if_neg hpq, if_true]; ring
      · by_cases hp : i = p
        · simp only [if_neg hq, if_pos hp, if_neg hpq, if_true]; ring
        · simp only [if_neg hq, if_neg hp]
  have h2 : rotatePol 0 p q spin m = m := by
    unfold rotatePol
    by_cases h : spin = 0
    · simp [h]
    · simp only [if_neg h]
      funext i
      by_cases hq : i = q
      · simp [hq]
      · by_cases hp : i = p
        · simp [hp]
          intro hh
          exact absurd hh hpq
        · simp [hq, hp]
  refine ⟨h1 a b, h2, ?_⟩
  rw [h1, add_neg_cancel, h2]

/-- **C102_complex.** A rotation multiplies the polarization Q+iU by the phase of spin times the angle, and leaves the
other components alone; so it keeps the polarized intensity. -/
theorem C102_complex {p q : Nat} (hpq : p ≠ q) (spin : ℤ) (a : ℝ) (m : Nat → ℝ) :
    ((rotatePol a p q spin m p : ℂ) + rotatePol a p q spin m q * Complex.I
      = Complex.exp (spin * a * Complex.I) * (m p + m q * Complex.I)) ∧
    (∀ i, i ≠ p → i ≠ q → rotatePol a p q spin m i = m i) ∧
    rotatePol a p q spin m p ^ 2 + rotatePol a p q spin m q ^ 2 = m p ^ 2 + m q ^ 2 := by
  have hp : rotatePol a p q spin m p = cos (spin * a) * m p - sin (spin * a) * m q := by
    unfold rotatePol
    by_cases h : spin = 0
    · simp [h]
    · simp [h, hpq]
  have hq : rotatePol a p q spin m q = sin (spin * a) * m p + cos (spin * a) * m q := by
    unfold rotatePol
    by_cases h : spin = 0
    · simp [h]
    · simp [h]
  refine ⟨?_, ?_, ?_⟩
  · rw [hp, hq, Complex.exp_mul_I]
    push_cast
    linear_combination (-(Complex.sin (spin * a) * m q)) * Complex.I_sq
  · intro i h1 h2
    unfold rotatePol
    by_cases h : spin = 0
    · simp [h]
    · simp [h, h1, h2]
  · rw [hp, hq]
    linear_combination (m p ^ 2 + m q ^ 2) * (sin_sq_add_cos_sq ((spin : ℝ) * a))

/-- **C102_aberration.** The rotation in aberration.py is the opposite of the one in enmap.py. -/
theorem C102_aberration (spin : ℤ) (a x y : ℝ) (m : Nat → ℝ) (hx : m 1 = x) (hy : m 2 = y) :
    rotatePolAb a spin (x, y) = (rotatePol (-a) 1 2 spin m 1, rotatePol (-a) 1 2 spin m 2) := by
  subst hx hy
  unfold rotatePolAb rotatePol
  by_cases h : spin = 0
  · simp [h]
  · simp only [if_neg h, mul_neg, cos_neg, sin_neg]
    norm_num
    constructor <;> ring

/-! ### Periodic extension -/

/-- **C103_rewind.** A number at most one period outside [ref,ref+period) ends up in it, changed by a whole number of
periods. -/
theorem C103_rewind {P : ℝ} (hP : 0 < P) (ref : ℝ) {a : ℝ} (h1 : ref - P ≤ a) (h2 : a < ref + 2 * P) :
    ref ≤ fastRewind P (some ref) a ∧ fastRewind P (some ref) a < ref + P ∧ ∃ k : ℤ, fastRewind P (some ref) a = a + k * P := by
  unfold fastRewind
  simp only [Option.getD_some]
  by_cases g1 : a - ref ≥ P
  · have g2 : ¬ a - ref < 0 := by linarith
    simp only [if_pos g1, if_neg g2]
    refine ⟨by linarith, by linarith, -1, by push_cast; ring⟩
  · by_cases g2 : a - ref < 0
    · simp only [if_neg g1, if_pos g2]
      refine ⟨by linarith, by linarith, 1, by push_cast; ring⟩
    · simp only [if_neg g1, if_neg g2]
      refine ⟨by linarith, by linarith [not_le.mp g1], 0, by push_cast; ring⟩

/-- **C103_rewind_refuted.** "Make the x pixel 0:nphi, assuming it's at most one period away" is false as called: with the
default ref every pixel in the first half of the sky is moved out of 0:nphi. (Periodic interpolation afterwards hides
this.) -/
theorem C103_rewind_refuted {P : ℝ} (hP : 0 < P) {a : ℝ} (h1 : 0 ≤ a) (h2 : a < P / 2) :
    fastRewind P none a = a + P ∧ ¬ fastRewind P none a < P := by
  have e : fastRewind P none a = a + P := by
    unfold fastRewind
    simp only [Option.getD_none]
    have g1 : ¬ a - P / 2 ≥ P := by linarith
    have g2 : a - P / 2 < 0 := by linarith
    simp only [if_neg g1, if_pos g2]
  rw [e]
  exact ⟨rfl, by linarith⟩

/-- **C103_ydouble_refuted.** The documented boundary condition of full-sky maps, map[Ny,x]=map[Ny-1,x+Nx/2], is violated
by the doubled map: the row after the last one is a mirrored copy of the first row and not a shifted copy of the last
one. -/
theorem C103_ydouble_refuted :
    ∃ (ny nx : Nat) (m : Nat → Nat → ℝ), 0 < ny ∧ 0 < nx ∧ 2 ∣ nx ∧
      ∀ x < nx, yDouble ny nx m ny x ≠ m (ny - 1) ((x + nx / 2) % nx) := by
  refine ⟨2, 4, fun y _ => y, by norm_num, by norm_num, by norm_num, ?_⟩
  intro x _
  simp [yDouble]

/-- **C103_ydouble.** What the doubled map contains: the map, and below it each row again, mirrored in x and rolled. -/
theorem C103_ydouble {ny nx : Nat} (m : Nat → Nat → ℝ) :
    (∀ y < ny, ∀ x < nx, yDouble ny nx m y x = m y x) ∧
    (∀ y < ny, ∀ x < nx, yDouble ny nx m (ny + y) ((x + nx / 2) % nx) = m y (nx - 1 - x)) := by
  constructor
  · intro y hy x _
    simp [yDouble, hy]
  · intro y hy x hxx
    have : ¬ ny + y < ny := by omega
    simp only [yDouble, if_neg this, Nat.add_sub_cancel_left]
    congr 2
    have : nx / 2 ≤ nx := Nat.div_le_self _ _
    rw [Nat.mod_add_mod, show x + nx / 2 + (nx - nx / 2) = x + nx by omega, Nat.add_mod_right, Nat.mod_eq_of_lt hxx]

/-- Non-vacuity. -/
example : yDouble 2 4 (fun y x => 10 * y + x) 2 2 = 3 ∧ yDouble 2 4 (fun y x => 10 * y + x) 3 1 = 10 := by
  norm_num [yDouble]

example : fastRewind 10 none 2 = 12 ∧ fastRewind 10 (some 0) (-3) = 7 := by
  norm_num [fastRewind]

end Pixell
