import Verif.Model.OldAber
import Verif.Model.Boost
import Verif.Props.Aberration
import Mathlib.Analysis.Calculus.MeanValue
import Mathlib.Analysis.SpecialFunctions.Trigonometric.InverseDeriv
import Mathlib.Analysis.Asymptotics.Defs
import Mathlib.Topology.Algebra.Order.LiminfLimsup
import Mathlib.Topology.Order.MonotoneConvergence

/-!
C186: the older Doppler boosts of pixell/old_aberration.py.
-/
namespace Pixell
open Real Filter Topology

/-! ### The Planck spectrum and Newton's method -/

/-- The old spectrum is the one of utils without the factor 1e26, and its derivative is that of utils. -/
theorem planckOld_eq {u : PlanckConst} (hu : u.Ok) {f T : ℝ} (hf : 0 < f) (hT : 0 < T) :
    planckOld u f T false * 10 ^ 26 = planckI u f T ∧ planckOld u f T true * 10 ^ 26 = dplanck u f T := by
  have h1 := hu.h; have h2 := hu.k; have h3 := hu.c
  have hd := planck_den hu hf hT
  have hx : 0 < u.h * f / (u.k * T) := by positivity
  have hsh : 0 < sinh (u.h * f / (u.k * T) / 2) := Real.sinh_pos_iff.mpr (by linarith)
  constructor
  · unfold planckOld planckI
    simp only [Bool.false_eq_true, if_false]
    field_simp
  · have hs : 4 * sinh (u.h * f / (u.k * T) / 2) ^ 2 * exp (u.h * f / (u.k * T)) = (exp (u.h * f / (u.k * T)) - 1) ^ 2 := by
      generalize u.h * f / (u.k * T) = x at *
      rw [Real.sinh_eq]
      have e1 : exp x = exp (x / 2) * exp (x / 2) := by rw [← exp_add]; ring_nf
      have e2 : exp (-(x / 2)) * exp (x / 2) = 1 := by rw [← exp_add]; simp
      rw [e1]
      generalize exp (x / 2) = p at *
      generalize exp (-(x / 2)) = q at *
      linear_combination (p * q + 1 - 2 * p ^ 2) * e2
    unfold planckOld dplanck
    simp only [if_true]
    have hk : T = u.h * f / (u.k * (u.h * f / (u.k * T))) := by field_simp
    generalize u.h * f / (u.k * T) = x at *
    have e : (1 / (exp x - 1)) ^ 2 * exp x = 1 / (4 * sinh (x / 2) ^ 2) := by
      rw [div_pow, one_pow, ← hs]
      have := exp_pos x
      field_simp
    rw [show 2 * u.h * f ^ 3 / u.c ^ 2 * (1 / (exp x - 1)) ^ 2 * exp x * x / T
      = 2 * u.h * f ^ 3 / u.c ^ 2 * ((1 / (exp x - 1)) ^ 2 * exp x) * x / T by ring, e]
    have hk2 : u.h * f = x * u.k * T := by
      rw [hk]; field_simp
    have hf3 : f = x * u.k * T / u.h := by rw [← hk2]; field_simp
    rw [hf3]
    field_simp

theorem sinh_div_lt {y z : ℝ} (hy : 0 < y) (hz : y < z) : sinh y / y < sinh z / z := by
  have mv : ∀ a b : ℝ, a < b → ∃ c, a < c ∧ c < b ∧ sinh b - sinh a = cosh c * (b - a) := by
    intro a b hab
    obtain ⟨c, ⟨h1, h2⟩, h3⟩ := exists_hasDerivAt_eq_slope sinh cosh hab (Real.continuous_sinh.continuousOn)
      (fun x _ => Real.hasDerivAt_sinh x)
    refine ⟨c, h1, h2, ?_⟩
    rw [h3]
    have : b - a ≠ 0 := by linarith
    field_simp
  obtain ⟨c, c1, c2, c3⟩ := mv 0 y hy
  obtain ⟨d, d1, d2, d3⟩ := mv y z hz
  simp only [sinh_zero, sub_zero] at c3
  have hcd : cosh c < cosh d := by
    rw [Real.cosh_lt_cosh, abs_of_pos c1, abs_of_pos (by linarith)]
    linarith
  rw [div_lt_div_iff₀ hy (by linarith)]
  have : sinh z = cosh c * y + cosh d * (z - y) := by linarith
  rw [this, c3]
  nlinarith [mul_pos hy (sub_pos.mpr hz)]

/-- The derivative of the Planck spectrum by the temperature grows with the temperature. -/
theorem dplanck_mono {u : PlanckConst} (hu : u.Ok) {f S T : ℝ} (hf : 0 < f) (hS : 0 < S) (hST : S < T) :
    dplanck u f S < dplanck u f T := by
  have h1 := hu.h; have h2 := hu.k; have h3 := hu.c
  have hT : 0 < T := hS.trans hST
  have e : ∀ t, 0 < t → dplanck u f t
      = 2 * u.k * f ^ 2 / u.c ^ 2 * 10 ^ 26 / (sinh (u.h * f / (u.k * t) / 2) / (u.h * f / (u.k * t) / 2)) ^ 2 := by
    intro t ht
    have hx : 0 < u.h * f / (u.k * t) := by positivity
    have hsh : 0 < sinh (u.h * f / (u.k * t) / 2) := Real.sinh_pos_iff.mpr (by linarith)
    unfold dplanck
    simp only
    generalize hs : sinh (u.h * f / (u.k * t) / 2) = s at *
    field_simp
    ring
  rw [e S hS, e T hT]
  have hx : 0 < u.h * f / (u.k * T) / 2 := by positivity
  have hlt : u.h * f / (u.k * T) / 2 < u.h * f / (u.k * S) / 2 := by
    have : u.h * f / (u.k * T) < u.h * f / (u.k * S) := by
      apply div_lt_div_of_pos_left (by positivity) (by positivity)
      exact mul_lt_mul_of_pos_left hST h2
    linarith
  have hq := sinh_div_lt hx hlt
  have hp : 0 < sinh (u.h * f / (u.k * T) / 2) / (u.h * f / (u.k * T) / 2) :=
    div_pos (Real.sinh_pos_iff.mpr hx) hx
  apply div_lt_div_of_pos_left (by positivity) (by positivity)
  exact pow_lt_pow_left₀ hq hp.le (by norm_num)

/-- The Planck spectrum lies above its tangents. -/
theorem planck_tangent {u : PlanckConst} (hu : u.Ok) {f S T : ℝ} (hf : 0 < f) (hS : 0 < S) (hT : 0 < T) (hne : S ≠ T) :
    planckI u f T + dplanck u f T * (S - T) < planckI u f S := by
  have mv : ∀ a b : ℝ, 0 < a → a < b → ∃ c, a < c ∧ c < b ∧ planckI u f b - planckI u f a = dplanck u f c * (b - a) := by
    intro a b ha hab
    obtain ⟨c, ⟨h1, h2⟩, h3⟩ := exists_hasDerivAt_eq_slope (fun t => planckI u f t) (dplanck u f) hab
      (fun x hx => (C101_dplanck hu hf (ha.trans_le hx.1)).1.continuousAt.continuousWithinAt)
      (fun x hx => (C101_dplanck hu hf (ha.trans hx.1)).1)
    refine ⟨c, h1, h2, ?_⟩
    rw [h3]
    have : b - a ≠ 0 := by linarith
    field_simp
  rcases lt_or_gt_of_ne hne with h | h
  · obtain ⟨c, c1, c2, c3⟩ := mv S T hS h
    have := dplanck_mono hu hf (hS.trans c1) c2
    nlinarith
  · obtain ⟨c, c1, c2, c3⟩ := mv T S hT h
    have := dplanck_mono hu hf hT c1
    nlinarith

theorem newton_step {u : PlanckConst} (hu : u.Ok) {f S T : ℝ} (hf : 0 < f) (hS : 0 < S) (hT : 0 < T) :
    S - (planckOld u f S false - planckOld u f T false) / planckOld u f S true
      = S - (planckI u f S - planckI u f T) / dplanck u f S := by
  obtain ⟨a1, a2⟩ := planckOld_eq hu hf hS
  obtain ⟨b1, _⟩ := planckOld_eq hu hf hT
  rw [← a1, ← a2, ← b1, ← sub_mul, mul_div_mul_right _ _ (by norm_num)]

/-- **C186_newton.** Newton's method in inv_planck, started at any positive temperature and asked for the intensity of a
black body of temperature T, never comes out below T after the first step, and goes down from step to step: unless it was
started at T itself, each result is above T and the next one is closer. -/
theorem C186_newton {u : PlanckConst} (hu : u.Ok) {f T T0 : ℝ} (hf : 0 < f) (hT : 0 < T) (hT0 : 0 < T0) (hne : T0 ≠ T) (n : Nat) :
    T < invPlanck u f (planckOld u f T false) T0 (n + 1) ∧
    invPlanck u f (planckOld u f T false) T0 (n + 2) < invPlanck u f (planckOld u f T false) T0 (n + 1) := by
  have up : ∀ S, 0 < S → S ≠ T → T < S - (planckOld u f S false - planckOld u f T false) / planckOld u f S true := by
    intro S hS hST
    rw [newton_step hu hf hS hT]
    have ht := planck_tangent hu hf hT hS hST.symm
    have hd := (C101_dplanck hu hf hS).2
    rw [lt_sub_comm, div_lt_iff₀ hd]
    nlinarith
  have down : ∀ S, T < S → S - (planckOld u f S false - planckOld u f T false) / planckOld u f S true < S := by
    intro S hS
    have hS0 := hT.trans hS
    rw [newton_step hu hf hS0 hT]
    have ht := planck_tangent hu hf hS0 hT hS.ne'
    have hd := (C101_dplanck hu hf hS0).2
    have hd' := (C101_dplanck hu hf hT).2
    have : 0 < (planckI u f S - planckI u f T) / dplanck u f S := by
      apply div_pos _ hd
      nlinarith [mul_pos hd' (sub_pos.mpr hS)]
    linarith
  have main : T < invPlanck u f (planckOld u f T false) T0 (n + 1) := by
    induction n with
    | zero => exact up T0 hT0 hne
    | succ n ih => exact up _ (hT.trans ih) ih.ne'
  exact ⟨main, down _ main⟩

/-- **C186_converges.** With more and more iterations inv_planck tends to the temperature asked for, wherever it is
started. -/
theorem C186_converges {u : PlanckConst} (hu : u.Ok) {f T T0 : ℝ} (hf : 0 < f) (hT : 0 < T) (hT0 : 0 < T0) :
    Tendsto (fun n => invPlanck u f (planckOld u f T false) T0 n) atTop (𝓝 T) := by
  by_cases hne : T0 = T
  · have : ∀ n, invPlanck u f (planckOld u f T false) T0 n = T := by
      intro n
      induction n with
      | zero => exact hne
      | succ n ih => simp only [invPlanck, ih, sub_self, zero_div, sub_zero]
    simp only [this]
    exact tendsto_const_nhds
  · rw [← tendsto_add_atTop_iff_nat 1]
    set s : Nat → ℝ := fun n => invPlanck u f (planckOld u f T false) T0 (n + 1) with hs
    have lo : ∀ n, T < s n := fun n => (C186_newton hu hf hT hT0 hne n).1
    have anti : Antitone s := antitone_nat_of_succ_le fun n => (C186_newton hu hf hT hT0 hne n).2.le
    have lim := tendsto_atTop_ciInf anti ⟨T, by rintro _ ⟨n, rfl⟩; exact (lo n).le⟩
    set L := ⨅ n, s n with hL
    have hLT : T ≤ L := ge_of_tendsto lim (Eventually.of_forall fun n => (lo n).le)
    have hL0 : 0 < L := hT.trans_le hLT
    have step : ∀ n, s (n + 1) * dplanck u f (s n) = s n * dplanck u f (s n) - (planckI u f (s n) - planckI u f T) := by
      intro n
      have h0 := hT.trans (lo n)
      have hd := (C101_dplanck hu hf h0).2
      have : s (n + 1) = s n - (planckI u f (s n) - planckI u f T) / dplanck u f (s n) := newton_step hu hf h0 hT
      rw [this]
      field_simp
    have hle : ∀ n, planckI u f (s n) - planckI u f T ≤ (s n - s (n + 1)) * dplanck u f (s 0) := by
      intro n
      have h0 := hT.trans (lo n)
      have hm : dplanck u f (s n) ≤ dplanck u f (s 0) := by
        rcases (anti (Nat.zero_le n)).lt_or_eq with h | h
        · exact (dplanck_mono hu hf h0 h).le
        · rw [h]
      have := step n
      nlinarith [(C186_newton hu hf hT hT0 hne n).2]
    have cont : Tendsto (fun n => planckI u f (s n) - planckI u f T) atTop (𝓝 (planckI u f L - planckI u f T)) :=
      (((C101_dplanck hu hf hL0).1.continuousAt.tendsto).comp lim).sub_const _
    have lim1 : Tendsto (fun n => s (n + 1)) atTop (𝓝 L) := (tendsto_add_atTop_iff_nat 1).mpr lim
    have zero : Tendsto (fun n => (s n - s (n + 1)) * dplanck u f (s 0)) atTop (𝓝 0) := by
      have := (lim.sub lim1).mul_const (dplanck u f (s 0))
      simpa using this
    have fin : planckI u f L - planckI u f T ≤ 0 := le_of_tendsto_of_tendsto' cont zero hle
    have : L = T := by
      by_contra hne'
      have hlt := lt_of_le_of_ne hLT (Ne.symm hne')
      have ht := planck_tangent hu hf hL0 hT hlt.ne'
      have hd := (C101_dplanck hu hf hT).2
      nlinarith [mul_pos hd (sub_pos.mpr hlt)]
    rw [← this]
    exact lim

/-! ### The modulation to second order -/

/-- The change of the temperature of the sky with monopole T0 and fluctuation x (in units of `unit`) by the amplitude a. -/
noncomputable def boostedChange (T0 unit a x : ℝ) : ℝ := a * (x * unit + T0) - T0

/-- The intensity of a black body of temperature T0+d in linearized units: the change of the intensity divided by the slope of
the Planck spectrum at T0. -/
noncomputable def linUnits (u : PlanckConst) (freq T0 d : ℝ) : ℝ :=
  (planckI u freq (T0 + d) - planckI u freq T0) / dplanck u freq T0

/-- The factor f = x/2·coth(x/2)-1 of apply_modulation, for x = h·freq/(k·T0). -/
noncomputable def thermoFactor (u : PlanckConst) (freq T0 : ℝ) : ℝ :=
  u.h * freq / (2 * u.k * T0) * (cosh (u.h * freq / (2 * u.k * T0)) / sinh (u.h * freq / (2 * u.k * T0))) - 1

theorem oldThermo_f (u : PlanckConst) (T0 freq : ℝ) :
    5 / 10 * u.h * freq / (u.k * T0) / tanh (5 / 10 * u.h * freq / (u.k * T0)) - 1 = thermoFactor u freq T0 := by
  have e : 5 / 10 * u.h * freq / (u.k * T0) = u.h * freq / (2 * u.k * T0) := by ring
  unfold thermoFactor
  rw [e, Real.tanh_eq_sinh_div_cosh]
  rw [div_div_eq_mul_div, mul_div_assoc]

/-- dplanck has the slope 2·f/T0 times its value at T0. -/
theorem dplanck_deriv {u : PlanckConst} (hu : u.Ok) {f T : ℝ} (hf : 0 < f) (hT : 0 < T) :
    HasDerivAt (fun t => dplanck u f t) (dplanck u f T * (2 * thermoFactor u f T / T)) T := by
  have h1 := hu.h; have h2 := hu.k; have h3 := hu.c
  set g : ℝ → ℝ := fun t => 2 * u.k * f ^ 2 / u.c ^ 2 * 10 ^ 26 * ((u.h * f / (2 * u.k * t)) ^ 2 / sinh (u.h * f / (2 * u.k * t)) ^ 2)
    with hg
  have e : ∀ t, 0 < t → dplanck u f t = g t := by
    intro t ht
    have hx : 0 < u.h * f / (2 * u.k * t) := by positivity
    have hsh : 0 < sinh (u.h * f / (2 * u.k * t)) := Real.sinh_pos_iff.mpr hx
    have ex : u.h * f / (u.k * t) / 2 = u.h * f / (2 * u.k * t) := by ring
    simp only [hg, dplanck, ex]
    generalize sinh (u.h * f / (2 * u.k * t)) = s at *
    field_simp
    ring
  have hx : 0 < u.h * f / (2 * u.k * T) := by positivity
  have hsh : 0 < sinh (u.h * f / (2 * u.k * T)) := Real.sinh_pos_iff.mpr hx
  have dy : HasDerivAt (fun t : ℝ => u.h * f / (2 * u.k * t)) (-(u.h * f / (2 * u.k * T)) / T) T := by
    have := ((hasDerivAt_const T (u.h * f)).div ((hasDerivAt_id T).const_mul (2 * u.k)) (by
      simp only [id]; exact (mul_pos (mul_pos two_pos h2) hT).ne'))
    refine this.congr_deriv ?_
    simp only [id]
    field_simp
    ring
  have d : HasDerivAt g (g T * (2 * thermoFactor u f T / T)) T := by
    have h := ((dy.pow 2).div ((dy.sinh).pow 2) (by
      show sinh (u.h * f / (2 * u.k * T)) ^ 2 ≠ 0
      positivity)).const_mul (2 * u.k * f ^ 2 / u.c ^ 2 * 10 ^ 26)
    refine h.congr_deriv ?_
    simp only [hg, thermoFactor, Pi.pow_apply]
    generalize u.h * f / (2 * u.k * T) = y at *
    generalize sinh y = s at *
    generalize cosh y = c at *
    field_simp
    ring
  rw [e T hT]
  exact d.congr_of_eventuallyEq (by
    filter_upwards [lt_mem_nhds hT] with t ht using e t ht)

/-- **C186_thermo.** The old modulation (with dipole and all terms) is the exact one expanded to second order: it is
d + f·d²/T0 for the change of temperature d = A·T - T0, which agrees with the intensity of the boosted black body in linearized
units up to terms smaller than d²; the exact modulation of aberration.py is that intensity. Without the dipole the old one
leaves out (A-1)·T0, no more. -/
theorem C186_thermo {u : PlanckConst} (hu : u.Ok) {T0 freq unit : ℝ} (hf : 0 < freq) (hT : 0 < T0) (hun : 0 < unit) (pol : Bool) :
    (∀ a x, oldThermo u T0 freq unit true pol true 0 a x * unit
      = boostedChange T0 unit a x + thermoFactor u freq T0 * boostedChange T0 unit a x ^ 2 / T0) ∧
    (∀ a x, modulateT2lin u T0 freq unit 0 true a x * unit = linUnits u freq T0 (boostedChange T0 unit a x)) ∧
    ((fun d => linUnits u freq T0 d - (d + thermoFactor u freq T0 * d ^ 2 / T0)) =o[𝓝 0] fun d => d ^ 2) ∧
    (∀ tiny a x, oldThermo u T0 freq unit false pol tiny 0 a x
      = oldThermo u T0 freq unit true pol tiny 0 a x - (a - 1) * (T0 / unit)) := by
  refine ⟨?_, ?_, ?_, ?_⟩
  · intro a x
    unfold oldThermo boostedChange
    simp only [oldThermo_f, if_true, ite_self]
    generalize thermoFactor u freq T0 = f
    field_simp
    ring
  · intro a x
    unfold modulateT2lin linUnits boostedChange
    simp only [and_self, if_true]
    rw [div_mul_cancel₀ _ hun.ne', ← sub_div]
    congr 3
    ring
  · have hpos := (C101_dplanck hu hf hT).2
    set g := thermoFactor u freq T0 with hg
    set R : ℝ → ℝ := fun d => linUnits u freq T0 d - (d + g * d ^ 2 / T0) with hR
    set R' : ℝ → ℝ := fun d => dplanck u freq (T0 + d) / dplanck u freq T0 - (1 + 2 * g * d / T0) with hR'
    have hder : ∀ d, |d| < T0 → HasDerivAt R (R' d) d := by
      intro d hd
      have h0 : 0 < T0 + d := by linarith [(abs_lt.mp hd).1]
      have h1 := ((C101_dplanck hu hf h0).1.comp_const_add T0 d).sub_const (planckI u freq T0)
      have h2 := h1.div_const (dplanck u freq T0)
      have h3 : HasDerivAt (fun d : ℝ => d + g * d ^ 2 / T0) (1 + 2 * g * d / T0) d := by
        have := (hasDerivAt_id d).add ((((hasDerivAt_id d).pow 2).const_mul g).div_const T0)
        refine this.congr_deriv ?_
        simp only [id, Nat.cast_ofNat]
        ring
      exact h2.sub h3
    have hlit : R' =o[𝓝 0] fun d => d := by
      have h := dplanck_deriv hu hf hT
      rw [hasDerivAt_iff_isLittleO_nhds_zero] at h
      have h' := h.const_mul_left (1 / dplanck u freq T0)
      refine h'.congr_left ?_
      intro d
      simp only [hR', smul_eq_mul]
      field_simp
      ring
    rw [Asymptotics.isLittleO_iff]
    intro ε hε
    rw [Asymptotics.isLittleO_iff] at hlit
    obtain ⟨δ, hδ, hb⟩ := Metric.eventually_nhds_iff.mp (hlit hε)
    rw [Metric.eventually_nhds_iff]
    refine ⟨min δ T0, lt_min hδ hT, ?_⟩
    intro d hd
    rw [Real.dist_eq, sub_zero] at hd
    have hR0 : R 0 = 0 := by simp [hR, linUnits]
    have key := (convex_uIcc 0 d).norm_image_sub_le_of_norm_hasDerivWithin_le (f := R) (f' := R') (C := ε * |d|)
      (fun x hx => (hder x (by
        have := Set.abs_sub_left_of_mem_uIcc hx
        simp only [sub_zero] at this
        exact this.trans_lt (hd.trans_le (min_le_right _ _)))).hasDerivWithinAt)
      (fun x hx => by
        have := Set.abs_sub_left_of_mem_uIcc hx
        simp only [sub_zero] at this
        have h2 := hb (y := x) (by
          rw [Real.dist_eq, sub_zero]
          exact this.trans_lt (hd.trans_le (min_le_left _ _)))
        refine h2.trans ?_
        rw [Real.norm_eq_abs]
        exact mul_le_mul_of_nonneg_left this hε.le)
      Set.left_mem_uIcc Set.right_mem_uIcc
    rw [hR0, sub_zero, sub_zero] at key
    calc ‖R d‖ ≤ ε * |d| * ‖d‖ := key
      _ = ε * ‖d ^ 2‖ := by rw [norm_pow, Real.norm_eq_abs]; ring
  · intro tiny a x
    unfold oldThermo
    cases pol <;> cases tiny <;> simp <;> ring

/-- **C186_plain.** Boosting with modulation="plain" is what aberration.boost_map does in that mode without dipole. -/
theorem C186_plain (s : ModSet) (hd : s.dipole = false) {z b : ℝ} (m : SkyFun) (φ : ℝ) :
    oldBoostPlain b (fun z => m z φ) z = (boostSky s .plain true true b m).1 z φ := by
  simp [oldBoostPlain, boostSky, modulateSky, applyModulation, modulatePlain, aberrateSky, modField, hd]

/-- **C186_stack_refuted.** The temperature of a second map in a stack is not modulated like that of the first: it is short of
f·(A-1)²·T0 and of the dipole (A-1)·T0. -/
theorem C186_stack_refuted {u : PlanckConst} (hu : u.Ok) {T0 freq unit : ℝ} (hf : 0 < freq) (hT : 0 < T0) (hun : 0 < unit)
    {a : ℝ} (ha : 1 < a) (dipole tiny : Bool) (k : Nat) (hk : 0 < k) (x : ℝ) :
    oldThermo u T0 freq unit dipole true tiny (3 * k) a x < oldThermo u T0 freq unit dipole true tiny 0 a x := by
  have hx : 0 < u.h * freq / (2 * u.k * T0) := by have := hu.h; have := hu.k; positivity
  have hfac : 0 < thermoFactor u freq T0 := by
    unfold thermoFactor
    generalize u.h * freq / (2 * u.k * T0) = y at *
    have hs : 0 < sinh y := Real.sinh_pos_iff.mpr hx
    obtain ⟨c, ⟨c1, c2⟩, c3⟩ := exists_hasDerivAt_eq_slope sinh cosh hx (Real.continuous_sinh.continuousOn)
      (fun x _ => Real.hasDerivAt_sinh x)
    simp only [sinh_zero, sub_zero] at c3
    have hc : cosh c < cosh y := by
      rw [Real.cosh_lt_cosh, abs_of_pos c1, abs_of_pos hx]; exact c2
    rw [c3] at hc
    rw [sub_pos, ← mul_div_assoc, one_lt_div hs]
    rw [div_lt_iff₀ hx] at hc
    linarith
  have h3 : ¬ (3 * k = 0) := by omega
  have ht : 0 < T0 / unit := by positivity
  have p1 : 0 < thermoFactor u freq T0 * ((a - 1) ^ 2 * (T0 / unit)) := by
    have : 0 < a - 1 := by linarith
    positivity
  have p2 : 0 < (a - 1) * (T0 / unit) := mul_pos (by linarith) ht
  unfold oldThermo
  simp only [oldThermo_f, if_true, if_neg h3]
  cases dipole <;> cases tiny <;> simp <;> nlinarith

/-- **C186_tiny_refuted.** Polarization has no preferred sign, but with tiny=True the modulation of -Q is not minus that of Q. -/
theorem C186_tiny_refuted {u : PlanckConst} {T0 freq unit : ℝ} (hT : 0 < T0) (hun : 0 < unit)
    (hfac : thermoFactor u freq T0 ≠ 0) {a q : ℝ} (ha : a ≠ 0) (hq : q ≠ 0) (dipole : Bool) :
    oldThermo u T0 freq unit dipole true false 1 a (-q) = -oldThermo u T0 freq unit dipole true false 1 a q ∧
    oldThermo u T0 freq unit dipole true true 1 a (-q) ≠ -oldThermo u T0 freq unit dipole true true 1 a q := by
  have ht : 0 < T0 / unit := by positivity
  unfold oldThermo
  simp only [oldThermo_f, if_true]
  constructor
  · cases dipole <;> simp <;> ring
  · intro h
    have h2 : thermoFactor u freq T0 * a ^ 2 * q ^ 2 / (T0 / unit) = 0 := by
      cases dipole <;> simp at h <;> linarith
    have : thermoFactor u freq T0 * a ^ 2 * q ^ 2 / (T0 / unit) ≠ 0 := by positivity
    exact this h2

/-! ### Polarization -/

/-- **C186_rotate.** For a single map of three or more components, boost_map and Aberrator both rotate Q and U as a spin-2
field and leave the other components; the polarized intensity is kept. -/
theorem C186_rotate {n : Nat} (hn : 3 ≤ n) (psi : ℝ) (m : Nat → ℝ) :
    ∃ r : Nat → ℝ, oldRotate n psi (fun i _ => m i) = some (fun i _ => r i) ∧
      aberratorRotate n psi (fun _ j => m j) = some (fun _ j => r j) ∧
      (r 1, r 2) = rotatePolAb psi 2 (m 1, m 2) ∧ (∀ i, i ≠ 1 → i ≠ 2 → r i = m i) ∧
      r 1 ^ 2 + r 2 ^ 2 = m 1 ^ 2 + m 2 ^ 2 := by
  have h : ¬ n < 3 := by omega
  refine ⟨fun i => if i = 1 then cos (2 * psi) * m 1 + sin (2 * psi) * m 2
    else if i = 2 then -sin (2 * psi) * m 1 + cos (2 * psi) * m 2 else m i, ?_, ?_, ?_, ?_, ?_⟩
  · simp [oldRotate, h]
  · simp [aberratorRotate, h]
  · simp [rotatePolAb]
    constructor <;> ring
  · intro i h1 h2
    simp [h1, h2]
  · simp
    linear_combination (m 1 ^ 2 + m 2 ^ 2) * sin_sq_add_cos_sq (2 * psi)

/-- **C186_stack_rotate_refuted.** For a stack of maps the two differ although Aberrator.boost is documented as equivalent to
boost_map: boost_map fails for a stack of one or two maps, and for more it mixes the second and third map of the stack, the
temperatures included, where Aberrator mixes Q and U of each map. -/
theorem C186_stack_rotate_refuted {n : Nat} (psi : ℝ) (hpsi : sin (2 * psi) ≠ 0) :
    (n < 3 → ∀ m, oldRotate n psi m = none ∧ aberratorRotate 3 psi m ≠ none) ∧
    (3 ≤ n → ∀ m : Nat → Nat → ℝ, m 1 0 = 0 → m 2 0 ≠ 0 → ∃ r s, oldRotate n psi m = some r ∧ aberratorRotate 3 psi m = some s ∧
      s 1 0 = 0 ∧ r 1 0 ≠ 0) := by
  constructor
  · intro hn m
    simp [oldRotate, aberratorRotate, hn]
  · intro hn m h1 h2
    have h : ¬ n < 3 := by omega
    refine ⟨_, _, by simp only [oldRotate, if_neg h]; rfl, by simp only [aberratorRotate]; rfl, ?_, ?_⟩
    · simp [h1]
    · simp [h1, h2, hpsi]

/-- **C186_pol_refuted.** aberrate does not rotate the polarization: U is computed from the Q already rotated, so it is wrong
whenever the rotation changes Q; of pure Q the fraction sin⁴ of the squared intensity is lost. -/
theorem C186_pol_refuted (psi q v : ℝ) :
    (aberratePol psi (q, v)).1 = (rotatePolAb psi 2 (q, v)).1 ∧
    ((aberratePol psi (q, v)).2 = (rotatePolAb psi 2 (q, v)).2 ↔
      sin (2 * psi) = 0 ∨ (rotatePolAb psi 2 (q, v)).1 = q) ∧
    (aberratePol psi (q, 0)).1 ^ 2 + (aberratePol psi (q, 0)).2 ^ 2 = (1 - sin (2 * psi) ^ 4) * q ^ 2 := by
  have hne : ¬ (2 : ℤ) = 0 := by norm_num
  simp only [aberratePol, rotatePolAb, if_neg hne]
  push_cast
  refine ⟨by ring, ?_, ?_⟩
  · constructor
    · intro h
      have : sin (2 * psi) * ((q * cos (2 * psi) + v * sin (2 * psi)) - q) = 0 := by linarith
      rcases mul_eq_zero.mp this with h | h
      · exact Or.inl h
      · right; linarith
    · rintro (h | h)
      · rw [h]; ring
      · have : cos (2 * psi) * q + sin (2 * psi) * v = q := by linarith
        rw [this]; ring
  · have hsc := sin_sq_add_cos_sq (2 * psi)
    generalize sin (2 * psi) = s at *
    generalize cos (2 * psi) = c at *
    linear_combination (1 + s ^ 2) * q ^ 2 * hsc

/-! ### The oldest functions -/

theorem aberAngle_eq (t : ℝ) {b : ℝ} (hb : |b| < 1) : aberAngle t b = arccos (calcBoost1d (cos t) b).1 := by
  have hs := boost_sq hb
  have hq : 0 < √(1 - b ^ 2) := sqrt_pos.mpr hs
  have hd := boost_den (abs_cos_le_one t) hb
  rw [calcBoost1d_eq (abs_cos_le_one t) hb]
  unfold aberAngle
  simp only
  congr 1
  have hd' : 1 + cos t * b ≠ 0 := hd.ne'
  generalize √(1 - b ^ 2) = g at *
  have h1 : cos t + (1 / g - 1) * cos t + 1 / g * b = 1 / g * (cos t + b) := by ring
  rw [h1, mul_div_mul_left _ _ (by positivity)]

/-- **C186_angle.** aber_angle is the boost of calc_boost_1d for angles, with -beta it gives the angle back, and
mod_amplitude at the observed angle is the amplitude of the boost. -/
theorem C186_angle {t b : ℝ} (h0 : 0 ≤ t) (hpi : t ≤ π) (hb : |b| < 1) :
    cos (aberAngle t b) = (calcBoost1d (cos t) b).1 ∧ aberAngle (aberAngle t b) (-b) = t ∧
    modAmplitude (aberAngle t b) b = (calcBoost1d (cos t) b).2 := by
  have hz := abs_cos_le_one t
  obtain ⟨r, _, inv, _⟩ := C100_boost_inverse hz hb
  have hc : cos (aberAngle t b) = (calcBoost1d (cos t) b).1 := by
    rw [aberAngle_eq t hb, cos_arccos (abs_le.mp r).1 (abs_le.mp r).2]
  refine ⟨hc, ?_, ?_⟩
  · rw [aberAngle_eq _ (by rwa [abs_neg]), hc, inv, arccos_cos h0 hpi]
  · unfold modAmplitude
    rw [hc]
    rfl

/-- **C186_slope.** The derivative of aber_angle by the angle is aber_deriv with the opposite speed. -/
theorem C186_slope {t b : ℝ} (h0 : 0 < t) (hpi : t < π) (hb : |b| < 1) :
    HasDerivAt (fun x => aberAngle x b) (aberDeriv t (-b)) t := by
  have hs := boost_sq hb
  have hq : 0 < √(1 - b ^ 2) := sqrt_pos.mpr hs
  have hqq : √(1 - b ^ 2) ^ 2 = 1 - b ^ 2 := sq_sqrt hs.le
  have hz := abs_cos_le_one t
  have hd := boost_den hz hb
  have hsin : 0 < sin t := sin_pos_of_pos_of_lt_pi h0 hpi
  have hsc := sin_sq_add_cos_sq t
  have e : (fun x => aberAngle x b) = fun x => arccos ((cos x + b) / (1 + cos x * b)) := by
    funext x
    rw [aberAngle_eq x hb, calcBoost1d_eq (abs_cos_le_one x) hb]
  have hw : 1 - ((cos t + b) / (1 + cos t * b)) ^ 2 = (√(1 - b ^ 2) * sin t / (1 + cos t * b)) ^ 2 := by
    rw [div_pow, div_pow, mul_pow, hqq]
    field_simp
    linear_combination (b ^ 2 - 1) * hsc
  have hpos : 0 < √(1 - b ^ 2) * sin t / (1 + cos t * b) := by positivity
  have hne1 : (cos t + b) / (1 + cos t * b) ≠ -1 := by
    intro h; rw [h] at hw; nlinarith [sq_pos_of_pos hpos]
  have hne2 : (cos t + b) / (1 + cos t * b) ≠ 1 := by
    intro h; rw [h] at hw; nlinarith [sq_pos_of_pos hpos]
  have d1 : HasDerivAt (fun x : ℝ => (cos x + b) / (1 + cos x * b))
      ((-sin t * (1 + cos t * b) - (cos t + b) * (-sin t * b)) / (1 + cos t * b) ^ 2) t :=
    ((hasDerivAt_cos t).add_const b).div (((hasDerivAt_cos t).mul_const b).const_add 1) hd.ne'
  rw [e]
  refine ((hasDerivAt_arccos hne1 hne2).comp t d1).congr_deriv ?_
  rw [hw, sqrt_sq hpos.le]
  unfold aberDeriv
  rw [neg_sq]
  have hd2 : 1 - -b * cos t = 1 + cos t * b := by ring
  rw [hd2]
  field_simp
  rw [hqq]
  ring

/-- **C186_distortion_refuted.** distortion should be the change of the local scale by remap, which reads the map at
aber_angle(theta,-beta); it has the wrong sign of the speed, and agrees only without a boost or at right angles to it. -/
theorem C186_distortion_refuted {t b : ℝ} (h0 : 0 < t) (hpi : t < π) (hb : |b| < 1) :
    HasDerivAt (fun x => (remapOld x b).1 - x) (aberDeriv t b - 1) t ∧
    (distortionOld t b = aberDeriv t b - 1 ↔ b = 0 ∨ t = π / 2) := by
  have hb' : |-b| < 1 := by rwa [abs_neg]
  have hs := boost_sq hb
  have hq : 0 < √(1 - b ^ 2) := sqrt_pos.mpr hs
  have hd := boost_den (abs_cos_le_one t) hb
  have hd' := boost_den (abs_cos_le_one t) hb'
  constructor
  · have := (C186_slope h0 hpi hb').sub (hasDerivAt_id t)
    rw [neg_neg] at this
    exact this
  · unfold distortionOld aberDeriv
    rw [neg_sq]
    have e1 : 1 - -b * cos t = 1 + cos t * b := by ring
    have e2 : 1 - b * cos t = 1 + cos t * -b := by ring
    rw [e1, e2]
    constructor
    · intro h
      have h' : √(1 - b ^ 2) / (1 + cos t * b) = √(1 - b ^ 2) / (1 + cos t * -b) := by linarith
      rw [div_eq_div_iff hd.ne' hd'.ne'] at h'
      have h2 := mul_left_cancel₀ hq.ne' h'
      have h3 : b * cos t = 0 := by linarith
      rcases mul_eq_zero.mp h3 with h | h
      · exact Or.inl h
      · right
        have := arccos_cos h0.le hpi.le
        rw [h, arccos_zero] at this
        exact this.symm
    · rintro (rfl | rfl)
      · simp
      · simp

/-- **C186_amplitude_refuted.** remap reads the map at the right place, but its amplitude is computed from the angle in the
rest frame instead of the observed one: it is the Doppler factor only at the poles or without a boost. -/
theorem C186_amplitude_refuted {t b : ℝ} (h0 : 0 < t) (hpi : t < π) (hb : |b| < 1) :
    cos (remapOld t b).1 = (calcBoost1d (cos t) (-b)).1 ∧
    ((remapOld t b).2 = ((calcBoost1d (cos t) (-b)).2)⁻¹ ↔ b = 0) := by
  have hb' : |-b| < 1 := by rwa [abs_neg]
  have hz := abs_cos_le_one t
  have hs := boost_sq hb
  have hq : 0 < √(1 - b ^ 2) := sqrt_pos.mpr hs
  have hqq : √(1 - b ^ 2) ^ 2 = 1 - b ^ 2 := sq_sqrt hs.le
  have hsin : 0 < sin t := sin_pos_of_pos_of_lt_pi h0 hpi
  have hsc := sin_sq_add_cos_sq t
  obtain ⟨hc, -, -⟩ := C186_angle h0.le hpi.le hb'
  refine ⟨hc, ?_⟩
  have hd := boost_den hz hb'
  have hr := C100_boost_inverse hz hb'
  have hd2 := boost_den hr.1 hb'
  unfold remapOld modAmplitude
  simp only
  rw [hc, calcBoost1d_eq hz hb'] at *
  simp only [neg_sq] at *
  obtain ⟨D, hD⟩ : ∃ D, D = 1 + cos t * -b := ⟨_, rfl⟩
  clear hr
  rw [← hD] at hd hd2
  rw [← hD]
  have e3 : 1 - (cos t + -b) / D * b = (1 - 2 * cos t * b + b ^ 2) / D := by
    field_simp
    linear_combination hD
  have hn : 0 < 1 - 2 * cos t * b + b ^ 2 := by
    have : 0 < (1 - 2 * cos t * b + b ^ 2) / D := by
      rw [← e3]
      linarith
    exact (div_pos_iff_of_pos_right hd).mp this
  rw [e3]
  constructor
  · intro h
    have h2 : D ^ 2 = 1 - 2 * cos t * b + b ^ 2 := by
      generalize √(1 - b ^ 2) = g at *
      generalize 1 - 2 * cos t * b + b ^ 2 = N at *
      rw [inv_div, one_div, inv_eq_iff_eq_inv, inv_div, one_div, div_eq_mul_inv, div_eq_mul_inv] at h
      have h5 : N * D⁻¹ = D := mul_left_cancel₀ (inv_ne_zero hq.ne') (by rw [h]; ring)
      rw [← div_eq_mul_inv, div_eq_iff hd.ne'] at h5
      rw [h5]; ring
    rw [hD] at h2
    have h3 : b ^ 2 * sin t ^ 2 = 0 := by
      linear_combination -h2 + b ^ 2 * hsc
    rcases mul_eq_zero.mp h3 with h | h
    · exact pow_eq_zero_iff (by norm_num) |>.mp h
    · exact absurd h (by positivity)
  · rintro rfl
    simp [hD]

/-! ### Cases that meet the hypotheses -/

/-- Any positive constants, frequency and start. -/
example : (⟨1, 1, 1⟩ : PlanckConst).Ok := ⟨one_pos, one_pos, one_pos⟩
/-- Half the speed of light, at a right angle. -/
example : |(1 / 2 : ℝ)| < 1 ∧ 0 < π / 2 ∧ π / 2 < π :=
  ⟨by rw [abs_of_pos] <;> norm_num, by positivity, by linarith [pi_pos]⟩
/-- A rotation by an eighth of a turn: sin(2ψ) = 1. -/
example : sin (2 * (π / 4)) ≠ 0 := by
  rw [show 2 * (π / 4) = π / 2 by ring, sin_pi_div_two]
  norm_num
/-- The amplitude found by remap at a right angle and 3/5 of the speed of light is 10/17 instead of 4/5. -/
example : (remapOld (π / 2) (3 / 5)).2 = 10 / 17 ∧ ((calcBoost1d (cos (π / 2)) (-(3 / 5))).2)⁻¹ = 4 / 5 := by
  have hb : |(-(3 / 5) : ℝ)| < 1 := by rw [abs_neg, abs_of_pos] <;> norm_num
  have h := (C186_angle (t := π / 2) (by positivity) (by linarith [pi_pos]) hb).1
  have hz : |cos (π / 2)| ≤ 1 := abs_cos_le_one _
  unfold remapOld modAmplitude
  simp only
  rw [h, calcBoost1d_eq hz hb, cos_pi_div_two, show (1 - (3 / 5 : ℝ) ^ 2) = (4 / 5) ^ 2 by norm_num,
    show (1 - (-(3 / 5) : ℝ) ^ 2) = (4 / 5) ^ 2 by norm_num, sqrt_sq (by norm_num)]
  norm_num

end Pixell
