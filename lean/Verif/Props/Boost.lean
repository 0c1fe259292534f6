import Verif.Model.Boost
import Verif.Props.Aberration

/-!
C163: boosting a map is what the doc of calc_boost_1d promises, T_obs(z_obs) = A·T_rest(z), with the Doppler factor as A;
deboost_map undoes boost_map, boosts along one direction add up as velocities do, and a boosted monopole is the dipole.
The parts alone are not undone: demodulate_map does not undo modulate_map, and "lin2lin" does not undo "lin2lin".
-/
namespace Pixell
open Real

/-- A boosted direction is a direction. -/
theorem boost_dir {z b : ℝ} (hz : |z| ≤ 1) (hb : |b| < 1) : |(calcBoost1d z b).1| ≤ 1 := (C100_boost_inverse hz hb).1

theorem modField_eq {z b : ℝ} (hz : |z| ≤ 1) (hb : |b| < 1) : modField b z = √(1 - b ^ 2) / (1 - b * z) := by
  unfold modField
  rw [calcBoost1d_eq hz (by rwa [abs_neg])]
  simp only [neg_sq, inv_div]
  congr 1
  ring

/-- The field at the observed place of z is the amplitude of calc_boost_1d for z. -/
theorem modField_obs {z b : ℝ} (hz : |z| ≤ 1) (hb : |b| < 1) : modField b (calcBoost1d z b).1 = (calcBoost1d z b).2 := by
  obtain ⟨-, hp, -, h⟩ := C100_boost_inverse hz hb
  unfold modField
  rw [eq_inv_of_mul_eq_one_left h, inv_inv]

theorem modField_pos {z b : ℝ} (hz : |z| ≤ 1) (hb : |b| < 1) : 0 < modField b z := by
  have h := (C100_boost_inverse hz (b := -b) (by rwa [abs_neg])).2.1
  unfold modField
  positivity

/-- Coming back, the field is the inverse amplitude. -/
theorem modField_back {z b : ℝ} (hz : |z| ≤ 1) (hb : |b| < 1) :
    modField (-b) z = 1 / modField b (calcBoost1d z b).1 := by
  rw [modField_obs hz hb]
  unfold modField
  rw [neg_neg, one_div]

/-- **C163_doppler.** The modulation applied at an observed direction is the Doppler factor √(1-β²)/(1-β·cosθ): it is
positive, larger than one ahead, smaller than one behind, and equal to one at cosθ = (1-√(1-β²))/β. -/
theorem C163_doppler {z b : ℝ} (hz : |z| ≤ 1) (hb : |b| < 1) :
    modField b z = √(1 - b ^ 2) / (1 - b * z) ∧ 0 < modField b z ∧
    (1 - √(1 - b ^ 2) < b * z → 1 < modField b z) ∧ (b * z < 1 - √(1 - b ^ 2) → modField b z < 1) := by
  have hd : 0 < 1 - b * z := by
    have := boost_den hz (b := -b) (by rwa [abs_neg])
    linarith
  refine ⟨modField_eq hz hb, modField_pos hz hb, ?_, ?_⟩
  · intro h
    rw [modField_eq hz hb, one_lt_div hd]
    linarith
  · intro h
    rw [modField_eq hz hb, div_lt_one hd]
    linarith

/-- **C163_observed.** A source of the rest frame at z is seen at z_obs with the amplitude A, where (z_obs,A) is what
calc_boost_1d(z,beta) returns: T_obs(z_obs) = A·T_rest(z), the azimuth is kept, and with dipole the same holds for the
temperature including the monopole. -/
theorem C163_observed (s : ModSet) (hun : s.unit ≠ 0) {z b : ℝ} (hz : |z| ≤ 1) (hb : |b| < 1) (m : SkyFun) (φ : ℝ) :
    let zo := (calcBoost1d z b).1
    let A := (calcBoost1d z b).2
    (boostSky s .none true true b m).1 zo φ = m z φ ∧
    (s.dipole = false → (boostSky s .plain true true b m).1 zo φ = A * m z φ) ∧
    (s.dipole = true → s.first = true →
      (boostSky s .plain true true b m).1 zo φ * s.unit + s.T0 = A * (m z φ * s.unit + s.T0)) := by
  obtain ⟨-, hp, h1, -⟩ := C100_boost_inverse hz hb
  have hm := modField_obs hz hb
  have hA : (calcBoost1d z b).2 ≠ 0 := hp.ne'
  have hpl := fun x => C101_plain (T0 := s.T0) (unit := s.unit) (A := (calcBoost1d z b).2) (x := x) hun hA s.dipole s.first
  refine ⟨?_, ?_, ?_⟩
  · simp [boostSky, modulateSky, applyModulation, aberrateSky, h1]
  · intro hd
    have := (hpl (m z φ)).2.2.1
    simpa [boostSky, modulateSky, applyModulation, aberrateSky, h1, hm, hd] using this
  · intro hd hf
    have := (hpl (m z φ)).2.1
    simpa [boostSky, modulateSky, applyModulation, aberrateSky, h1, hm, hd, hf] using this

/-- **C163_inverse_partial.** deboost_map undoes boost_map at every direction, for all speeds below that of light: without
modulation, with "plain" modulation with or without dipole, and with the defaults, "T2lin" undone by "lin2T" (wherever the
temperature is positive and for the standard monopole T0 = T_cmb; other T0: `C163_monopole_refuted`). -/
theorem C163_inverse_partial (s : ModSet) (hu : s.u.Ok) (hf : 0 < s.freq) (hT : 0 < s.T0) (hun : 0 < s.unit) {z b : ℝ}
    (hz : |z| ≤ 1) (hb : |b| < 1) (m : SkyFun) (φ : ℝ) :
    (deboostSky s .none true false b (boostSky s .none true false b m).1).1 z φ = m z φ ∧
    (deboostSky s .plain true true b (boostSky s .plain true true b m).1).1 z φ = m z φ ∧
    (s.T0 = s.Tcmb → 0 < m z φ * s.unit + s.T0 →
      (deboostSky s .lin2T true true b (boostSky s .T2lin true true b m).1).1 z φ = m z φ) := by
  obtain ⟨-, hp, h1, -⟩ := C100_boost_inverse hz hb
  have hr := boost_dir hz hb
  have hbk := modField_back hz hb
  have hpos := modField_pos hr hb
  refine ⟨?_, ?_, ?_⟩
  · simp [deboostSky, boostSky, aberrateSky, h1]
  · simp only [deboostSky, boostSky, modulateSky, applyModulation, aberrateSky, if_true, neg_neg, h1]
    rw [hbk]
    exact (C101_plain hun.ne' hpos.ne' _ _).1
  · intro ht hx
    simp only [deboostSky, boostSky, modulateSky, applyModulation, aberrateSky, if_true, neg_neg, h1]
    rw [hbk, ← ht]
    exact (C101_modulate_partial hu hf hT hun s.spin s.dipole hpos (m z φ)).1 hx

/-- **C163_monopole_refuted.** With any other monopole T0 the defaults do not undo each other: every direction of the
deboosted map is off by (T0-T_cmb)/unit. -/
theorem C163_monopole_refuted (s : ModSet) (hu : s.u.Ok) (hf : 0 < s.freq) (hT : 0 < s.T0) (hun : 0 < s.unit)
    (hne : s.T0 ≠ s.Tcmb) {z b : ℝ} (hz : |z| ≤ 1) (hb : |b| < 1) (m : SkyFun) (φ : ℝ) (hx : 0 < m z φ * s.unit + s.T0) :
    (deboostSky s .lin2T true true b (boostSky s .T2lin true true b m).1).1 z φ = m z φ + (s.T0 - s.Tcmb) / s.unit ∧
    (deboostSky s .lin2T true true b (boostSky s .T2lin true true b m).1).1 z φ ≠ m z φ := by
  obtain ⟨-, hp, h1, -⟩ := C100_boost_inverse hz hb
  have hr := boost_dir hz hb
  have hbk := modField_back hz hb
  have hpos := modField_pos hr hb
  simp only [deboostSky, boostSky, modulateSky, applyModulation, aberrateSky, if_true, neg_neg, h1]
  rw [hbk]
  exact C101_modulate_refuted hu hf hT hun hne s.spin s.dipole hpos hx

/-- Two "plain" modulations multiply their amplitudes. -/
theorem plain_plain {T0 unit : ℝ} (hun : unit ≠ 0) (dip first : Bool) (a c x : ℝ) :
    modulatePlain T0 unit dip first c (modulatePlain T0 unit dip first a x) = modulatePlain T0 unit dip first (c * a) x := by
  unfold modulatePlain
  cases dip <;> cases first <;> simp
  all_goals field_simp
  all_goals ring

/-- **C163_compose.** Two "plain" boosts in the same direction, one after the other, are the boost with the relativistic
sum (a+b)/(1+ab) of the speeds. -/
theorem C163_compose (s : ModSet) (hun : s.unit ≠ 0) {z a b : ℝ} (hz : |z| ≤ 1) (ha : |a| < 1) (hb : |b| < 1) (m : SkyFun)
    (φ : ℝ) : (boostSky s .plain true true b (boostSky s .plain true true a m).1).1 z φ
      = (boostSky s .plain true true ((a + b) / (1 + a * b)) m).1 z φ := by
  have hna : |(-a)| < 1 := by rwa [abs_neg]
  have hnb : |(-b)| < 1 := by rwa [abs_neg]
  have hv : addVel (-b) (-a) = -((a + b) / (1 + a * b)) := by
    unfold addVel
    rw [← neg_div]
    congr 1 <;> ring
  obtain ⟨c1, c2⟩ := C100_boost_compose hz hnb hna
  rw [hv] at c1 c2
  simp only [boostSky, modulateSky, applyModulation, aberrateSky, if_true]
  rw [c1, plain_plain hun]
  congr 1
  unfold modField
  rw [← c2, mul_inv, mul_comm]

/-- **C163_dipole.** A map without fluctuations is seen as T0·√(1-β²)/(1-β·cosθ), monopole included, if boosted with
dipole; without dipole it stays empty. -/
theorem C163_dipole (s : ModSet) (hun : s.unit ≠ 0) {z b : ℝ} (hz : |z| ≤ 1) (hb : |b| < 1) (φ : ℝ) :
    (s.dipole = true → s.first = true →
      (boostSky s .plain true true b (fun _ _ => 0)).1 z φ * s.unit + s.T0 = s.T0 * (√(1 - b ^ 2) / (1 - b * z))) ∧
    (s.dipole = false → (boostSky s .plain true true b (fun _ _ => 0)).1 z φ = 0) ∧
    (s.dipole = false → (boostSky s .T2lin true true b (fun _ _ => 0)).1 z φ = 0) := by
  refine ⟨?_, ?_, ?_⟩
  · intro hd hf
    simp only [boostSky, modulateSky, applyModulation, aberrateSky, if_true, modulatePlain, hd, hf, Bool.and_self]
    rw [modField_eq hz hb]
    field_simp
    ring
  · intro hd
    simp [boostSky, modulateSky, applyModulation, aberrateSky, modulatePlain, hd]
  · intro hd
    simp [boostSky, modulateSky, applyModulation, aberrateSky, modulateT2lin, hd]

/-- **C163_demodulate_refuted.** demodulate_map does not undo modulate_map (nor deboost_map boost_map, both with
aberrate=False): the two factors are evaluated at the same direction, so every pixel is left multiplied by
(1-β²)/(1-β²cos²θ), which is less than one everywhere but at the two poles of the motion. -/
theorem C163_demodulate_refuted (s : ModSet) (hd : s.dipole = false) {z b : ℝ} (hz : |z| < 1) (hb : |b| < 1) (h0 : b ≠ 0)
    (m : SkyFun) (φ : ℝ) (hm : m z φ ≠ 0) :
    let back := (deboostSky s .plain false true b (boostSky s .plain false true b m).1).1 z φ
    back = (1 - b ^ 2) / (1 - b ^ 2 * z ^ 2) * m z φ ∧ back ≠ m z φ := by
  have hnb : |(-b)| < 1 := by rwa [abs_neg]
  have hs := boost_sq hb
  have hqq : √(1 - b ^ 2) * √(1 - b ^ 2) = 1 - b ^ 2 := mul_self_sqrt hs.le
  have d1 := boost_den hz.le hb
  have d2 := boost_den hz.le hnb
  have e : (deboostSky s .plain false true b (boostSky s .plain false true b m).1).1 z φ
      = (1 - b ^ 2) / (1 - b ^ 2 * z ^ 2) * m z φ := by
    simp only [deboostSky, boostSky, modulateSky, applyModulation, if_true, modulatePlain, hd, Bool.false_and,
      Bool.false_eq_true, if_false]
    rw [modField_eq hz.le hb, modField_eq hz.le hnb, neg_sq]
    have f1 : 1 - b * z ≠ 0 := by intro h; linarith
    have f2 : 1 - -b * z ≠ 0 := by intro h; linarith
    have f3 : 1 - b ^ 2 * z ^ 2 = (1 - b * z) * (1 - -b * z) := by ring
    rw [f3]
    generalize √(1 - b ^ 2) = g at *
    rw [← hqq]
    field_simp
  refine ⟨e, ?_⟩
  rw [e]
  intro h
  have hz2 : z ^ 2 < 1 := by rw [← sq_abs]; nlinarith [abs_nonneg z]
  have hb2 : 0 < b ^ 2 := by positivity
  have hpos : 0 < 1 - b ^ 2 * z ^ 2 := by nlinarith
  have h2 : (1 - b ^ 2) / (1 - b ^ 2 * z ^ 2) = 1 := by
    apply mul_right_cancel₀ hm
    rw [h, one_mul]
  rw [div_eq_one_iff_eq hpos.ne'] at h2
  nlinarith

/-- **C163_lin2lin.** With dipole, "lin2lin" is undone by "lin2lin", for the temperature component, wherever the input is
a possible intensity and for T0 = T_cmb. -/
theorem C163_lin2lin (s : ModSet) (hu : s.u.Ok) (hf : 0 < s.freq) (hT : 0 < s.T0) (hun : 0 < s.unit) (ht : s.T0 = s.Tcmb)
    (hd : s.dipole = true) (hsp : s.spin = 0) {z b : ℝ} (hz : |z| ≤ 1) (hb : |b| < 1) (m : SkyFun) (φ : ℝ)
    (hx : 0 < m z φ * s.unit * dplanck s.u s.freq s.T0 + planckI s.u s.freq s.T0) :
    (deboostSky s .lin2lin true true b (boostSky s .lin2lin true true b m).1).1 z φ = m z φ := by
  obtain ⟨-, hp, h1, -⟩ := C100_boost_inverse hz hb
  have hr := boost_dir hz hb
  have hbk := modField_back hz hb
  have hpos := modField_pos hr hb
  have hs := (C101_dplanck hu hf hT).2
  obtain ⟨i1, i2⟩ := C101_planck_inverse hu hf
  simp only [deboostSky, boostSky, modulateSky, applyModulation, aberrateSky, if_true, neg_neg, h1]
  rw [hbk]
  set A := modField b (calcBoost1d z b).1 with hA
  obtain ⟨j1, j2⟩ := i2 _ hx
  have key : ∀ a y, modulateT2lin s.u s.T0 s.freq s.unit s.spin s.dipole a y
      = (planckI s.u s.freq (a * (y * s.unit + s.T0)) - planckI s.u s.freq s.T0) / dplanck s.u s.freq s.T0 / s.unit := by
    intro a y
    simp [modulateT2lin, hd, hsp, sub_div]
  have key2 : ∀ a y, modulateLin2T s.u s.Tcmb s.T0 s.freq s.unit s.spin s.dipole (a * 0 + 1) y
      = (iplanckT s.u s.freq (y * s.unit * dplanck s.u s.freq s.T0 + planckI s.u s.freq s.T0) - s.T0) / s.unit := by
    intro a y
    simp [modulateLin2T, hd, hsp, ht]
  rw [key2, key2, key, key]
  set W := iplanckT s.u s.freq (m z φ * s.unit * dplanck s.u s.freq s.T0 + planckI s.u s.freq s.T0) with hW
  have e1 : A * ((W - s.T0) / s.unit * s.unit + s.T0) = A * W := by field_simp; ring
  rw [e1]
  have e2 : (planckI s.u s.freq (A * W) - planckI s.u s.freq s.T0) / dplanck s.u s.freq s.T0 / s.unit * s.unit
      * dplanck s.u s.freq s.T0 + planckI s.u s.freq s.T0 = planckI s.u s.freq (A * W) := by
    field_simp
    ring
  rw [e2, (i1 (A * W) (by positivity)).2]
  have e3 : 1 / A * ((A * W - s.T0) / s.unit * s.unit + s.T0) = W := by field_simp; ring
  rw [e3, j2]
  field_simp
  ring

/-- The Planck spectrum at the temperature where hf/kT is the logarithm of a. -/
theorem planck_log {u : PlanckConst} (hu : u.Ok) {f a : ℝ} (hf : 0 < f) (ha : 1 < a) :
    planckI u f (u.h * f / u.k / log a) = 2 * u.h * f * f * f / u.c ^ 2 * 10 ^ 26 / (a - 1) := by
  have h1 := hu.h; have h2 := hu.k; have h3 := hu.c
  have hl := log_pos ha
  have e : u.h * f / (u.k * (u.h * f / u.k / log a)) = log a := by field_simp
  unfold planckI
  rw [e, exp_log (by linarith)]
  have : a - 1 ≠ 0 := by linarith
  field_simp

/-- **C163_lin2lin_refuted.** Without dipole (the default), "lin2lin" is not undone by "lin2lin": at every frequency there
are a monopole T0 = T_cmb and a map for which deboosting gives other values back. -/
theorem C163_lin2lin_refuted {u : PlanckConst} (hu : u.Ok) {f : ℝ} (hf : 0 < f) :
    ∃ T0 > 0, ∃ x : ℝ, ∃ b z : ℝ, |b| < 1 ∧ |z| ≤ 1 ∧
      0 < x * 1 * dplanck u f T0 + planckI u f T0 ∧
      (deboostSky ⟨u, T0, T0, f, 1, false, 0, true⟩ .lin2lin true true b
        (boostSky ⟨u, T0, T0, f, 1, false, 0, true⟩ .lin2lin true true b (fun _ _ => x)).1).1 z 0 ≠ x := by
  have h1 := hu.h; have h2 := hu.k; have h3 := hu.c
  set q := u.h * f / u.k with hq
  have hq0 : 0 < q := by positivity
  set C := 2 * u.h * f * f * f / u.c ^ 2 * 10 ^ 26 with hC
  have hC0 : 0 < C := by positivity
  have hl2 : 0 < log 2 := log_pos (by norm_num)
  have l16 : log 16 = 4 * log 2 := by
    rw [show (16 : ℝ) = 2 ^ (4 : ℕ) by norm_num, log_pow]; norm_num
  have l4 : log 4 = 2 * log 2 := by
    rw [show (4 : ℝ) = 2 ^ (2 : ℕ) by norm_num, log_pow]; norm_num
  have l256 : log 256 = 8 * log 2 := by
    rw [show (256 : ℝ) = 2 ^ (8 : ℕ) by norm_num, log_pow]; norm_num
  have l676 : log (676 / 121) = 2 * log (26 / 11) := by
    rw [show (676 / 121 : ℝ) = (26 / 11) ^ (2 : ℕ) by norm_num, log_pow]; norm_num
  have hl26 : 0 < log (26 / 11) := log_pos (by norm_num)
  have P := fun {a : ℝ} (ha : 1 < a) => planck_log hu hf ha
  simp only [← hq, ← hC] at P
  set T0 := q / log 16 with hT0
  have hT : 0 < T0 := by rw [hT0, l16]; positivity
  have hs := (C101_dplanck hu hf hT).2
  obtain ⟨i1, i2⟩ := C101_planck_inverse hu hf
  set D := dplanck u f T0 with hD
  have p16 : planckI u f T0 = C / 15 := by rw [hT0, P (by norm_num)]; norm_num
  have p2 : planckI u f (2 * T0) = C / 3 := by
    rw [show 2 * T0 = q / log 4 by rw [hT0, l16, l4]; field_simp; norm_num, P (by norm_num)]; norm_num
  have ph : planckI u f (1 / 2 * T0) = C / 255 := by
    rw [show 1 / 2 * T0 = q / log 256 by rw [hT0, l16, l256]; field_simp; norm_num, P (by norm_num)]; norm_num
  have t4 : iplanckT u f (C / 3) = q / log 4 := by
    rw [← (i1 (q / log 4) (by rw [l4]; positivity)).2, P (by norm_num)]; norm_num
  have t26 : iplanckT u f (11 * C / 15) = q / log (26 / 11) := by
    rw [← (i1 (q / log (26 / 11)) (by positivity)).2, P (by norm_num)]
    congr 1
    field_simp
    norm_num
  have p1 : planckI u f (2 * (q / log 4)) = C := by
    rw [show 2 * (q / log 4) = q / log 2 by rw [l4]; field_simp, P (by norm_num)]; norm_num
  have pw : planckI u f (1 / 2 * (q / log (26 / 11))) = 121 * C / 555 := by
    rw [show 1 / 2 * (q / log (26 / 11)) = q / log (676 / 121) by rw [l676]; field_simp, P (by norm_num)]
    field_simp
    norm_num
  -- the speed 3/5 straight ahead, where the amplitude is two
  have hb : |(3 / 5 : ℝ)| < 1 := by rw [abs_of_pos] <;> norm_num
  have hz : |(1 : ℝ)| ≤ 1 := by norm_num
  have hzo : (calcBoost1d 1 (3 / 5)).1 = 1 := by rw [calcBoost1d_eq hz hb]; norm_num
  have hA : modField (3 / 5) 1 = 2 := by
    rw [modField_eq hz hb, show (1 - (3 / 5 : ℝ) ^ 2) = (4 / 5) ^ 2 by norm_num, sqrt_sq (by norm_num)]
    norm_num
  have hB : modField (-(3 / 5)) 1 = 1 / 2 := by rw [modField_back hz hb, hzo, hA]
  refine ⟨T0, hT, (C / 3 - C / 15) / D, 3 / 5, 1, hb, hz, ?_, ?_⟩
  · rw [p16, mul_one, div_mul_cancel₀ _ hs.ne']
    have : C / 3 - C / 15 + C / 15 = C / 3 := by ring
    rw [this]
    positivity
  · simp only [deboostSky, boostSky, modulateSky, applyModulation, aberrateSky, if_true, neg_neg, hzo, hA, hB,
      modulateLin2T, modulateT2lin, Bool.false_eq_true, and_false, if_false, mul_one, div_one, mul_zero, zero_add, one_mul,
      ← hD, p16]
    rw [div_mul_cancel₀ _ hs.ne', show C / 3 - C / 15 + C / 15 = C / 3 by ring, t4,
      show q / log 4 - T0 + T0 = q / log 4 by ring, p1, p2]
    rw [show (C / D - C / 3 / D) * D + C / 15 = 11 * C / 15 by field_simp; ring, t26,
      show q / log (26 / 11) - T0 + T0 = q / log (26 / 11) by ring, pw, ph]
    intro h
    field_simp at h
    norm_num at h

/-- **C163_inplace_refuted.** boost_map with aberrate=False, modulate_map and demodulate_map overwrite the caller's map
with the result; with aberration the caller's map is kept. -/
theorem C163_inplace_refuted (s : ModSet) (hd : s.dipole = false) {z b : ℝ} (hz : |z| ≤ 1) (hb : |b| < 1)
    (h1 : b * z ≠ 1 - √(1 - b ^ 2)) (m : SkyFun) (φ : ℝ) (hm : m z φ ≠ 0) (mode : ModMode) (md : Bool) :
    (boostSky s .plain false true b m).2 z φ ≠ m z φ ∧ (boostSky s mode true md b m).2 = m ∧
    (boostSky s mode false false b m).2 = m := by
  refine ⟨?_, by simp [boostSky], by simp [boostSky]⟩
  simp only [boostSky, modulateSky, applyModulation, modulatePlain, hd, if_true, Bool.false_and, Bool.false_eq_true, if_false]
  intro h
  have h2 : modField b z = 1 := by
    apply mul_left_cancel₀ hm
    rw [h, mul_one]
  obtain ⟨-, -, hg, hl⟩ := C163_doppler hz hb
  rcases lt_or_gt_of_ne h1 with h3 | h3
  · exact (hl h3).ne h2
  · exact (hg h3).ne' h2

/-- **C163_lmax.** The resolution of the boost fields does not depend on the sign of the speed, grows with the speed and
lies between 18 and 438. -/
theorem C163_lmax {a b : ℝ} (hab : |a| ≤ |b|) (hb : |b| < 1) :
    beta2lmax (-b) = beta2lmax b ∧ beta2lmax a ≤ beta2lmax b ∧ 18 ≤ beta2lmax b ∧ beta2lmax b ≤ 438 := by
  have base : ∀ {g : ℝ}, 0 < g → 0 < g ^ (62 / 100 : ℝ) := fun hg => rpow_pos_of_pos hg _
  have hsb : 0 < √(1 - |b| ^ 2) := sqrt_pos.mpr (by rw [sq_abs]; exact boost_sq hb)
  have hle : √(1 - |b| ^ 2) ≤ √(1 - |a| ^ 2) := sqrt_le_sqrt (by nlinarith [abs_nonneg a, abs_nonneg b])
  have hsa : 0 < √(1 - |a| ^ 2) := hsb.trans_le hle
  have h1 : √(1 - |b| ^ 2) ≤ 1 := sqrt_le_one.mpr (by nlinarith [abs_nonneg b])
  unfold beta2lmax
  simp only [abs_neg, one_div_one_div]
  refine ⟨trivial, ?_, ?_, ?_⟩
  · apply Int.ceil_mono
    have hp := rpow_le_rpow (by positivity) (add_le_add_right hle (4 / 1000)) (by norm_num : (0 : ℝ) ≤ 62 / 100)
    have := one_div_le_one_div_of_le (base (by positivity)) hp
    linarith
  · have hp := rpow_le_rpow (by positivity) (add_le_add_right h1 (4 / 1000)) (by norm_num : (0 : ℝ) ≤ 62 / 100)
    have hq : (4 / 1000 + 1 : ℝ) ^ (62 / 100 : ℝ) ≤ 4 / 1000 + 1 := by
      conv_rhs => rw [← rpow_one (4 / 1000 + 1 : ℝ)]
      exact rpow_le_rpow_of_exponent_le (by norm_num) (by norm_num)
    have h3 := one_div_le_one_div_of_le (base (by positivity)) (hp.trans hq)
    have : (17 : ℤ) < ⌈1 / (4 / 1000 + √(1 - |b| ^ 2)) ^ (62 / 100 : ℝ) * 14 + 7 / 2⌉ := by
      rw [Int.lt_ceil]
      have : (1 : ℝ) / (4 / 1000 + 1) * 14 + 7 / 2 > 17 := by norm_num
      push_cast
      linarith
    omega
  · rw [Int.ceil_le]
    have hp := rpow_le_rpow (by norm_num) (show (4 / 1000 : ℝ) ≤ 4 / 1000 + √(1 - |b| ^ 2) by linarith)
      (by norm_num : (0 : ℝ) ≤ 62 / 100)
    have hq : (1 / 31 : ℝ) ≤ (4 / 1000 : ℝ) ^ (62 / 100 : ℝ) := by
      have : ((4 / 1000 : ℝ) ^ (62 / 100 : ℝ)) ^ (100 : ℕ) = (4 / 1000) ^ (62 : ℕ) := by
        rw [← rpow_natCast, ← rpow_mul (by norm_num), ← rpow_natCast]
        norm_num
      refine le_of_pow_le_pow_left₀ (n := 100) (by norm_num) (base (by norm_num)).le ?_
      rw [this]
      norm_num
    have h3 := one_div_le_one_div_of_le (by norm_num) (hq.trans hp)
    push_cast
    norm_num at h3 ⊢
    linarith

/-- Non-vacuity: a direction, a speed, and the hypotheses on the settings. -/
example : |(1 / 2 : ℝ)| ≤ 1 ∧ |(3 / 5 : ℝ)| < 1 ∧ (3 / 5 : ℝ) * (1 / 2) ≠ 1 - √(1 - (3 / 5) ^ 2) := by
  refine ⟨by rw [abs_of_pos] <;> norm_num, by rw [abs_of_pos] <;> norm_num, ?_⟩
  rw [show (1 - (3 / 5 : ℝ) ^ 2) = (4 / 5) ^ 2 by norm_num, sqrt_sq (by norm_num)]
  norm_num

example : (ModSet.mk ⟨1, 2, 3⟩ 2 2 1 1 false 0 true).u.Ok := ⟨by norm_num, by norm_num, by norm_num⟩

end Pixell
