import Verif.Model.LogFourier
import Mathlib.Analysis.SpecialFunctions.PolarCoord
import Mathlib.MeasureTheory.Integral.Prod
import Mathlib.MeasureTheory.Integral.IntervalIntegral.Periodic
import Mathlib.Analysis.SpecialFunctions.Integrals.Basic

/-!
C167: transforms at logarithmic steps. RadialFourierTransform is the two-dimensional Fourier transform of a radial profile
and FFTLog the Fourier transform of a function of the positive numbers; both are undone by their inverses; the grids are
those asked for, except for a range of wavenumbers.
-/
namespace Pixell
open Real MeasureTheory Set

/-- The Bessel function J₀, by its integral (DLMF 10.9.1). -/
noncomputable def besselJ0 (z : ℝ) : ℝ := 1 / (2 * π) * ∫ t in (-π)..π, cos (z * cos t)

/-- J₋½ and J½ in closed form (DLMF 10.16.1). -/
noncomputable def besselHalf (mu z : ℝ) : ℝ := if mu < 0 then √(2 / (π * z)) * cos z else √(2 / (π * z)) * sin z

/-- The Hankel transform which scipy.fft.fht approximates, A(k) = ∫ a(r) J(kr) k dr. -/
noncomputable def hankel (J : ℝ → ℝ) (g : ℝ → ℝ) (k : ℝ) : ℝ := ∫ r in Ioi (0 : ℝ), g r * J (k * r) * k

/-- The points scipy.fft.fht works at: N points at steps dln around the center c. -/
noncomputable def fhtGrid (N : ℕ) (dln c : ℝ) (j : ℕ) : ℝ := c * exp (((j : ℝ) - ((N : ℝ) - 1) / 2) * dln)

/-- Turning the direction does not change the mean over directions. -/
theorem dir_mean (z al : ℝ) : ∫ t in (-π)..π, cos (z * cos (t - al)) = 2 * π * besselJ0 z := by
  have hper : Function.Periodic (fun t : ℝ => cos (z * cos t)) (2 * π) := by
    intro t
    simp only [cos_add_two_pi]
  have h1 : ∫ t in (-π)..π, cos (z * cos (t - al)) = ∫ t in (-π - al)..(π - al), cos (z * cos t) :=
    intervalIntegral.integral_comp_sub_right (fun t => cos (z * cos t)) al
  rw [h1, show π - al = (-π - al) + 2 * π by ring, hper.intervalIntegral_add_eq (-π - al) (-π),
    show -π + 2 * π = π by ring]
  unfold besselJ0
  have := pi_pos
  field_simp

/-- **The Fourier transform of a radial function**, in polar coordinates. -/
theorem fourier_radial {f : ℝ → ℝ} (hf : IntegrableOn (fun r => f r * r) (Ioi 0)) (l al : ℝ) :
    ∫ p : ℝ × ℝ, f √(p.1 ^ 2 + p.2 ^ 2) * cos (l * cos al * p.1 + l * sin al * p.2) =
      2 * π * ∫ r in Ioi (0 : ℝ), f r * r * besselJ0 (l * r) := by
  rw [← integral_comp_polarCoord_symm]
  have e1 : ∀ p ∈ polarCoord.target, p.1 • (f √((polarCoord.symm p).1 ^ 2 + (polarCoord.symm p).2 ^ 2) *
      cos (l * cos al * (polarCoord.symm p).1 + l * sin al * (polarCoord.symm p).2)) =
      cos (l * p.1 * cos (p.2 - al)) * (f p.1 * p.1 * 1) := by
    intro p hp
    have hr : 0 < p.1 := hp.1
    simp only [polarCoord_symm_apply, smul_eq_mul]
    have e2 : (p.1 * cos p.2) ^ 2 + (p.1 * sin p.2) ^ 2 = p.1 ^ 2 := by
      have := sin_sq_add_cos_sq p.2
      linear_combination p.1 ^ 2 * this
    rw [e2, sqrt_sq hr.le, cos_sub]
    rw [show l * cos al * (p.1 * cos p.2) + l * sin al * (p.1 * sin p.2) =
      l * p.1 * (cos p.2 * cos al + sin p.2 * sin al) by ring]
    ring
  rw [setIntegral_congr_fun (polarCoord.open_target.measurableSet) e1]
  have ht : polarCoord.target = Ioi (0 : ℝ) ×ˢ Ioo (-π) π := rfl
  rw [ht]
  have hint : IntegrableOn (fun p : ℝ × ℝ => cos (l * p.1 * cos (p.2 - al)) * (f p.1 * p.1 * 1)) (Ioi (0 : ℝ) ×ˢ Ioo (-π) π)
      ((volume : Measure ℝ).prod volume) := by
    unfold IntegrableOn
    rw [← Measure.prod_restrict]
    refine Integrable.bdd_mul (c := 1) ?_ ?_ ?_
    · exact Integrable.mul_prod (f := fun r => f r * r) (g := fun _ => (1 : ℝ)) hf (integrable_const _)
    · exact (by fun_prop : Continuous fun p : ℝ × ℝ => cos (l * p.1 * cos (p.2 - al))).aestronglyMeasurable
    · refine Filter.Eventually.of_forall fun p => ?_
      rw [Real.norm_eq_abs]
      exact abs_cos_le_one _
  have hv : (volume : Measure (ℝ × ℝ)) = (volume : Measure ℝ).prod volume := rfl
  rw [hv, setIntegral_prod _ hint, ← integral_const_mul]
  refine setIntegral_congr_fun measurableSet_Ioi ?_
  intro r hr
  simp only
  rw [integral_mul_const, ← integral_Ioc_eq_integral_Ioo, ← intervalIntegral.integral_of_le (by linarith [pi_pos]), dir_mean]
  ring

/-- The center of the grids. -/
noncomputable def Rft.center (s : Rft) : ℝ := exp ((log s.l2 + log s.l1) / 2)

theorem rft_l_grid (s : Rft) (i : ℕ) : s.l i = fhtGrid s.size s.dlog s.center i := by
  unfold Rft.l fhtGrid Rft.center Rft.size
  rw [← exp_add]
  push_cast
  ring_nf

theorem rft_r_grid (s : Rft) {j : ℕ} (hj : j < s.size) : s.r j = fhtGrid s.size s.dlog (1 / s.center) j := by
  unfold Rft.r
  rw [rft_l_grid]
  unfold fhtGrid
  have : ((s.size - 1 - j : ℕ) : ℝ) = (s.size : ℝ) - 1 - j := by
    rw [Nat.sub_sub, Nat.cast_sub (by omega)]
    push_cast; ring
  rw [this, one_div, one_div, mul_inv, ← exp_neg]
  have e : -(((s.size : ℝ) - 1 - j - ((s.size : ℝ) - 1) / 2) * s.dlog) = ((j : ℝ) - ((s.size : ℝ) - 1) / 2) * s.dlog := by ring
  rw [e]

theorem rft_l_pos (s : Rft) (i : ℕ) : 0 < s.l i := exp_pos _
theorem rft_r_pos (s : Rft) (j : ℕ) : 0 < s.r j := by unfold Rft.r; exact one_div_pos.2 (rft_l_pos s _)

/-- **C167_fourier.** real2harm is the Fourier transform of the radial profile in the plane, for all directions of the
wavevector, wherever scipy's fht is exact: the factors and grids are those its definition requires (the centers of the two
grids are inverse to each other, as for offset=0). -/
theorem C167_fourier (s : Rft) (fht : ℝ → ℝ → (ℕ → ℝ) → ℕ → ℝ) (f : ℝ → ℝ) (i : ℕ)
    (hf : IntegrableOn (fun r => f r * r) (Ioi 0)) (hloc : ∀ a b : ℕ → ℝ, (∀ j < s.size, a j = b j) → fht s.dlog 0 a i = fht s.dlog 0 b i)
    (hx : ∀ rc kc : ℝ, rc * kc = 1 → kc = s.center → fht s.dlog 0 (fun j => f (fhtGrid s.size s.dlog rc j) * fhtGrid s.size s.dlog rc j) i =
      hankel besselJ0 (fun r => f r * r) (fhtGrid s.size s.dlog kc i)) (al : ℝ) :
    s.real2harm fht (fun j => f (s.r j)) i =
      ∫ p : ℝ × ℝ, f √(p.1 ^ 2 + p.2 ^ 2) * cos (s.l i * cos al * p.1 + s.l i * sin al * p.2) := by
  rw [fourier_radial hf]
  unfold Rft.real2harm
  have hc : s.center ≠ 0 := (exp_pos _).ne'
  have e1 := hx (1 / s.center) s.center (by field_simp) rfl
  rw [hloc (fun j => (fun j => f (s.r j)) j * s.r j)
    (fun j => f (fhtGrid s.size s.dlog (1 / s.center) j) * fhtGrid s.size s.dlog (1 / s.center) j)
    (fun j hj => by simp only [rft_r_grid s hj]), e1, ← rft_l_grid]
  unfold hankel
  rw [integral_mul_const, mul_div_assoc, mul_div_cancel_right₀ _ (rft_l_pos s i).ne']

/-- **C167_round.** The two transforms undo each other if scipy's do. -/
theorem C167_round (s : Rft) (fht ifht : ℝ → ℝ → (ℕ → ℝ) → ℕ → ℝ) (h1 : ∀ a, fht s.dlog 0 (ifht s.dlog 0 a) = a)
    (h2 : ∀ a, ifht s.dlog 0 (fht s.dlog 0 a) = a) (a : ℕ → ℝ) :
    s.real2harm fht (s.harm2real ifht a) = a ∧ s.harm2real ifht (s.real2harm fht a) = a := by
  have hp := pi_pos
  constructor
  · funext i
    unfold Rft.real2harm Rft.harm2real
    have e : (fun j => ifht s.dlog 0 (fun i => a i / (2 * π) * s.l i) j / s.r j * s.r j) =
        ifht s.dlog 0 (fun i => a i / (2 * π) * s.l i) := by
      funext j
      rw [div_mul_cancel₀ _ (rft_r_pos s j).ne']
    rw [e, h1]
    have := (rft_l_pos s i).ne'
    field_simp
  · funext j
    unfold Rft.real2harm Rft.harm2real
    have e : (fun i => 2 * π * fht s.dlog 0 (fun j => a j * s.r j) i / s.l i / (2 * π) * s.l i) =
        fht s.dlog 0 (fun j => a j * s.r j) := by
      funext i
      have := (rft_l_pos s i).ne'
      field_simp
    rw [e, h2]
    have := (rft_r_pos s j).ne'
    field_simp

/-- **C167_grid.** The points: multipoles increase by equal steps in the logarithm; unpad keeps n of them, the centers of n
equal parts of the range asked for, so all within it; radii are the inverse multipoles in reverse; lind and rind give the
indices back. -/
theorem C167_grid (s : Rft) (hn : 0 < s.n) (h1 : 0 < s.l1) (h12 : s.l1 < s.l2) :
    (∀ i, log (s.l (i + 1)) - log (s.l i) = s.dlog) ∧ 0 < s.dlog ∧
    (∀ i < s.n, log (s.l (s.pad + i)) = log s.l1 + ((i : ℝ) + 1 / 2) / s.n * (log s.l2 - log s.l1) ∧
      s.l1 < s.l (s.pad + i) ∧ s.l (s.pad + i) < s.l2) ∧
    (∀ (α : Type) (g : ℕ → α), s.unpad ((List.range s.size).map g) = (List.range s.n).map fun i => g (s.pad + i)) ∧
    (∀ i < s.size, s.l i * s.r (s.size - 1 - i) = 1) ∧
    (∀ i : ℕ, s.lind (s.l i) = i) ∧ (∀ j < s.size, s.rind (s.r j) = j) := by
  have hn' : (0 : ℝ) < s.n := by exact_mod_cast hn
  have hl : log s.l1 < log s.l2 := log_lt_log h1 h12
  have hd : 0 < s.dlog := div_pos (by linarith) hn'
  have hdn : s.dlog * s.n = log s.l2 - log s.l1 := by unfold Rft.dlog; field_simp
  have hlog : ∀ i : ℕ, log (s.l i) = (log s.l2 + log s.l1) / 2 + (((i : ℝ) + 1) - (((s.n : ℝ) + 1) / 2 + s.pad)) * s.dlog := by
    intro i
    unfold Rft.l
    rw [log_exp]
  have hlr : ∀ j : ℕ, log (s.r j) = -log (s.l (s.size - 1 - j)) := by
    intro j
    unfold Rft.r
    rw [one_div, log_inv]
  refine ⟨?_, hd, ?_, ?_, ?_, ?_, ?_⟩
  · intro i
    rw [hlog, hlog]
    push_cast
    ring
  · intro i hi
    have e : log (s.l (s.pad + i)) = log s.l1 + ((i : ℝ) + 1 / 2) / s.n * (log s.l2 - log s.l1) := by
      rw [hlog, ← hdn]
      have : log s.l2 = log s.l1 + s.dlog * s.n := by linarith
      rw [this]
      field_simp
      push_cast
      ring
    have q0 : 0 < ((i : ℝ) + 1 / 2) / s.n := by positivity
    have q1 : ((i : ℝ) + 1 / 2) / s.n < 1 := by
      rw [div_lt_one hn']
      have : ((i + 1 : ℕ) : ℝ) ≤ s.n := by exact_mod_cast hi
      push_cast at this
      linarith
    refine ⟨e, ?_, ?_⟩
    · rw [← log_lt_log_iff h1 (rft_l_pos s _), e]
      nlinarith
    · rw [← log_lt_log_iff (rft_l_pos s _) (h1.trans h12), e]
      nlinarith
  · intro α g
    have hsz : s.size = s.n + 2 * s.pad := rfl
    unfold Rft.unpad
    split_ifs with h0
    · simp [hsz, h0]
    · apply List.ext_getElem
      · simp [hsz]; omega
      · intro i a b
        simp
  · intro i hi
    unfold Rft.r
    rw [show s.size - 1 - (s.size - 1 - i) = i by omega, mul_one_div, div_self (rft_l_pos s i).ne']
  · intro i
    unfold Rft.lind
    rw [hlog, hlog, div_eq_iff hd.ne']
    push_cast
    ring
  · intro j hj
    unfold Rft.rind
    rw [hlr, hlr, hlog, hlog, div_eq_iff hd.ne']
    have : ((s.size - 1 - j : ℕ) : ℝ) = (s.size : ℝ) - 1 - j := by
      rw [Nat.sub_sub, Nat.cast_sub (by omega)]
      push_cast; ring
    have h0 : ((s.size - 1 - 0 : ℕ) : ℝ) = (s.size : ℝ) - 1 := by
      rw [Nat.sub_zero, Nat.cast_sub (by omega)]
      push_cast; ring
    rw [this, h0]
    ring

/-- **C167_range.** A range of radii is turned into the range of their inverses, so the radii that are kept lie in it. -/
theorem C167_range (r1 r2 : ℝ) (n pad : ℕ) (hn : 0 < n) (h1 : 0 < r1) (h2 : r1 < r2) (i : ℕ) (hi : i < n) :
    let l := rftRange none (some (r1, r2))
    let s : Rft := ⟨l.1, l.2, n, pad⟩
    r1 < s.r (pad + i) ∧ s.r (pad + i) < r2 := by
  intro l s
  have g := (C167_grid s hn (show 0 < 1 / r2 by have := h1.trans h2; positivity) (show 1 / r2 < 1 / r1 from one_div_lt_one_div_of_lt h1 h2)).2.2.1
    (n - 1 - i) (show n - 1 - i < n by omega)
  have e : s.r (pad + i) = 1 / s.l (pad + (n - 1 - i)) := by
    unfold Rft.r
    have : s.size - 1 - (pad + i) = pad + (n - 1 - i) := by
      show n + 2 * pad - 1 - (pad + i) = _
      omega
    rw [this]
  rw [e]
  have hp := rft_l_pos s (pad + (n - 1 - i))
  have a : 1 / r2 < s.l (pad + (n - 1 - i)) := g.2.1
  have b : s.l (pad + (n - 1 - i)) < 1 / r1 := g.2.2
  constructor
  · rw [lt_div_iff₀ hp]
    rw [lt_div_iff₀ h1] at b
    linarith
  · have h3 : 0 < r2 := h1.trans h2
    rw [div_lt_iff₀ hp]
    rw [div_lt_iff₀ h3] at a
    linarith

/-! ### FFTLog -/

theorem logfft_x_pos (s : LogFft) (i : ℕ) : 0 < s.x i := exp_pos _
theorem logfft_k_pos (s : LogFft) (j : ℕ) : 0 < s.k j := by unfold LogFft.k; exact one_div_pos.2 (logfft_x_pos s _)

/-- **C167_fftlog_round.** ifft undoes fft for real functions, for every bias, if scipy's ifht undoes its fht for both
orders. -/
theorem C167_fftlog_round (s : LogFft) (fht ifht : ℝ → ℝ → ℝ → (ℕ → ℝ) → ℕ → ℝ)
    (h : ∀ mu a, ifht s.step mu s.bias (fht s.step mu s.bias a) = a)
    (hlin : ∀ mu (c : ℝ) a, ifht s.step mu s.bias (fun j => c * a j) = fun j => c * ifht s.step mu s.bias a j) (a : ℕ → ℝ) :
    s.ifft ifht (s.fft fht a) = a := by
  have hp := pi_pos
  have hk : ∀ j, s.kh j ≠ 0 := by
    intro j
    unfold LogFft.kh
    have := logfft_k_pos s j
    positivity
  have hxh : ∀ i, s.xh i ≠ 0 := fun i => (rpow_pos_of_pos (logfft_x_pos s i) _).ne'
  funext i
  unfold LogFft.ifft LogFft.fft
  simp only
  have e : ∀ mu, (fun j => fht s.step mu s.bias (fun i => a i * s.xh i) j / s.kh j * (s.kh j / 2)) =
      fun j => 1 / 2 * fht s.step mu s.bias (fun i => a i * s.xh i) j := by
    intro mu
    funext j
    have := hk j
    field_simp
  have e2 : (fun j => -(-(fht s.step (1 / 2) s.bias (fun i => a i * s.xh i) j / s.kh j) * (s.kh j / 2))) =
      fun j => fht s.step (1 / 2) s.bias (fun i => a i * s.xh i) j / s.kh j * (s.kh j / 2) := by
    funext j
    ring
  rw [e2, e, e, hlin, hlin, h, h]
  have := hxh i
  field_simp
  ring

/-- The points of FFTLog without the padding run from one end of the range to the other; wavenumbers are the inverses in
reverse. -/
theorem C167_fftlog_grid (s : LogFft) (hn : 2 ≤ s.n) (h1 : 0 < s.x1) (h2 : 0 < s.x2) :
    (∀ i : ℕ, log (s.x i) = log s.x1 + ((i : ℝ) - s.pad) * s.step) ∧ s.x s.pad = s.x1 ∧ s.x (s.pad + (s.n - 1)) = s.x2 ∧
    (∀ i < s.size, s.x i * s.k (s.size - 1 - i) = 1) := by
  have hn' : (2 : ℝ) ≤ s.n := by exact_mod_cast hn
  have hs : s.step * ((s.n : ℝ) - 1) = log s.x2 - log s.x1 := by
    unfold LogFft.step
    have : (s.n : ℝ) - 1 ≠ 0 := by linarith
    field_simp
  have hlog : ∀ i : ℕ, log (s.x i) = log s.x1 + ((i : ℝ) - s.pad) * s.step := by
    intro i
    unfold LogFft.x
    simp only
    rw [log_exp]
    have hsz : (s.size : ℝ) - 1 = (s.n : ℝ) - 1 + 2 * s.pad := by
      unfold LogFft.size; push_cast; ring
    have hne : (s.size : ℝ) - 1 ≠ 0 := by
      rw [hsz]
      have : (0 : ℝ) ≤ s.pad := Nat.cast_nonneg _
      have : (0 : ℝ) < (s.n : ℝ) - 1 + 2 * s.pad := by linarith
      exact this.ne'
    have e : log s.x2 + s.step * s.pad - (log s.x1 - s.step * s.pad) = s.step * ((s.size : ℝ) - 1) := by
      rw [hsz, mul_add, hs]; ring
    rw [e, mul_div_assoc, div_self hne]
    ring
  refine ⟨hlog, ?_, ?_, ?_⟩
  · apply log_injOn_pos (logfft_x_pos s _) h1
    rw [hlog]; ring
  · apply log_injOn_pos (logfft_x_pos s _) h2
    rw [hlog, Nat.cast_add, Nat.cast_sub (by omega), Nat.cast_one]
    linear_combination hs
  · intro i hi
    unfold LogFft.k
    rw [show s.size - 1 - (s.size - 1 - i) = i by omega, mul_one_div, div_self (logfft_x_pos s i).ne']

/-- **C167_fftlog.** Without bias, fft is ∫ a(x) exp(-ikx) dx over the positive numbers, wherever scipy's fht is exact. -/
theorem C167_fftlog (s : LogFft) (fht : ℝ → ℝ → ℝ → (ℕ → ℝ) → ℕ → ℝ) (a : ℝ → ℝ) (j : ℕ) (hb : s.bias = 0)
    (hx : ∀ mu, mu = -1 / 2 ∨ mu = 1 / 2 → fht s.step mu 0 (fun i => a (s.x i) * s.x i ^ (1 / 2 : ℝ)) j =
      hankel (besselHalf mu) (fun x => a x * x ^ (1 / 2 : ℝ)) (s.k j)) :
    s.fft fht (fun i => a (s.x i)) j =
      (∫ x in Ioi (0 : ℝ), a x * cos (s.k j * x), -∫ x in Ioi (0 : ℝ), a x * sin (s.k j * x)) := by
  have hp := pi_pos
  have hk := logfft_k_pos s j
  unfold LogFft.fft LogFft.kh LogFft.xh
  simp only [hb, sub_zero, add_zero]
  rw [hx _ (Or.inl rfl), hx _ (Or.inr rfl)]
  have key : ∀ t : ℝ → ℝ, ∀ J : ℝ → ℝ, (∀ x, 0 < x → J (s.k j * x) = √(2 / (π * (s.k j * x))) * t (s.k j * x)) →
      hankel J (fun x => a x * x ^ (1 / 2 : ℝ)) (s.k j) / (s.k j ^ (1 / 2 : ℝ) / (π / 2) ^ (1 / 2 : ℝ)) =
        ∫ x in Ioi (0 : ℝ), a x * t (s.k j * x) := by
    intro t J hJ
    unfold hankel
    rw [← integral_div]
    refine setIntegral_congr_fun measurableSet_Ioi ?_
    intro x hx0
    have hx1 : (0 : ℝ) < x := hx0
    simp only
    rw [hJ x hx1, ← sqrt_eq_rpow, ← sqrt_eq_rpow, ← sqrt_eq_rpow]
    have e : √(2 / (π * (s.k j * x))) = 1 / (√(π / 2) * √(s.k j) * √x) := by
      rw [show 2 / (π * (s.k j * x)) = 1 / (π / 2 * s.k j * x) by field_simp, sqrt_div (by norm_num), sqrt_one,
        sqrt_mul (by positivity), sqrt_mul (by positivity)]
    rw [e]
    have h1 : √(π / 2) ≠ 0 := (sqrt_pos.2 (by positivity)).ne'
    have h2 : √(s.k j) ≠ 0 := (sqrt_pos.2 hk).ne'
    have h3 : √x ≠ 0 := (sqrt_pos.2 hx1).ne'
    have h4 : √(s.k j) * √(s.k j) = s.k j := mul_self_sqrt hk.le
    have h5 : s.k j / (√(s.k j) * √(s.k j)) = 1 := by rw [h4, div_self hk.ne']
    calc a x * √x * (1 / (√(π / 2) * √(s.k j) * √x) * t (s.k j * x)) * s.k j / (√(s.k j) / √(π / 2))
        = a x * t (s.k j * x) * (s.k j / (√(s.k j) * √(s.k j))) := by field_simp
      _ = a x * t (s.k j * x) := by rw [h5, mul_one]
  rw [key cos _ (by intro x _; unfold besselHalf; rw [if_pos (by norm_num)]),
    key sin _ (by intro x _; unfold besselHalf; rw [if_neg (by norm_num)])]

/-- **C167_krange_refuted.** krange does not give the wavenumbers asked for: the range is swapped but not inverted. For
krange=[1,4] all wavenumbers are at most 1. -/
theorem C167_krange_refuted : ∃ r, logFftRange none (some (1, 4)) = some r ∧ ∀ n, 2 ≤ n → ∀ i < n,
    (⟨r.1, r.2, n, 0, 0⟩ : LogFft).k i ≤ 1 := by
  refine ⟨(4, 1), rfl, ?_⟩
  intro n hn i hi
  have hn' : (2 : ℝ) ≤ n := by exact_mod_cast hn
  set s : LogFft := ⟨4, 1, n, 0, 0⟩ with hs
  obtain ⟨g, -, -, -⟩ := C167_fftlog_grid s hn (by norm_num [hs]) (by norm_num [hs])
  have hlog : 0 ≤ log (s.x (s.size - 1 - i)) := by
    rw [g]
    simp only [hs, LogFft.size, LogFft.step, log_one, zero_sub, Nat.mul_zero, Nat.add_zero, Nat.cast_zero, sub_zero]
    have h4 : 0 < log (4 : ℝ) := log_pos (by norm_num)
    have hi' : ((n - 1 - i : ℕ) : ℝ) ≤ (n : ℝ) - 1 := by
      rw [Nat.sub_sub, Nat.cast_sub (by omega)]
      push_cast
      have : (0 : ℝ) ≤ i := Nat.cast_nonneg _
      linarith
    have hd : (0 : ℝ) < (n : ℝ) - 1 := by linarith
    have e : log 4 + ((n - 1 - i : ℕ) : ℝ) * (-log 4 / ((n : ℝ) - 1)) = log 4 * (1 - ((n - 1 - i : ℕ) : ℝ) / ((n : ℝ) - 1)) := by
      field_simp
      ring
    rw [e]
    have : ((n - 1 - i : ℕ) : ℝ) / ((n : ℝ) - 1) ≤ 1 := (div_le_one hd).2 hi'
    exact mul_nonneg h4.le (by linarith)
  have h1 : 1 ≤ s.x (s.size - 1 - i) := by
    by_contra hc
    have := log_neg (logfft_x_pos s _) (not_le.1 hc)
    linarith
  show 1 / s.x (s.size - 1 - i) ≤ 1
  rw [div_le_one (logfft_x_pos s _)]
  exact h1

/-- Non-vacuity: the default grid of the radial transform. -/
example : (0 : ℝ) < (rftRange none none).1 ∧ (rftRange none none).1 < (rftRange none none).2 := by
  constructor <;> norm_num [rftRange]

end Pixell
