import Verif.Props.Matched
import Mathlib.Tactic.IntervalCases

/-
Properties C108 (matched filters for noise whose depth varies over the map, and for several maps at once) and C109
(real-space powers of profiles).
-/
namespace Pixell
open Complex
open scoped ComplexConjugate

/-! ### C109 -/

/-- C109: the real-space square of a profile is its periodic convolution with itself, divided by the area of the map. -/
theorem C109_square {ny nx : Nat} {A : ℝ} (hA : 0 < A) {B : Nat → Nat → ℝ} (hB : EvenProf ny nx B) (ky kx : Nat) (hy : ky < ny) (hx : kx < nx) :
    uHprofRpow ny nx A B 2 ky kx =
      ((∑ j ∈ grid ny nx, B j.1 j.2 * B ((ky + (ny - j.1)) % ny) ((kx + (nx - j.2)) % nx) : ℝ) : ℂ) / (A * (ny * nx)) := by
  have h0y : 0 < ny := by omega
  have h0x : 0 < nx := by omega
  have h1 : (ny : ℂ) ≠ 0 := by exact_mod_cast h0y.ne'
  have h2 : (nx : ℂ) ≠ 0 := by exact_mod_cast h0x.ne'
  have hA' : (A : ℂ) ≠ 0 := by exact_mod_cast hA.ne'
  rw [rpow_eq ny nx h0y h0x A hA]
  -- the profile moved by j
  set S : Nat × Nat → Nat → Nat → ℂ := fun j a b => (B ((a + (ny - j.1)) % ny) ((b + (nx - j.2)) % nx) : ℂ) with hS
  have fwd : ∀ {n j l : Nat}, j < n → l < n → (((l + j) % n) + (n - j)) % n = l := by
    intro n j l hj hl
    rw [Nat.mod_add_mod, show l + j + (n - j) = l + n by omega, Nat.add_mod_right, Nat.mod_eq_of_lt hl]
  have bwd : ∀ {n j l : Nat}, j < n → l < n → (((l + (n - j)) % n) + j) % n = l := by
    intro n j l hj hl
    rw [Nat.mod_add_mod, show l + (n - j) + j = l + n by omega, Nat.add_mod_right, Nat.mod_eq_of_lt hl]
  have wadd : ∀ j ∈ grid ny nx, ∀ l ∈ grid ny nx, ∀ y x : Nat,
      wave ny nx ((l.1 + j.1) % ny, (l.2 + j.2) % nx) y x = wave ny nx l y x * wave ny nx j y x := by
    intro j hj l hl y x
    have key : ∀ {n a : Nat}, 0 < n → ∃ m : ℤ, (((a % n : Nat)) : ℝ) = (a : ℝ) + n * m := by
      intro n a _
      refine ⟨-((a / n : Nat) : ℤ), ?_⟩
      have := Nat.mod_add_div a n
      have h : ((a % n : Nat) : ℝ) + n * ((a / n : Nat) : ℝ) = a := by exact_mod_cast this
      generalize a / n = t at *
      push_cast; linarith
    obtain ⟨a, ha⟩ := key (n := ny) (a := l.1 + j.1) h0y
    obtain ⟨b, hb⟩ := key (n := nx) (a := l.2 + j.2) h0x
    unfold wave
    simp only [ha, hb]
    rw [← cis_add]
    have g1 : (ny : ℝ) ≠ 0 := by positivity
    have g2 : (nx : ℝ) ≠ 0 := by positivity
    have : (((l.1 + j.1 : Nat) : ℝ) + ny * a) * ((y : ℤ) : ℝ) / ny + (((l.2 + j.2 : Nat) : ℝ) + nx * b) * ((x : ℤ) : ℝ) / nx =
        ((l.1 : ℝ) * ((y : ℤ) : ℝ) / ny + (l.2 : ℝ) * ((x : ℤ) : ℝ) / nx + ((j.1 : ℝ) * ((y : ℤ) : ℝ) / ny + (j.2 : ℝ) * ((x : ℤ) : ℝ) / nx)) +
          ((a * y + b * x : ℤ) : ℝ) := by
      push_cast; field_simp; ring
    rw [this, cis_add_int]
  have hSi : ∀ j ∈ grid ny nx, ∀ y x : Nat, ifft2 ny nx (S j) y x = ((ny : ℂ) * nx) * (wave ny nx j y x * kerC ny nx (cplx B) y x) := by
    intro j hj y x
    have hj' := mem_grid.1 hj
    rw [ifft2_eq]
    have : ∑ k ∈ grid ny nx, S j k.1 k.2 * wave ny nx k y x = ∑ l ∈ grid ny nx, (B l.1 l.2 : ℂ) * (wave ny nx l y x * wave ny nx j y x) := by
      symm
      refine Finset.sum_nbij' (fun l => ((l.1 + j.1) % ny, (l.2 + j.2) % nx))
        (fun k => ((k.1 + (ny - j.1)) % ny, (k.2 + (nx - j.2)) % nx)) ?_ ?_ ?_ ?_ ?_
      · intro l _; rw [mem_grid]; exact ⟨Nat.mod_lt _ h0y, Nat.mod_lt _ h0x⟩
      · intro l _; rw [mem_grid]; exact ⟨Nat.mod_lt _ h0y, Nat.mod_lt _ h0x⟩
      · intro l hl; have hl' := mem_grid.1 hl
        exact Prod.ext (fwd hj'.1 hl'.1) (fwd hj'.2 hl'.2)
      · intro l hl; have hl' := mem_grid.1 hl
        exact Prod.ext (bwd hj'.1 hl'.1) (bwd hj'.2 hl'.2)
      · intro l hl
        have hl' := mem_grid.1 hl
        rw [wadd j hj l hl, hS]
        simp only []
        rw [fwd hj'.1 hl'.1, fwd hj'.2 hl'.2]
    rw [this]
    unfold kerC cplx
    rw [mul_div_assoc', mul_div_assoc']
    rw [eq_div_iff (mul_ne_zero h1 h2), Finset.mul_sum, Finset.mul_sum, Finset.sum_mul]
    apply Finset.sum_congr rfl
    intro l _; ring
  have hsq : (cplx fun y x : Nat => (kerR ny nx B y x / A) ^ 2) =
      fun y x => (∑ j ∈ grid ny nx, (B j.1 j.2 : ℂ) * ifft2 ny nx (S j) y x) * ((1 : ℂ) / ((A : ℂ) ^ 2 * (ny * nx) ^ 2)) := by
    funext y x
    rw [Finset.sum_congr rfl fun j hj => by rw [hSi j hj y x]]
    have e : ∑ j ∈ grid ny nx, (B j.1 j.2 : ℂ) * ((ny : ℂ) * nx * (wave ny nx j y x * kerC ny nx (cplx B) y x)) =
        ((ny : ℂ) * nx) ^ 2 * (kerC ny nx (cplx B) y x * kerC ny nx (cplx B) y x) := by
      have : ((ny : ℂ) * nx) * kerC ny nx (cplx B) y x = ∑ j ∈ grid ny nx, (B j.1 j.2 : ℂ) * wave ny nx j y x := by
        unfold kerC cplx; field_simp
      rw [pow_two, show (ny : ℂ) * nx * (ny * nx) * (kerC ny nx (cplx B) y x * kerC ny nx (cplx B) y x) =
        (((ny : ℂ) * nx) * kerC ny nx (cplx B) y x) * ((ny : ℂ) * nx * kerC ny nx (cplx B) y x) by ring, this, Finset.sum_mul]
      apply Finset.sum_congr rfl
      intro j _
      rw [← this]; ring
    rw [e, kerC_real hB]
    unfold cplx
    push_cast
    field_simp
  rw [hsq, fft2_mul]
  have lin : fft2 ny nx (fun y x => ∑ j ∈ grid ny nx, (B j.1 j.2 : ℂ) * ifft2 ny nx (S j) y x) ky kx =
      ∑ j ∈ grid ny nx, (B j.1 j.2 : ℂ) * fft2 ny nx (ifft2 ny nx (S j)) ky kx := by
    rw [fft2_eq]
    simp only [Finset.sum_mul]
    rw [Finset.sum_comm]
    apply Finset.sum_congr rfl
    intro j _
    rw [fft2_eq, Finset.mul_sum]
    exact Finset.sum_congr rfl fun p _ => by ring
  rw [lin, Finset.sum_congr rfl fun j _ => by rw [fft2_ifft2 ny nx (S j) ky kx hy hx]]
  rw [hS]
  push_cast
  rw [Finset.sum_congr rfl fun j _ => show (B j.1 j.2 : ℂ) * ((ny : ℂ) * nx * (B ((ky + (ny - j.1)) % ny) ((kx + (nx - j.2)) % nx) : ℂ)) =
    ((ny : ℂ) * nx) * ((B j.1 j.2 : ℂ) * (B ((ky + (ny - j.1)) % ny) ((kx + (nx - j.2)) % nx) : ℂ)) by ring, ← Finset.mul_sum]
  field_simp

/-- C109: the first power is the profile itself, for every even profile. -/
theorem C109_first {ny nx : Nat} {A : ℝ} (hA : 0 < A) {B : Nat → Nat → ℝ} (hB : EvenProf ny nx B) (ky kx : Nat) (hy : ky < ny) (hx : kx < nx) :
    uHprofRpow ny nx A B 1 ky kx = B ky kx := by
  have h0y : 0 < ny := by omega
  have h0x : 0 < nx := by omega
  have h1 : (ny : ℂ) ≠ 0 := by exact_mod_cast h0y.ne'
  have h2 : (nx : ℂ) ≠ 0 := by exact_mod_cast h0x.ne'
  have hA' : (A : ℂ) ≠ 0 := by exact_mod_cast hA.ne'
  rw [rpow_eq ny nx h0y h0x A hA]
  have e : (cplx fun y x : Nat => (kerR ny nx B y x / A) ^ 1) = fun y x => ifft2 ny nx (cplx B) y x * ((1 : ℂ) / (A * (ny * nx))) := by
    funext y x
    rw [ifft2_ker ny nx h0y h0x, kerC_real hB]
    unfold cplx
    push_cast
    field_simp
  rw [e, fft2_mul, fft2_ifft2 ny nx (cplx B) ky kx hy hx]
  unfold cplx
  field_simp

example : EvenProf 4 4 (fun ky kx => if ky % 2 = 0 ∧ kx % 2 = 0 then 1 else 1 / 2) := by
  intro ky kx hy hx
  interval_cases ky <;> interval_cases kx <;> norm_num

/-- For a beam that is not symmetric the first power is not the profile: only its real-space real part survives. -/
theorem C109_odd_refuted : ∃ B : Nat → Nat → ℝ, uHprofRpow 1 3 1 B 1 0 1 ≠ B 0 1 := by
  refine ⟨fun _ kx => if kx = 1 then 1 else 0, ?_⟩
  rw [rpow_eq 1 3 (by norm_num) (by norm_num) 1 one_pos]
  have hk : ∀ y x : Nat, kerR 1 3 (fun _ kx => if kx = 1 then 1 else 0) y x = Real.cos (2 * Real.pi * (x / 3)) / 3 := by
    intro y x
    rw [kerR_cos]
    simp [grid, Finset.sum_product, Finset.sum_range_succ, wave_re]
  have h3 : fft2 1 3 (cplx fun y x => (kerR 1 3 (fun _ kx => if kx = 1 then 1 else 0) y x / 1) ^ 1) 0 1 =
      (1 / 3 : ℂ) * ∑ x ∈ Finset.range 3, (Real.cos (2 * Real.pi * (x / 3)) : ℂ) * cis (-((x : ℝ) / 3)) := by
    unfold fft2 dftRaw cplx
    simp only [hk]
    simp [Finset.sum_range_succ, cis_zero]
    ring
  rw [h3]
  intro hc
  have hre := congrArg Complex.re hc
  have c1 : Real.cos (2 * Real.pi * (1 / 3)) = -(1 / 2) := by
    rw [show 2 * Real.pi * (1 / 3) = Real.pi - Real.pi / 3 by ring, Real.cos_pi_sub, Real.cos_pi_div_three]
  have c2 : Real.cos (2 * Real.pi * (2 / 3)) = -(1 / 2) := by
    rw [show 2 * Real.pi * (2 / 3) = Real.pi / 3 + Real.pi by ring, Real.cos_add_pi, Real.cos_pi_div_three]
  have r : ∀ t : ℝ, (cis (-t)).re = Real.cos (2 * Real.pi * t) := by
    intro t
    unfold cis
    rw [show (2 * (Real.pi : ℂ) * ((-t : ℝ) : ℂ) * I) = ((-(2 * Real.pi * t) : ℝ) : ℂ) * I by push_cast; ring, Complex.exp_ofReal_mul_I_re,
      Real.cos_neg]
  rw [show ((1 : ℝ) : ℂ) * ((1 / 3 : ℂ) * ∑ x ∈ Finset.range 3, (Real.cos (2 * Real.pi * (x / 3)) : ℂ) * cis (-((x : ℝ) / 3))) =
    ((1 / 3 : ℝ) : ℂ) * ∑ x ∈ Finset.range 3, (Real.cos (2 * Real.pi * (x / 3)) : ℂ) * cis (-((x : ℝ) / 3)) by push_cast; ring,
    Complex.re_ofReal_mul, Complex.re_sum] at hre
  simp only [Complex.re_ofReal_mul, r, Finset.sum_range_succ, Finset.sum_range_zero, if_true, Complex.ofReal_re] at hre
  push_cast at hre
  rw [c1, c2] at hre
  norm_num at hre

/-! ### C108 -/

theorem sq_ker {ny nx : Nat} {A : ℝ} (hA : 0 < A) (hy : 0 < ny) (hx : 0 < nx) (B m : Nat → Nat → ℝ) (y x : Nat) :
    uMap2harmAdj ny nx A (uHmul (uHprofRpow ny nx A B 2) (uHarm2mapAdj ny nx A m)) y x =
      (∑ p ∈ grid ny nx, m p.1 p.2 * kerR ny nx B (y - p.1) (x - p.2) ^ 2) / A := by
  rw [filter_adj_adj ny nx hy hx A hA, Finset.sum_div]
  apply Finset.sum_congr rfl
  intro p _
  rw [kerC_rpow ny nx hy hx A hA, Complex.ofReal_re]
  have := hA.ne'
  field_simp

theorem ker_sq_sum {ny nx : Nat} (hy : 0 < ny) (hx : 0 < nx) {B : Nat → Nat → ℝ} (hB : EvenProf ny nx B) (y x : ℤ) :
    ∑ p ∈ grid ny nx, kerR ny nx B (y - p.1) (x - p.2) ^ 2 = kerR ny nx (fun ky kx => B ky kx ^ 2) 0 0 := by
  have h := kerR_conv hy hx hB hB y x y x
  rw [sub_self, sub_self] at h
  rw [show (fun ky kx => B ky kx ^ 2) = fun ky kx => B ky kx * B ky kx from funext fun _ => funext fun _ => pow_two _, ← h]
  apply Finset.sum_congr rfl
  intro p _
  rw [pow_two, kerR_sub ny nx B p.1]

/-- C108: for white noise of any depth, however it varies over the map, filtering the map of a single source of flux `F`
gives rho/kappa = F at its pixel when that pixel has the mean area, and F·A/area in general. kappa is never negative. -/
theorem C108_white {ny nx : Nat} {A : ℝ} (hA : 0 < A) {Om B ivar : Nat → Nat → ℝ} {F : ℝ}
    {py px : Nat} (hy : py < ny) (hx : px < nx) {obs : Nat → Nat → ℝ} (ho : Observes ny nx Om B F py px obs) :
    (Om py px = A → whiteRho ny nx A Om B ivar obs py px = F * whiteKappa ny nx A Om B ivar py px) ∧
    whiteRho ny nx A Om B ivar obs py px = F * (A / Om py px) * whiteKappa ny nx A Om B ivar py px ∧
    ((∀ y x, 0 ≤ ivar y x) → (∀ y x, 0 < Om y x) → ∀ y x, 0 ≤ whiteKappa ny nx A Om B ivar y x) := by
  have h0y : 0 < ny := by omega
  have h0x : 0 < nx := by omega
  have key : whiteRho ny nx A Om B ivar obs py px = F * (A / Om py px) * whiteKappa ny nx A Om B ivar py px := by
    unfold whiteRho whiteKappa
    rw [sq_ker hA h0y h0x, filter_adj_adj ny nx h0y h0x A hA]
    have e : ∀ p ∈ grid ny nx, ivar p.1 p.2 * obs p.1 p.2 * (kerC ny nx (cplx B) (py - p.1) (px - p.2)).re =
        F / Om py px * (ivar p.1 p.2 * kerR ny nx B (py - p.1) (px - p.2) ^ 2) := by
      intro p hp
      rw [mem_grid] at hp
      rw [ho.eq hy hx p.1 p.2 hp.1 hp.2, kerR_sub, show (kerC ny nx (cplx B) (py - p.1) (px - p.2)).re = kerR ny nx B (py - p.1) (px - p.2) from rfl]
      ring
    rw [Finset.sum_congr rfl e, ← Finset.mul_sum]
    have := hA.ne'
    by_cases h : Om py px = 0
    · rw [h]; simp
    · field_simp
  refine ⟨fun h => by rw [key, h, div_self hA.ne', mul_one], key, ?_⟩
  intro hv hO y x
  unfold whiteKappa
  rw [sq_ker hA h0y h0x]
  apply mul_nonneg (one_div_pos.2 (hO y x)).le
  apply div_nonneg _ hA.le
  exact Finset.sum_nonneg fun p _ => mul_nonneg (hv _ _) (sq_nonneg _)

theorem dual_chain {ny nx : Nat} {A : ℝ} (hA : 0 < A) (hy : 0 < ny) (hx : 0 < nx) {B C : Nat → Nat → ℝ} (hB : EvenProf ny nx B)
    (hC : EvenProf ny nx C) (m : Nat → Nat → ℝ) (y x : Nat) :
    uHarm2map ny nx A (uHmul (cplx B) (uMap2harm ny nx A (uHarm2map ny nx A (uHmul (cplx C) (uMap2harm ny nx A m))))) y x =
      ∑ q ∈ grid ny nx, m q.1 q.2 * kerR ny nx (fun ky kx => B ky kx * C ky kx) (y - q.1) (x - q.2) := by
  rw [filter_h2m_m2h ny nx hy hx A hA]
  simp only [filter_h2m_m2h ny nx hy hx A hA, Finset.sum_mul]
  rw [Finset.sum_comm]
  apply Finset.sum_congr rfl
  intro q _
  rw [← kerR_conv hy hx hB hC, Finset.mul_sum]
  apply Finset.sum_congr rfl
  intro p _
  unfold kerR; ring

/-- C108: the same for the dual noise model, for every depth map and every noise spectrum, with pixels of equal area. -/
theorem C108_dual {ny nx : Nat} {A : ℝ} (hA : 0 < A) {Om B ivar iC : Nat → Nat → ℝ} (hOm : ∀ y x, y < ny → x < nx → Om y x = A)
    (hB : EvenProf ny nx B) (hC : EvenProf ny nx iC) {F : ℝ} {py px : Nat} (hy : py < ny) (hx : px < nx) {obs : Nat → Nat → ℝ}
    (ho : Observes ny nx Om B F py px obs) :
    dualRho ny nx A Om B ivar iC obs py px = F * dualKappa ny nx A Om B ivar iC py px := by
  have h0y : 0 < ny := by omega
  have h0x : 0 < nx := by omega
  have hh : EvenProf ny nx fun ky kx => Real.sqrt (iC ky kx) := hC.comp Real.sqrt
  unfold dualRho dualKappa
  simp only []
  rw [dual_chain hA h0y h0x hB hh, sq_ker hA h0y h0x, hOm py px hy hx]
  have e1 : ∀ q ∈ grid ny nx, uHarm2map ny nx A (uHmul (cplx fun ky kx => Real.sqrt (iC ky kx)) (uMap2harm ny nx A obs)) q.1 q.2 =
      F / A * kerR ny nx (fun ky kx => B ky kx * Real.sqrt (iC ky kx)) (py - q.1) (px - q.2) := by
    intro q _
    rw [filter_h2m_m2h ny nx h0y h0x A hA]
    have e2 : ∀ p ∈ grid ny nx, obs p.1 p.2 * (kerC ny nx (cplx fun ky kx => Real.sqrt (iC ky kx)) (q.1 - p.1) (q.2 - p.2)).re =
        F / A * (kerR ny nx B (py - p.1) (px - p.2) * kerR ny nx (fun ky kx => Real.sqrt (iC ky kx)) (p.1 - q.1) (p.2 - q.2)) := by
      intro p hp
      rw [mem_grid] at hp
      rw [ho.eq hy hx p.1 p.2 hp.1 hp.2, hOm py px hy hx, kerR_sub ny nx B,
        show (kerC ny nx (cplx fun ky kx => Real.sqrt (iC ky kx)) (q.1 - p.1) (q.2 - p.2)).re =
          kerR ny nx (fun ky kx => Real.sqrt (iC ky kx)) (q.1 - p.1) (q.2 - p.2) from rfl, kerR_sub ny nx (fun ky kx => Real.sqrt (iC ky kx))]
      ring
    rw [Finset.sum_congr rfl e2, ← Finset.mul_sum, kerR_conv h0y h0x hB hh]
  have e3 : ∀ q ∈ grid ny nx, ivar q.1 q.2 * uHarm2map ny nx A (uHmul (cplx fun ky kx => Real.sqrt (iC ky kx)) (uMap2harm ny nx A obs)) q.1 q.2 *
      kerR ny nx (fun ky kx => B ky kx * Real.sqrt (iC ky kx)) (py - q.1) (px - q.2) =
      F / (A * A) * (ivar q.1 q.2 * Om q.1 q.2 * kerR ny nx (fun ky kx => B ky kx * Real.sqrt (iC ky kx)) (py - q.1) (px - q.2) ^ 2) := by
    intro q hq
    rw [e1 q hq]
    rw [mem_grid] at hq
    rw [hOm q.1 q.2 hq.1 hq.2]
    have := hA.ne'
    field_simp
  rw [Finset.sum_congr rfl e3, ← Finset.mul_sum]
  have := hA.ne'
  field_simp

theorem lowcorrRho_ker {ny nx : Nat} {A : ℝ} (hA : 0 < A) (hy : 0 < ny) (hx : 0 < nx) (Om B ivar iC m : Nat → Nat → ℝ) (y x : Nat) :
    lowcorrRho ny nx A Om B ivar iC m y x = (∑ p ∈ grid ny nx, ∑ q ∈ grid ny nx,
      kerR ny nx B (y - p.1) (x - p.2) * Real.sqrt (ivar p.1 p.2) * (kerR ny nx iC (p.1 - q.1) (p.2 - q.2) * Real.sqrt (ivar q.1 q.2) * m q.1 q.2)) /
        Om y x := by
  unfold lowcorrRho
  simp only []
  rw [filter_h2m_adj ny nx hy hx A hA]
  simp only [filter_adj_m2h ny nx hy hx A hA]
  congr 1
  rw [Finset.mul_sum]
  apply Finset.sum_congr rfl
  intro p _
  have hA' := hA.ne'
  rw [show 1 / A * (Real.sqrt (ivar p.1 p.2) * (A * ∑ q ∈ grid ny nx, Real.sqrt (ivar q.1 q.2) * m q.1 q.2 *
      (kerC ny nx (cplx iC) (p.1 - q.1) (p.2 - q.2)).re) * (kerC ny nx (cplx B) (y - p.1) (x - p.2)).re) =
    (kerC ny nx (cplx B) (y - p.1) (x - p.2)).re * Real.sqrt (ivar p.1 p.2) *
      ∑ q ∈ grid ny nx, Real.sqrt (ivar q.1 q.2) * m q.1 q.2 * (kerC ny nx (cplx iC) (p.1 - q.1) (p.2 - q.2)).re by field_simp]
  rw [Finset.mul_sum]
  apply Finset.sum_congr rfl
  intro q _
  unfold kerR; ring

theorem lowcorrKappa_ker {ny nx : Nat} {A : ℝ} (hA : 0 < A) (hy : 0 < ny) (hx : 0 < nx) (Om B ivar iC : Nat → Nat → ℝ)
    (hOm : ∀ y x, y < ny → x < nx → Om y x = A) (y x : Nat) (hy' : y < ny) (hx' : x < nx) :
    lowcorrKappa ny nx A Om B ivar iC y x = (∑ p ∈ grid ny nx, ivar p.1 p.2 * kerR ny nx B (y - p.1) (x - p.2) ^ 2) *
      ((∑ k ∈ grid ny nx, B k.1 k.2 ^ 2 * iC k.1 k.2) / ∑ k ∈ grid ny nx, B k.1 k.2 ^ 2) / A ^ 2 := by
  unfold lowcorrKappa
  rw [sq_ker hA hy hx, hOm y x hy' hx']
  have hn : (0 : ℝ) < (ny : ℝ) * nx := by positivity
  have hpi := Real.pi_pos
  have hw : uSumHprof ny nx A (fun ky kx => B ky kx ^ 2 * iC ky kx) / uSumHprof ny nx A (fun ky kx => B ky kx ^ 2) =
      (∑ k ∈ grid ny nx, B k.1 k.2 ^ 2 * iC k.1 k.2) / ∑ k ∈ grid ny nx, B k.1 k.2 ^ 2 := by
    unfold uSumHprof
    simp only []
    rw [sum_grid2 ny nx fun ky kx => B ky kx ^ 2 * iC ky kx * (1 / (A * (↑ny * ↑nx) / (4 * Real.pi))),
      sum_grid2 ny nx fun ky kx => B ky kx ^ 2 * (1 / (A * (↑ny * ↑nx) / (4 * Real.pi))), ← Finset.sum_mul, ← Finset.sum_mul,
      mul_div_mul_right _ _ (by positivity)]
  rw [hw]
  set w := (∑ k ∈ grid ny nx, B k.1 k.2 ^ 2 * iC k.1 k.2) / ∑ k ∈ grid ny nx, B k.1 k.2 ^ 2
  rw [Finset.sum_congr rfl fun p hp => show ivar p.1 p.2 * Om p.1 p.2 * w * kerR ny nx B (y - p.1) (x - p.2) ^ 2 =
    (ivar p.1 p.2 * kerR ny nx B (y - p.1) (x - p.2) ^ 2) * (A * w) by
      rw [mem_grid] at hp; rw [hOm p.1 p.2 hp.1 hp.2]; ring, ← Finset.sum_mul]
  have := hA.ne'
  field_simp

/-- The sum of squares is not zero unless the beam vanishes. -/
theorem beam_zero {ny nx : Nat} {B : Nat → Nat → ℝ} (h : ∑ k ∈ grid ny nx, B k.1 k.2 ^ 2 = 0) (dy dx : ℤ) : kerR ny nx B dy dx = 0 := by
  have h2 := (Finset.sum_eq_zero_iff_of_nonneg fun k _ => sq_nonneg (B k.1 k.2)).1 h
  rw [kerR_cos, Finset.sum_eq_zero, zero_div]
  intro k hk
  have := h2 k hk
  rw [pow_eq_zero_iff two_ne_zero] at this
  rw [this, zero_mul]

theorem kerR_const {ny nx : Nat} (hy : 0 < ny) (hx : 0 < nx) (c : ℝ) (m : Nat × Nat → ℝ) (p : Nat × Nat) (hp : p ∈ grid ny nx) :
    ∑ q ∈ grid ny nx, kerR ny nx (fun _ _ => c) (p.1 - q.1) (p.2 - q.2) * m q = c * m p := by
  have h1 : (ny : ℂ) ≠ 0 := by exact_mod_cast hy.ne'
  have h2 : (nx : ℂ) ≠ 0 := by exact_mod_cast hx.ne'
  have hp' := mem_grid.1 hp
  have h := ifft2_filter ny nx hy hx (cplx fun _ _ => c) (cplx fun y x => m (y, x)) p.1 p.2
  have e : (fun ky kx => cplx (fun _ _ => c) ky kx * fft2 ny nx (cplx fun y x => m (y, x)) ky kx) =
      fun ky kx => fft2 ny nx (cplx fun y x => m (y, x)) ky kx * (c : ℂ) := by funext ky kx; unfold cplx; ring
  rw [e, ifft2_mul, show ifft2 ny nx (fun ky kx => fft2 ny nx (cplx fun y x => m (y, x)) ky kx) p.1 p.2 =
    ifft2 ny nx (fft2 ny nx (cplx fun y x => m (y, x))) p.1 p.2 from rfl, ifft2_fft2 ny nx _ p.1 p.2 hp'.1 hp'.2] at h
  have h3 : (c : ℂ) * (m p : ℂ) = ∑ q ∈ grid ny nx, (m q : ℂ) * kerC ny nx (cplx fun _ _ => c) (p.1 - q.1) (p.2 - q.2) := by
    apply mul_left_cancel₀ (mul_ne_zero h1 h2)
    unfold cplx at h ⊢
    rw [← h]; ring
  have h4 := congrArg Complex.re h3
  rw [Complex.re_sum, ← Complex.ofReal_mul, Complex.ofReal_re] at h4
  simp only [Complex.re_ofReal_mul] at h4
  rw [h4]
  exact Finset.sum_congr rfl fun q _ => by unfold kerR; ring

/-- C108, with the part missing that C108_lowcorr_refuted shows to be false: the filter for correlated noise of varying
depth is exact, with pixels of equal area, when the depth is the same everywhere or when the noise is uncorrelated. -/
theorem C108_lowcorr_partial {ny nx : Nat} {A : ℝ} (hA : 0 < A) {Om B ivar iC : Nat → Nat → ℝ} (hOm : ∀ y x, y < ny → x < nx → Om y x = A)
    (hB : EvenProf ny nx B) (hC : EvenProf ny nx iC) (hv : ∀ y x, 0 ≤ ivar y x) {F : ℝ} {py px : Nat} (hy : py < ny) (hx : px < nx)
    {obs : Nat → Nat → ℝ} (ho : Observes ny nx Om B F py px obs)
    (hflat : (∃ v, ∀ y x, ivar y x = v) ∨ (∃ c, ∀ ky kx, iC ky kx = c)) :
    lowcorrRho ny nx A Om B ivar iC obs py px = F * lowcorrKappa ny nx A Om B ivar iC py px := by
  have h0y : 0 < ny := by omega
  have h0x : 0 < nx := by omega
  have hA' := hA.ne'
  have hn : (0 : ℝ) < (ny : ℝ) * nx := by positivity
  rw [lowcorrRho_ker hA h0y h0x, lowcorrKappa_ker hA h0y h0x Om B ivar iC hOm py px hy hx, hOm py px hy hx]
  have hobs : ∀ q ∈ grid ny nx, obs q.1 q.2 = F / A * kerR ny nx B (py - q.1) (px - q.2) := by
    intro q hq
    rw [mem_grid] at hq
    rw [ho.eq hy hx q.1 q.2 hq.1 hq.2, hOm py px hy hx, kerR_sub]
  by_cases hz : ∑ k ∈ grid ny nx, B k.1 k.2 ^ 2 = 0
  · have := beam_zero hz
    simp only [this]
    simp
  rcases hflat with ⟨v, hv'⟩ | ⟨c, hc⟩
  · have hv0 : 0 ≤ v := by rw [← hv' 0 0]; exact hv 0 0
    have hs := Real.mul_self_sqrt hv0
    simp only [hv']
    have e : ∑ p ∈ grid ny nx, ∑ q ∈ grid ny nx, kerR ny nx B (py - p.1) (px - p.2) * Real.sqrt v *
        (kerR ny nx iC (p.1 - q.1) (p.2 - q.2) * Real.sqrt v * obs q.1 q.2) =
        v * (F / A) * kerR ny nx (fun ky kx => B ky kx ^ 2 * iC ky kx) 0 0 := by
      have e1 : ∀ q ∈ grid ny nx, ∑ p ∈ grid ny nx, kerR ny nx B (py - p.1) (px - p.2) * Real.sqrt v *
          (kerR ny nx iC (p.1 - q.1) (p.2 - q.2) * Real.sqrt v * obs q.1 q.2) =
          v * (F / A) * (kerR ny nx (fun ky kx => B ky kx * iC ky kx) (py - q.1) (px - q.2) * kerR ny nx B (q.1 - py) (q.2 - px)) := by
        intro q hq
        rw [← kerR_conv h0y h0x hB hC, hobs q hq, kerR_sub ny nx B q.1, Finset.sum_mul, Finset.mul_sum]
        apply Finset.sum_congr rfl
        intro p _
        linear_combination kerR ny nx B (py - p.1) (px - p.2) * kerR ny nx iC (p.1 - q.1) (p.2 - q.2) *
          (F / A * kerR ny nx B (py - q.1) (px - q.2)) * hs
      rw [Finset.sum_comm, Finset.sum_congr rfl e1, ← Finset.mul_sum, kerR_conv h0y h0x (hB.mul hC) hB, sub_self, sub_self]
      congr 2
      funext ky kx; ring
    rw [e, ← Finset.mul_sum, ker_sq_sum h0y h0x hB, kerR_zero, kerR_zero]
    field_simp
  · have e : ∑ p ∈ grid ny nx, ∑ q ∈ grid ny nx, kerR ny nx B (py - p.1) (px - p.2) * Real.sqrt (ivar p.1 p.2) *
        (kerR ny nx iC (p.1 - q.1) (p.2 - q.2) * Real.sqrt (ivar q.1 q.2) * obs q.1 q.2) =
        c * (F / A) * ∑ p ∈ grid ny nx, ivar p.1 p.2 * kerR ny nx B (py - p.1) (px - p.2) ^ 2 := by
      rw [Finset.mul_sum]
      apply Finset.sum_congr rfl
      intro p hp
      have hs := Real.mul_self_sqrt (hv p.1 p.2)
      have e1 := kerR_const h0y h0x c (fun q => Real.sqrt (ivar q.1 q.2) * obs q.1 q.2) p hp
      have e2 : iC = fun _ _ => c := funext fun _ => funext fun _ => hc _ _
      rw [← Finset.mul_sum, e2]
      simp only [mul_assoc] at e1 ⊢
      rw [e1, hobs p hp]
      linear_combination c * (F / A) * kerR ny nx B (py - p.1) (px - p.2) ^ 2 * hs
    rw [e]
    have e3 : ∑ k ∈ grid ny nx, B k.1 k.2 ^ 2 * iC k.1 k.2 = c * ∑ k ∈ grid ny nx, B k.1 k.2 ^ 2 := by
      rw [Finset.mul_sum]; exact Finset.sum_congr rfl fun k _ => by rw [hc]; ring
    rw [e3]
    field_simp

/-- C108: with high_acc the flux of a source in the central pixel is exact for every depth map, noise spectrum and pixel
area, wherever the approximate kappa does not vanish. -/
theorem C108_high_acc {ny nx : Nat} (hy : 0 < ny) (hx : 0 < nx) {A : ℝ} (hA : 0 < A) {Om B ivar iC : Nat → Nat → ℝ} {F : ℝ}
    {obs : Nat → Nat → ℝ} (ho : Observes ny nx Om B F (ny / 2) (nx / 2) obs)
    (hk : lowcorrKappa ny nx A Om B ivar iC (ny / 2) (nx / 2) ≠ 0) :
    lowcorrRho ny nx A Om B ivar iC obs (ny / 2) (nx / 2) = F * lowcorrKappaAcc ny nx A Om B ivar iC (ny / 2) (nx / 2) := by
  have hpy : ny / 2 < ny := by omega
  have hpx : nx / 2 < nx := by omega
  have hacc : lowcorrKappaAcc ny nx A Om B ivar iC (ny / 2) (nx / 2) = lowcorrExact ny nx A Om B ivar iC (ny / 2) (nx / 2) := by
    unfold lowcorrKappaAcc
    rw [div_div_eq_mul_div, mul_div_assoc, mul_comm, div_mul_cancel₀ _ hk]
  rw [hacc]
  set s : Nat → Nat → ℝ := uHarm2map ny nx A (uHmul (cplx B) (uMap2harm ny nx A
    (fun y x => (if y = ny / 2 ∧ x = nx / 2 then (1 : ℝ) else 0) / Om y x))) with hs
  have hse : ∀ q ∈ grid ny nx, obs q.1 q.2 = F * s q.1 q.2 := by
    intro q hq
    rw [mem_grid] at hq
    rw [ho.eq hpy hpx q.1 q.2 hq.1 hq.2, hs, filter_h2m_m2h ny nx hy hx A hA, Finset.sum_eq_single (ny / 2, nx / 2)]
    · simp only [and_self, if_true]; unfold kerR; ring
    · intro b _ hb
      rw [if_neg, zero_div, zero_mul]
      rintro ⟨h1, h2⟩; exact hb (Prod.ext h1 h2)
    · intro h; exact absurd (mem_grid.2 ⟨hpy, hpx⟩) h
  have hex : lowcorrExact ny nx A Om B ivar iC (ny / 2) (nx / 2) = lowcorrRho ny nx A Om B ivar iC s (ny / 2) (nx / 2) := rfl
  rw [hex, lowcorrRho_ker hA hy hx, lowcorrRho_ker hA hy hx, mul_div_assoc', Finset.mul_sum]
  congr 1
  apply Finset.sum_congr rfl
  intro p _
  rw [Finset.mul_sum]
  apply Finset.sum_congr rfl
  intro q hq
  rw [hse q hq]; ring

/-- C108, for the remaining filter: exact when the depth is the same everywhere. -/
theorem C108_smooth_partial {ny nx : Nat} {A : ℝ} (hA : 0 < A) {Om B ivar iC : Nat → Nat → ℝ} (hOm : ∀ y x, y < ny → x < nx → Om y x = A)
    (hB : EvenProf ny nx B) (hC : EvenProf ny nx iC) {v : ℝ} (hv0 : 0 ≤ v) (hv : ∀ y x, ivar y x = v) {F : ℝ} {py px : Nat} (hy : py < ny)
    (hx : px < nx) {obs : Nat → Nat → ℝ} (ho : Observes ny nx Om B F py px obs) :
    smoothRho ny nx A Om B ivar iC obs py px = F * smoothKappa ny nx A Om B ivar iC py px := by
  have h0y : 0 < ny := by omega
  have h0x : 0 < nx := by omega
  have hA' := hA.ne'
  have hs := Real.mul_self_sqrt hv0
  have hk : smoothKappa ny nx A Om B ivar iC py px = v * constcovKappa ny nx A B iC * (1 / A) := by
    unfold smoothKappa constcovKappa
    rw [hv, hOm py px hy hx]
  rw [hk, constcovKappa_ker]
  unfold smoothRho
  simp only [hv]
  rw [show (fun ky kx => ((B ky kx * iC ky kx : ℝ) : ℂ)) = cplx fun ky kx => B ky kx * iC ky kx from rfl,
    filter_adj_adj ny nx h0y h0x A hA, hOm py px hy hx]
  have e : ∀ p ∈ grid ny nx, Real.sqrt v * obs p.1 p.2 * (kerC ny nx (cplx fun ky kx => B ky kx * iC ky kx) (py - p.1) (px - p.2)).re =
      Real.sqrt v * (F / A) * (kerR ny nx (fun ky kx => B ky kx * iC ky kx) (py - p.1) (px - p.2) * kerR ny nx B (p.1 - py) (p.2 - px)) := by
    intro p hp
    rw [mem_grid] at hp
    rw [ho.eq hy hx p.1 p.2 hp.1 hp.2, hOm py px hy hx]
    unfold kerR; ring
  rw [Finset.sum_congr rfl e, ← Finset.mul_sum, kerR_conv h0y h0x (hB.mul hC) hB, sub_self, sub_self]
  rw [show (fun ky kx => B ky kx * iC ky kx * B ky kx) = fun ky kx => B ky kx ^ 2 * iC ky kx from funext fun _ => funext fun _ => by ring]
  generalize kerR ny nx (fun ky kx => B ky kx ^ 2 * iC ky kx) 0 0 = K
  generalize Real.sqrt v = r at *
  rw [← hs]
  field_simp

theorem one_two_ker (H : Nat → Nat → ℝ) (y p : Nat) (x q : Nat) (hx : x < 2) (hq : q < 2) (hy : y < 1) (hp : p < 1) :
    kerR 1 2 H ((y : ℤ) - p) ((x : ℤ) - q) = (H 0 0 + (if x = q then 1 else -1) * H 0 1) / 2 := by
  rw [kerR_cos]
  have h1 : y = 0 := by omega
  have h2 : p = 0 := by omega
  subst h1 h2
  simp only [grid, Finset.sum_product, Finset.sum_range_succ, Finset.sum_range_zero, wave_re]
  interval_cases x <;> interval_cases q <;> norm_num [Real.cos_pi]
  · rw [show 2 * Real.pi * (1 / 2) = Real.pi by ring, Real.cos_pi]; norm_num
  · rw [show 2 * Real.pi * (1 / 2) = Real.pi by ring, Real.cos_pi]; norm_num

/-- C108 fails for correlated noise of varying depth: with a beam of two pixels, inverse variances 1 and 4 and noise only
on the larger scale, the flux is 9/10 of the true one. -/
theorem C108_lowcorr_refuted : ∃ (B ivar iC obs : Nat → Nat → ℝ), EvenProf 1 2 B ∧ EvenProf 1 2 iC ∧ (∀ y x, 0 < ivar y x) ∧
    (∀ ky kx, 0 ≤ iC ky kx) ∧ Observes 1 2 (fun _ _ => 1) B 1 0 0 obs ∧
    lowcorrRho 1 2 1 (fun _ _ => 1) B ivar iC obs 0 0 = 9 / 10 * lowcorrKappa 1 2 1 (fun _ _ => 1) B ivar iC 0 0 ∧
    0 < lowcorrKappa 1 2 1 (fun _ _ => 1) B ivar iC 0 0 := by
  have ev : EvenProf 1 2 fun _ kx => if kx = 0 then (1 : ℝ) else 0 := by
    intro ky kx hy hx; interval_cases ky; interval_cases kx <;> norm_num
  have hker : ∀ p q : Nat × Nat, p ∈ grid 1 2 → q ∈ grid 1 2 → kerR 1 2 (fun _ kx => if kx = 0 then (1 : ℝ) else 0) ((p.1 : ℤ) - q.1) ((p.2 : ℤ) - q.2) = 1 / 2 := by
    intro p q hp hq
    rw [mem_grid] at hp hq
    rw [one_two_ker _ p.1 q.1 p.2 q.2 hp.2 hq.2 hp.1 hq.1]; norm_num
  have h00 : ((0, 0) : Nat × Nat) ∈ grid 1 2 := mem_grid.2 ⟨by norm_num, by norm_num⟩
  have hkap : lowcorrKappa 1 2 1 (fun _ _ => 1) (fun _ kx => if kx = 0 then (1 : ℝ) else 0) (fun _ x => if x = 0 then 1 else 4)
      (fun _ kx => if kx = 0 then (1 : ℝ) else 0) 0 0 = 5 / 4 := by
    rw [lowcorrKappa_ker one_pos (by norm_num) (by norm_num) _ _ _ _ (fun _ _ _ _ => rfl) 0 0 (by norm_num) (by norm_num)]
    rw [Finset.sum_congr rfl fun p hp => by rw [hker (0, 0) p h00 hp]]
    simp only [grid, Finset.sum_product, Finset.sum_range_succ, Finset.sum_range_zero]
    norm_num
  refine ⟨fun _ kx => if kx = 0 then 1 else 0, fun _ x => if x = 0 then 1 else 4, fun _ kx => if kx = 0 then 1 else 0, _, ev, ev, ?_, ?_,
    observes_exists 1 2 (fun _ _ => 1) ev 1 (py := 0) (px := 0) (by norm_num) (by norm_num), ?_, ?_⟩
  · intro y x; simp only []; split_ifs <;> norm_num
  · intro y x; simp only []; split_ifs <;> norm_num
  · rw [hkap, lowcorrRho_ker one_pos (by norm_num) (by norm_num)]
    have e : ∀ p ∈ grid 1 2, ∀ q ∈ grid 1 2,
        kerR 1 2 (fun _ kx => if kx = 0 then (1 : ℝ) else 0) (((0 : Nat) : ℤ) - p.1) (((0 : Nat) : ℤ) - p.2) * Real.sqrt (if p.2 = 0 then 1 else 4) *
        (kerR 1 2 (fun _ kx => if kx = 0 then (1 : ℝ) else 0) (p.1 - q.1) (p.2 - q.2) * Real.sqrt (if q.2 = 0 then 1 else 4) *
          (1 / 1 * kerR 1 2 (fun _ kx => if kx = 0 then (1 : ℝ) else 0) ((q.1 : ℤ) - ((0 : Nat) : ℤ)) ((q.2 : ℤ) - ((0 : Nat) : ℤ)))) =
        1 / 8 * ((if p.2 = 0 then 1 else 2) * (if q.2 = 0 then 1 else 2)) := by
      intro p hp q hq
      rw [hker (0, 0) p h00 hp, hker p q hp hq, hker q (0, 0) hq h00]
      have hs : ∀ n : Nat, Real.sqrt (if n = 0 then 1 else 4) = if n = 0 then 1 else 2 := by
        intro n; split_ifs
        · simp
        · rw [show (4 : ℝ) = 2 ^ 2 by norm_num, Real.sqrt_sq (by norm_num)]
      rw [hs, hs]; ring
    rw [Finset.sum_congr rfl fun p hp => Finset.sum_congr rfl fun q hq => e p hp q hq]
    simp only [grid, Finset.sum_product, Finset.sum_range_succ, Finset.sum_range_zero]
    norm_num
  · rw [hkap]; norm_num

/-! ### Several maps at once -/

theorem uMap2harmAdj_sum (n ny nx : Nat) (A : ℝ) (f : Nat → Nat → Nat → ℂ) (y x : Nat) :
    uMap2harmAdj ny nx A (fun ky kx => ∑ j ∈ Finset.range n, f j ky kx) y x = ∑ j ∈ Finset.range n, uMap2harmAdj ny nx A (f j) y x := by
  unfold uMap2harmAdj enmapIfft
  simp only [ifft2_eq, Finset.sum_mul]
  rw [Finset.sum_comm, Complex.re_sum]

theorem uHarm2map_sum (n ny nx : Nat) (A : ℝ) (f : Nat → Nat → Nat → ℂ) (y x : Nat) :
    uHarm2map ny nx A (fun ky kx => ∑ j ∈ Finset.range n, f j ky kx) y x = ∑ j ∈ Finset.range n, uHarm2map ny nx A (f j) y x := by
  unfold uHarm2map enmapIfft
  simp only [ifft2_eq, Finset.sum_mul]
  rw [Finset.sum_comm, Complex.re_sum]

/-- C108: for several maps with any constant noise covariance between them, and a source with flux F j in map j, the
filter gives rho = kappa·F at the pixel of the source, so that solving this system returns the fluxes. -/
theorem C108_multi {n ny nx : Nat} {A : ℝ} (hA : 0 < A) {beam : Nat → Nat → Nat → ℝ} {iN : Nat → Nat → Nat → Nat → ℝ}
    (hB : ∀ i, EvenProf ny nx (beam i)) (hN : ∀ i j, EvenProf ny nx (iN i j)) {F : Nat → ℝ} {py px : Nat} (hy : py < ny) (hx : px < nx)
    {obs : Nat → Nat → Nat → ℝ} (ho : ∀ j, Observes ny nx (fun _ _ => A) (beam j) (F j) py px (obs j)) (i : Nat) :
    nmatCovRho n ny nx A beam iN obs i py px = ∑ j ∈ Finset.range n, nmatCovKappa ny nx A beam iN i j * F j := by
  have h0y : 0 < ny := by omega
  have h0x : 0 < nx := by omega
  have hA' := hA.ne'
  have hAc : (A : ℂ) ≠ 0 := by exact_mod_cast hA'
  have hpi := Real.pi_ne_zero
  have hn : ((ny : ℝ) * nx) ≠ 0 := by positivity
  unfold nmatCovRho
  simp only []
  have e : (fun ky kx => (beam i ky kx : ℂ) * ((∑ j ∈ Finset.range n, (iN i j ky kx : ℂ) * uMap2harm ny nx A (obs j) ky kx) / (A : ℂ))) =
      fun ky kx => ∑ j ∈ Finset.range n, uHmul (cplx fun ky kx => beam i ky kx * iN i j ky kx / A) (uMap2harm ny nx A (obs j)) ky kx := by
    funext ky kx
    rw [Finset.sum_div, Finset.mul_sum]
    apply Finset.sum_congr rfl
    intro j _
    unfold uHmul cplx
    push_cast; ring
  rw [e, uMap2harmAdj_sum]
  apply Finset.sum_congr rfl
  intro j _
  rw [filter_adj_m2h ny nx h0y h0x A hA]
  have e2 : ∀ p ∈ grid ny nx, obs j p.1 p.2 * (kerC ny nx (cplx fun ky kx => beam i ky kx * iN i j ky kx / A) (py - p.1) (px - p.2)).re =
      F j / A * (kerR ny nx (fun ky kx => beam i ky kx * iN i j ky kx / A) (py - p.1) (px - p.2) * kerR ny nx (beam j) (p.1 - py) (p.2 - px)) := by
    intro p hp
    rw [mem_grid] at hp
    rw [(ho j).eq hy hx p.1 p.2 hp.1 hp.2]
    unfold kerR; ring
  have ev : EvenProf ny nx fun ky kx => beam i ky kx * iN i j ky kx / A := ((hB i).mul (hN i j)).comp fun z => z / A
  rw [Finset.sum_congr rfl e2, ← Finset.mul_sum, kerR_conv h0y h0x ev (hB j), sub_self, sub_self, kerR_zero]
  unfold nmatCovKappa
  simp only []
  rw [sum_grid2 ny nx fun ky kx => beam i ky kx * iN i j ky kx * beam j ky kx]
  have e3 : ∑ k ∈ grid ny nx, beam i k.1 k.2 * iN i j k.1 k.2 / A * beam j k.1 k.2 =
      (∑ k ∈ grid ny nx, beam i k.1 k.2 * iN i j k.1 k.2 * beam j k.1 k.2) / A := by
    rw [Finset.sum_div]; exact Finset.sum_congr rfl fun k _ => by ring
  rw [e3]
  field_simp

theorem nmatCorrRho_ker {n ny nx : Nat} {A : ℝ} (hA : 0 < A) {beam : Nat → Nat → Nat → ℝ} {iN : Nat → Nat → Nat → Nat → ℝ}
    {ivar : Nat → Nat → Nat → ℝ} {v : Nat → ℝ} (hv : ∀ i y x, ivar i y x = v i)
    (hB : ∀ i, EvenProf ny nx (beam i)) (hN : ∀ i j, EvenProf ny nx (iN i j)) {F : Nat → ℝ} {py px : Nat} (hy : py < ny) (hx : px < nx)
    {obs : Nat → Nat → Nat → ℝ} (ho : ∀ j, Observes ny nx (fun _ _ => A) (beam j) (F j) py px (obs j)) (i : Nat) :
    nmatCorrRho n ny nx A beam iN ivar obs i py px = ∑ j ∈ Finset.range n,
      Real.sqrt (v i) * Real.sqrt (v j) * (kerR ny nx (fun ky kx => beam i ky kx * iN i j ky kx * beam j ky kx) 0 0 / A ^ 2) * F j := by
  have h0y : 0 < ny := by omega
  have h0x : 0 < nx := by omega
  have hA' := hA.ne'
  have hAc : (A : ℂ) ≠ 0 := by exact_mod_cast hA'
  unfold nmatCorrRho
  simp only [hv]
  have e : ∀ i : Nat, (fun ky kx => (beam i ky kx : ℂ) * (uMap2harm ny nx A (fun y x => Real.sqrt (v i) * uHarm2map ny nx A
      (fun ky kx => ∑ j ∈ Finset.range n, (iN i j ky kx : ℂ) * uMap2harm ny nx A (fun y x => Real.sqrt (v j) * obs j y x) ky kx) y x) ky kx / (A : ℂ))) =
      uHmul (cplx fun ky kx => beam i ky kx / A) (uMap2harm ny nx A (fun y x => Real.sqrt (v i) * uHarm2map ny nx A
      (fun ky kx => ∑ j ∈ Finset.range n, (iN i j ky kx : ℂ) * uMap2harm ny nx A (fun y x => Real.sqrt (v j) * obs j y x) ky kx) y x)) := by
    intro i; funext ky kx
    unfold uHmul cplx
    push_cast; ring
  rw [e, filter_h2m_m2h ny nx h0y h0x A hA]
  have e1 : ∀ p ∈ grid ny nx, uHarm2map ny nx A (fun ky kx => ∑ j ∈ Finset.range n, (iN i j ky kx : ℂ) *
      uMap2harm ny nx A (fun y x => Real.sqrt (v j) * obs j y x) ky kx) p.1 p.2 =
      ∑ j ∈ Finset.range n, Real.sqrt (v j) * (F j / A) * kerR ny nx (fun ky kx => iN i j ky kx * beam j ky kx) (p.1 - py) (p.2 - px) := by
    intro p _
    rw [uHarm2map_sum]
    apply Finset.sum_congr rfl
    intro j _
    rw [show (fun ky kx => (iN i j ky kx : ℂ) * uMap2harm ny nx A (fun y x => Real.sqrt (v j) * obs j y x) ky kx) =
      uHmul (cplx (iN i j)) (uMap2harm ny nx A (fun y x => Real.sqrt (v j) * obs j y x)) from rfl, filter_h2m_m2h ny nx h0y h0x A hA,
      ← kerR_conv h0y h0x (hN i j) (hB j), Finset.mul_sum]
    apply Finset.sum_congr rfl
    intro q hq
    rw [mem_grid] at hq
    rw [(ho j).eq hy hx q.1 q.2 hq.1 hq.2]
    unfold kerR; ring
  rw [Finset.sum_congr rfl fun p hp => by rw [e1 p hp]]
  simp only [Finset.mul_sum, Finset.sum_mul]
  rw [Finset.sum_comm]
  apply Finset.sum_congr rfl
  intro j _
  have ev : EvenProf ny nx fun ky kx => beam i ky kx / A := (hB i).comp fun z => z / A
  have e2 := kerR_conv h0y h0x ev ((hN i j).mul (hB j)) py px py px
  rw [sub_self, sub_self] at e2
  have e3 : ∀ p ∈ grid ny nx, Real.sqrt (v i) * (Real.sqrt (v j) * (F j / A) * kerR ny nx (fun ky kx => iN i j ky kx * beam j ky kx) (p.1 - py) (p.2 - px)) *
      (kerC ny nx (cplx fun ky kx => beam i ky kx / A) (py - p.1) (px - p.2)).re = Real.sqrt (v i) * Real.sqrt (v j) * (F j / A) *
      (kerR ny nx (fun ky kx => beam i ky kx / A) (py - p.1) (px - p.2) * kerR ny nx (fun ky kx => iN i j ky kx * beam j ky kx) (p.1 - py) (p.2 - px)) := by
    intro p _; unfold kerR; ring
  rw [Finset.sum_congr rfl e3, ← Finset.mul_sum, e2, kerR_zero, kerR_zero]
  have e4 : ∑ k ∈ grid ny nx, beam i k.1 k.2 / A * (iN i j k.1 k.2 * beam j k.1 k.2) =
      (∑ k ∈ grid ny nx, beam i k.1 k.2 * iN i j k.1 k.2 * beam j k.1 k.2) / A := by
    rw [Finset.sum_div]; exact Finset.sum_congr rfl fun k _ => by ring
  rw [e4]
  field_simp

theorem nmatCorrKappa_ker {ny nx : Nat} {A : ℝ} (hA : 0 < A) (hy : 0 < ny) (hx : 0 < nx) {beam : Nat → Nat → Nat → ℝ}
    {iN : Nat → Nat → Nat → Nat → ℝ} {ivar : Nat → Nat → Nat → ℝ} {v : Nat → ℝ} (hv : ∀ i y x, ivar i y x = v i) (hv0 : ∀ i, 0 ≤ v i)
    (hB : ∀ i, EvenProf ny nx (beam i)) (i j : Nat) (y x : Nat) :
    nmatCorrKappa ny nx A beam iN ivar i j y x =
      Real.sqrt (v i * (kerR ny nx (fun ky kx => beam i ky kx ^ 2) 0 0 / A ^ 2)) *
      ((∑ k ∈ grid ny nx, beam i k.1 k.2 * iN i j k.1 k.2 * beam j k.1 k.2) / ∑ k ∈ grid ny nx, beam i k.1 k.2 * beam j k.1 k.2) *
      Real.sqrt (v j * (kerR ny nx (fun ky kx => beam j ky kx ^ 2) 0 0 / A ^ 2)) := by
  have hA' := hA.ne'
  have one : ∀ i y x, max (uHarm2map ny nx A (fun ky kx => (rpowMap ny nx A (beam i) 2 ky kx : ℂ) * uMap2harm ny nx A (ivar i) ky kx) y x / A) 0 =
      v i * (kerR ny nx (fun ky kx => beam i ky kx ^ 2) 0 0 / A ^ 2) := by
    intro i y x
    rw [show (fun ky kx => (rpowMap ny nx A (beam i) 2 ky kx : ℂ) * uMap2harm ny nx A (ivar i) ky kx) =
      uHmul (cplx (rpowMap ny nx A (beam i) 2)) (uMap2harm ny nx A (ivar i)) from rfl, filter_h2m_m2h ny nx hy hx A hA]
    have e1 : ∑ p ∈ grid ny nx, ivar i p.1 p.2 * (kerC ny nx (cplx (rpowMap ny nx A (beam i) 2)) (y - p.1) (x - p.2)).re =
        v i * rpowMap ny nx A (beam i) 2 0 0 := by
      simp only [hv]
      rw [← Finset.mul_sum]
      congr 1
      exact kerR_sum hy hx (rpowMap ny nx A (beam i) 2) y x
    rw [e1]
    have e2 : rpowMap ny nx A (beam i) 2 0 0 = kerR ny nx (fun ky kx => beam i ky kx ^ 2) 0 0 / A := by
      have : rpowMap ny nx A (beam i) 2 0 0 = (uHprofRpow ny nx A (beam i) 2 0 0).re := by
        unfold rpowMap uHprofRpow
        rw [Complex.re_mul_ofReal]
      rw [this, rpow_eq ny nx hy hx A hA, Complex.re_ofReal_mul, fft2_eq, Complex.re_sum]
      have h3 := ker_sq_sum hy hx (hB i) 0 0
      rw [← h3, Finset.mul_sum, Finset.sum_div]
      apply Finset.sum_congr rfl
      intro p _
      have hw : wave ny nx (0, 0) (-(p.1 : ℤ)) (-(p.2 : ℤ)) = 1 := by unfold wave; simp [cis_zero]
      rw [hw, mul_one]
      unfold cplx
      rw [Complex.ofReal_re, show (0 : ℤ) - p.1 = -(p.1 : ℤ) by ring, show (0 : ℤ) - p.2 = -(p.2 : ℤ) by ring, kerR_neg]
      field_simp
    rw [e2]
    have hk : 0 ≤ kerR ny nx (fun ky kx => beam i ky kx ^ 2) 0 0 := by
      rw [kerR_zero]; exact div_nonneg (Finset.sum_nonneg fun k _ => sq_nonneg _) (by positivity)
    rw [max_eq_left (by have := hv0 i; positivity)]
    field_simp
  unfold nmatCorrKappa
  simp only [one]
  rw [sum_grid2 ny nx fun ky kx => beam i ky kx * iN i j ky kx * beam j ky kx, sum_grid2 ny nx fun ky kx => beam i ky kx * beam j ky kx]

/-- C108, with the part missing that C108_corr_refuted shows to be false: for a single map of constant depth the filter of
the correlated noise model is exact. -/
theorem C108_corr_partial {ny nx : Nat} {A : ℝ} (hA : 0 < A) {beam : Nat → Nat → Nat → ℝ} {iN : Nat → Nat → Nat → Nat → ℝ}
    {ivar : Nat → Nat → Nat → ℝ} {v : Nat → ℝ} (hv : ∀ i y x, ivar i y x = v i) (hv0 : ∀ i, 0 ≤ v i)
    (hB : ∀ i, EvenProf ny nx (beam i)) (hN : ∀ i j, EvenProf ny nx (iN i j)) {F : Nat → ℝ} {py px : Nat} (hy : py < ny) (hx : px < nx)
    {obs : Nat → Nat → Nat → ℝ} (ho : ∀ j, Observes ny nx (fun _ _ => A) (beam j) (F j) py px (obs j)) :
    nmatCorrRho 1 ny nx A beam iN ivar obs 0 py px = nmatCorrKappa ny nx A beam iN ivar 0 0 py px * F 0 := by
  have h0y : 0 < ny := by omega
  have h0x : 0 < nx := by omega
  have hn : (0 : ℝ) < (ny : ℝ) * nx := by positivity
  rw [nmatCorrRho_ker hA hv hB hN hy hx ho, nmatCorrKappa_ker hA h0y h0x hv hv0 hB, Finset.sum_range_one]
  have hk : 0 ≤ kerR ny nx (fun ky kx => beam 0 ky kx ^ 2) 0 0 := by
    rw [kerR_zero]; exact div_nonneg (Finset.sum_nonneg fun k _ => sq_nonneg _) (by positivity)
  have h1 : Real.sqrt (v 0) * Real.sqrt (v 0) = v 0 := Real.mul_self_sqrt (hv0 0)
  have h2 : 0 ≤ v 0 * (kerR ny nx (fun ky kx => beam 0 ky kx ^ 2) 0 0 / A ^ 2) := by have := hv0 0; positivity
  have h3 := Real.mul_self_sqrt h2
  rw [h1]
  congr 1
  rw [mul_right_comm, h3]
  by_cases hz : ∑ k ∈ grid ny nx, beam 0 k.1 k.2 ^ 2 = 0
  · have hz' : ∑ k ∈ grid ny nx, beam 0 k.1 k.2 * iN 0 0 k.1 k.2 * beam 0 k.1 k.2 = 0 := by
      apply Finset.sum_eq_zero
      intro k hk'
      have := (Finset.sum_eq_zero_iff_of_nonneg fun k _ => sq_nonneg (beam 0 k.1 k.2)).1 hz k hk'
      rw [pow_eq_zero_iff two_ne_zero] at this
      rw [this]; ring
    rw [kerR_zero, hz', kerR_zero, hz]; simp
  · rw [kerR_zero, kerR_zero]
    simp only [pow_two (beam 0 _ _)] at hz ⊢
    have := hA.ne'
    generalize ∑ k ∈ grid ny nx, beam 0 k.1 k.2 * beam 0 k.1 k.2 = S at *
    generalize ∑ k ∈ grid ny nx, beam 0 k.1 k.2 * iN 0 0 k.1 k.2 * beam 0 k.1 k.2 = T at *
    have hn' := hn.ne'
    generalize (ny : ℝ) * nx = N at *
    field_simp

/-- C108 fails for the correlated noise model of several maps, even with constant depth, when their beams differ: the
off-diagonal elements of kappa are too large by √2 in this case of two maps with two pixels, so that rho is not
kappa·F. -/
theorem C108_corr_refuted : ∃ (beam : Nat → Nat → Nat → ℝ) (iN : Nat → Nat → Nat → Nat → ℝ) (obs : Nat → Nat → Nat → ℝ) (F : Nat → ℝ),
    (∀ i, EvenProf 1 2 (beam i)) ∧ (∀ i j, EvenProf 1 2 (iN i j)) ∧ (∀ i j ky kx, iN i j ky kx = iN j i ky kx) ∧
    (∀ j, Observes 1 2 (fun _ _ => 1) (beam j) (F j) 0 0 (obs j)) ∧
    nmatCorrRho 2 1 2 1 beam iN (fun _ _ _ => 1) obs 0 0 0 ≠ ∑ j ∈ Finset.range 2, nmatCorrKappa 1 2 1 beam iN (fun _ _ _ => 1) 0 j 0 0 * F j := by
  set beam : Nat → Nat → Nat → ℝ := fun i _ kx => if i = 1 ∧ kx = 1 then 0 else 1 with hb
  set iN : Nat → Nat → Nat → Nat → ℝ := fun i j _ _ => if i = j then 1 else 1 / 2 with hi
  have hB : ∀ i, EvenProf 1 2 (beam i) := by
    intro i ky kx hy hx; interval_cases ky; interval_cases kx <;> norm_num [hb]
  have hN : ∀ i j, EvenProf 1 2 (iN i j) := fun i j ky kx _ _ => rfl
  have ho : ∀ j : Nat, Observes 1 2 (fun _ _ => (1 : ℝ)) (beam j) (if j = 1 then 1 else 0) 0 0 _ :=
    fun j => observes_exists 1 2 (fun _ _ => 1) (hB j) (if j = 1 then 1 else 0) (py := 0) (px := 0) (by norm_num) (by norm_num)
  refine ⟨beam, iN, _, fun j => if j = 1 then 1 else 0, hB, hN, ?_, ho, ?_⟩
  · intro i j ky kx; rw [hi]; simp only [eq_comm]
  · rw [nmatCorrRho_ker (v := fun _ => 1) one_pos (fun _ _ _ => rfl) hB hN (by norm_num) (by norm_num) ho]
    simp only [Finset.sum_range_succ, Finset.sum_range_zero]
    rw [nmatCorrKappa_ker (v := fun _ => 1) one_pos (by norm_num) (by norm_num) (fun _ _ _ => rfl) (fun _ => zero_le_one) hB 0 1]
    rw [kerR_zero, kerR_zero, kerR_zero, kerR_zero]
    simp only [grid, Finset.sum_product, Finset.sum_range_succ, Finset.sum_range_zero, hb, hi]
    norm_num
    intro hc
    have h2 : Real.sqrt 2 * Real.sqrt 2 = 2 := Real.mul_self_sqrt (by norm_num)
    have h3 : (0 : ℝ) < Real.sqrt 2 := by positivity
    have h4 : Real.sqrt 2 * (Real.sqrt 2)⁻¹ = 1 := mul_inv_cancel₀ h3.ne'
    have h5 : Real.sqrt 2 = 2 := by linear_combination 4 * Real.sqrt 2 * hc + 2 * h4
    rw [h5] at h2; norm_num at h2

end Pixell
