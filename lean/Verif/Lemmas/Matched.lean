import Verif.Model.Matched
import Verif.Lemmas.FlatFourier
import Verif.Props.FlatFourier
import Mathlib.Algebra.BigOperators.Field

/-
Lemmas about filters on two-dimensional periodic maps.
-/
namespace Pixell
open Complex
open scoped ComplexConjugate

/-- The pixels of a map. -/
def grid (ny nx : Nat) : Finset (Nat × Nat) := Finset.range ny ×ˢ Finset.range nx

theorem mem_grid {ny nx : Nat} {p : Nat × Nat} : p ∈ grid ny nx ↔ p.1 < ny ∧ p.2 < nx := by
  unfold grid; simp

theorem sum_grid2 {M : Type} [AddCommMonoid M] (ny nx : Nat) (f : Nat → Nat → M) :
    ∑ y ∈ Finset.range ny, ∑ x ∈ Finset.range nx, f y x = ∑ p ∈ grid ny nx, f p.1 p.2 := by
  unfold grid; rw [Finset.sum_product]

/-- The wave with wavenumber `k` at the displacement `d`. -/
noncomputable def wave (ny nx : Nat) (k : Nat × Nat) (dy dx : ℤ) : ℂ := cis ((k.1 : ℝ) * dy / ny + (k.2 : ℝ) * dx / nx)

/-- The real-space kernel of the filter with the profile `H`. -/
noncomputable def kerC (ny nx : Nat) (H : Nat → Nat → ℂ) (dy dx : ℤ) : ℂ :=
  (∑ k ∈ grid ny nx, H k.1 k.2 * wave ny nx k dy dx) / ((ny : ℂ) * nx)

/-- The kernel of a real profile, real part. -/
noncomputable def kerR (ny nx : Nat) (H : Nat → Nat → ℝ) (dy dx : ℤ) : ℝ := (kerC ny nx (cplx H) dy dx).re

theorem wave_add (ny nx : Nat) (k : Nat × Nat) (dy dx ey ex : ℤ) :
    wave ny nx k (dy + ey) (dx + ex) = wave ny nx k dy dx * wave ny nx k ey ex := by
  unfold wave; rw [← cis_add]; congr 1; push_cast; ring

theorem wave_neg (ny nx : Nat) (k : Nat × Nat) (dy dx : ℤ) : wave ny nx k (-dy) (-dx) = conj (wave ny nx k dy dx) := by
  unfold wave; rw [← cis_neg]; congr 1; push_cast; ring

theorem wave_zero (ny nx : Nat) (k : Nat × Nat) : wave ny nx k 0 0 = 1 := by
  unfold wave; simp [cis_zero]

theorem wave_period (ny nx : Nat) (hy : 0 < ny) (hx : 0 < nx) (k : Nat × Nat) (dy dx a b : ℤ) :
    wave ny nx k (dy + ny * a) (dx + nx * b) = wave ny nx k dy dx := by
  rw [wave_add]
  have : wave ny nx k (ny * a) (nx * b) = 1 := by
    unfold wave
    rw [cis_eq_one]
    refine ⟨k.1 * a + k.2 * b, ?_⟩
    have h1 : (ny : ℝ) ≠ 0 := by positivity
    have h2 : (nx : ℝ) ≠ 0 := by positivity
    push_cast; field_simp
  rw [this, mul_one]

theorem kerC_period (ny nx : Nat) (hy : 0 < ny) (hx : 0 < nx) (H : Nat → Nat → ℂ) (dy dx a b : ℤ) :
    kerC ny nx H (dy + ny * a) (dx + nx * b) = kerC ny nx H dy dx := by
  unfold kerC
  simp only [wave_period ny nx hy hx]

theorem kerR_mod (ny nx : Nat) (hy : 0 < ny) (hx : 0 < nx) (H : Nat → Nat → ℝ) (dy dx : ℤ) :
    kerR ny nx H (dy % ny) (dx % nx) = kerR ny nx H dy dx := by
  unfold kerR
  have h := kerC_period ny nx hy hx (cplx H) (dy % ny) (dx % nx) (dy / ny) (dx / nx)
  rw [Int.emod_add_mul_ediv, Int.emod_add_mul_ediv] at h
  rw [h]

theorem fft2_eq (ny nx : Nat) (x : Nat → Nat → ℂ) (ky kx : Nat) :
    fft2 ny nx x ky kx = ∑ p ∈ grid ny nx, x p.1 p.2 * wave ny nx (ky, kx) (-(p.1 : ℤ)) (-(p.2 : ℤ)) := by
  rw [← sum_grid2 ny nx fun y z => x y z * wave ny nx (ky, kx) (-(y : ℤ)) (-(z : ℤ))]
  unfold fft2 dftRaw
  apply Finset.sum_congr rfl
  intro y _
  rw [Finset.sum_mul]
  apply Finset.sum_congr rfl
  intro z _
  unfold wave
  rw [mul_assoc, ← cis_add]
  congr 2; push_cast; ring

theorem ifft2_eq (ny nx : Nat) (h : Nat → Nat → ℂ) (jy jx : Nat) :
    ifft2 ny nx h jy jx = ∑ k ∈ grid ny nx, h k.1 k.2 * wave ny nx k jy jx := by
  rw [← sum_grid2 ny nx fun y z => h y z * wave ny nx (y, z) jy jx]
  unfold ifft2 idftRaw
  apply Finset.sum_congr rfl
  intro y _
  rw [Finset.sum_mul]
  apply Finset.sum_congr rfl
  intro z _
  unfold wave
  rw [mul_assoc, ← cis_add]
  congr 2; push_cast; ring

theorem ifft2_ker (ny nx : Nat) (hy : 0 < ny) (hx : 0 < nx) (h : Nat → Nat → ℂ) (jy jx : Nat) :
    ifft2 ny nx h jy jx = ((ny : ℂ) * nx) * kerC ny nx h jy jx := by
  have h1 : (ny : ℂ) ≠ 0 := by exact_mod_cast hy.ne'
  have h2 : (nx : ℂ) ≠ 0 := by exact_mod_cast hx.ne'
  rw [ifft2_eq]; unfold kerC; field_simp

/-- Filtering is convolution with the kernel. -/
theorem ifft2_filter (ny nx : Nat) (hy : 0 < ny) (hx : 0 < nx) (H x : Nat → Nat → ℂ) (jy jx : Nat) :
    ifft2 ny nx (fun ky kx => H ky kx * fft2 ny nx x ky kx) jy jx =
      ((ny : ℂ) * nx) * ∑ p ∈ grid ny nx, x p.1 p.2 * kerC ny nx H (jy - p.1) (jx - p.2) := by
  have h1 : (ny : ℂ) ≠ 0 := by exact_mod_cast hy.ne'
  have h2 : (nx : ℂ) ≠ 0 := by exact_mod_cast hx.ne'
  rw [ifft2_eq]
  simp only [fft2_eq]
  have e : ∀ k ∈ grid ny nx, (H k.1 k.2 * ∑ p ∈ grid ny nx, x p.1 p.2 * wave ny nx (k.1, k.2) (-(p.1 : ℤ)) (-(p.2 : ℤ))) * wave ny nx k jy jx =
      ∑ p ∈ grid ny nx, x p.1 p.2 * (H k.1 k.2 * wave ny nx k (jy - p.1) (jx - p.2)) := by
    intro k _
    rw [Finset.mul_sum, Finset.sum_mul]
    apply Finset.sum_congr rfl
    intro p _
    rw [sub_eq_add_neg, sub_eq_add_neg, wave_add]
    ring
  rw [Finset.sum_congr rfl e, Finset.sum_comm, Finset.mul_sum]
  apply Finset.sum_congr rfl
  intro p _
  unfold kerC
  rw [← Finset.mul_sum]
  field_simp

theorem conj_kerC (ny nx : Nat) (H : Nat → Nat → ℝ) (dy dx : ℤ) :
    kerC ny nx (cplx H) (-dy) (-dx) = conj (kerC ny nx (cplx H) dy dx) := by
  unfold kerC cplx
  rw [map_div₀, map_sum, map_mul, Complex.conj_natCast, Complex.conj_natCast]
  congr 1
  apply Finset.sum_congr rfl
  intro k _
  rw [map_mul, Complex.conj_ofReal, wave_neg]

theorem kerR_neg (ny nx : Nat) (H : Nat → Nat → ℝ) (dy dx : ℤ) : kerR ny nx H (-dy) (-dx) = kerR ny nx H dy dx := by
  unfold kerR; rw [conj_kerC, Complex.conj_re]

theorem kerR_sub (ny nx : Nat) (H : Nat → Nat → ℝ) (a b c d : ℤ) : kerR ny nx H (a - b) (c - d) = kerR ny nx H (b - a) (d - c) := by
  rw [← kerR_neg]; congr 1 <;> ring

/-- A profile that is the same at opposite wavenumbers, as the transform of a symmetric beam or a power spectrum of a real
map. -/
def EvenProf (ny nx : Nat) (H : Nat → Nat → ℝ) : Prop :=
  ∀ ky kx, ky < ny → kx < nx → H ((ny - ky) % ny) ((nx - kx) % nx) = H ky kx

theorem EvenProf.mul {ny nx : Nat} {H G : Nat → Nat → ℝ} (h : EvenProf ny nx H) (g : EvenProf ny nx G) :
    EvenProf ny nx fun ky kx => H ky kx * G ky kx := by
  intro ky kx hy hx; simp only []; rw [h ky kx hy hx, g ky kx hy hx]

theorem EvenProf.comp {ny nx : Nat} {H : Nat → Nat → ℝ} (h : EvenProf ny nx H) (f : ℝ → ℝ) :
    EvenProf ny nx fun ky kx => f (H ky kx) := by
  intro ky kx hy hx; simp only []; rw [h ky kx hy hx]

theorem flip_lt {n k : Nat} (h : k < n) : (n - k) % n < n := Nat.mod_lt _ (by omega)

theorem flip_flip {n k : Nat} (h : k < n) : (n - (n - k) % n) % n = k := by
  by_cases h0 : k = 0
  · subst h0; simp
  · rw [Nat.mod_eq_of_lt (a := n - k) (by omega), show n - (n - k) = k by omega, Nat.mod_eq_of_lt h]

theorem wave_flip (ny nx : Nat) (k : Nat × Nat) (hy : k.1 < ny) (hx : k.2 < nx) (dy dx : ℤ) :
    wave ny nx ((ny - k.1) % ny, (nx - k.2) % nx) dy dx = conj (wave ny nx k dy dx) := by
  rw [← wave_neg]
  have key : ∀ {n k : Nat}, k < n → ∃ m : ℤ, ((((n - k) % n : Nat)) : ℝ) = -(k : ℝ) + n * m := by
    intro n k h
    by_cases h0 : k = 0
    · subst h0; exact ⟨0, by simp⟩
    · refine ⟨1, ?_⟩
      rw [Nat.mod_eq_of_lt (a := n - k) (by omega), Nat.cast_sub h.le]; push_cast; ring
  obtain ⟨a, ha⟩ := key hy
  obtain ⟨b, hb⟩ := key hx
  unfold wave
  simp only [ha, hb]
  have h1 : (ny : ℝ) ≠ 0 := by have : 0 < ny := by omega
                               positivity
  have h2 : (nx : ℝ) ≠ 0 := by have : 0 < nx := by omega
                               positivity
  have : (-(k.1 : ℝ) + ny * a) * dy / ny + (-(k.2 : ℝ) + nx * b) * dx / nx =
      ((k.1 : ℝ) * ((-dy : ℤ) : ℝ) / ny + (k.2 : ℝ) * ((-dx : ℤ) : ℝ) / nx) + ((a * dy + b * dx : ℤ) : ℝ) := by
    push_cast; field_simp; ring
  rw [this, cis_add_int]

/-- The kernel of an even profile is real. -/
theorem kerC_real {ny nx : Nat} {H : Nat → Nat → ℝ} (h : EvenProf ny nx H) (dy dx : ℤ) :
    kerC ny nx (cplx H) dy dx = (kerR ny nx H dy dx : ℂ) := by
  have : conj (kerC ny nx (cplx H) dy dx) = kerC ny nx (cplx H) dy dx := by
    unfold kerC cplx
    rw [map_div₀, map_sum, map_mul, Complex.conj_natCast, Complex.conj_natCast]
    congr 1
    refine Finset.sum_nbij' (fun k => ((ny - k.1) % ny, (nx - k.2) % nx)) (fun k => ((ny - k.1) % ny, (nx - k.2) % nx)) ?_ ?_ ?_ ?_ ?_
    · intro k hk; rw [mem_grid] at hk ⊢; exact ⟨flip_lt hk.1, flip_lt hk.2⟩
    · intro k hk; rw [mem_grid] at hk ⊢; exact ⟨flip_lt hk.1, flip_lt hk.2⟩
    · intro k hk; rw [mem_grid] at hk; simp only [flip_flip hk.1, flip_flip hk.2]
    · intro k hk; rw [mem_grid] at hk; simp only [flip_flip hk.1, flip_flip hk.2]
    · intro k hk; rw [mem_grid] at hk
      rw [map_mul, Complex.conj_ofReal, wave_flip ny nx k hk.1 hk.2, h k.1 k.2 hk.1 hk.2]
  unfold kerR
  exact (Complex.conj_eq_iff_re.1 this).symm

/-- The kernel as a sum of cosines. -/
theorem kerR_cos (ny nx : Nat) (H : Nat → Nat → ℝ) (dy dx : ℤ) :
    kerR ny nx H dy dx = (∑ k ∈ grid ny nx, H k.1 k.2 * (wave ny nx k dy dx).re) / ((ny : ℝ) * nx) := by
  unfold kerR kerC cplx
  rw [show ((ny : ℂ) * nx) = (((ny : ℝ) * nx : ℝ) : ℂ) by push_cast; rfl, Complex.div_ofReal_re, Complex.re_sum]
  congr 1
  apply Finset.sum_congr rfl
  intro k _
  rw [Complex.re_ofReal_mul]

theorem kerR_zero (ny nx : Nat) (H : Nat → Nat → ℝ) : kerR ny nx H 0 0 = (∑ k ∈ grid ny nx, H k.1 k.2) / ((ny : ℝ) * nx) := by
  rw [kerR_cos]; simp [wave_zero]

theorem wave_norm (ny nx : Nat) (k : Nat × Nat) (dy dx : ℤ) : ‖wave ny nx k dy dx‖ = 1 := by
  have h : wave ny nx k dy dx * conj (wave ny nx k dy dx) = 1 := by unfold wave; exact cis_mul_conj _
  have h2 : ‖wave ny nx k dy dx‖ ^ 2 = 1 := by
    rw [← Complex.normSq_eq_norm_sq]
    have := Complex.mul_conj (wave ny nx k dy dx)
    rw [h] at this
    exact_mod_cast this.symm
  have h3 := norm_nonneg (wave ny nx k dy dx)
  nlinarith

/-- Applying one kernel after another. -/
theorem kerC_conv (ny nx : Nat) (hy : 0 < ny) (hx : 0 < nx) (H G : Nat → Nat → ℂ) (ay ax by' bx : ℤ) :
    ∑ p ∈ grid ny nx, kerC ny nx H (ay - p.1) (ax - p.2) * kerC ny nx G (p.1 - by') (p.2 - bx) =
      kerC ny nx (fun ky kx => H ky kx * G ky kx) (ay - by') (ax - bx) := by
  have h1 : (ny : ℂ) ≠ 0 := by exact_mod_cast hy.ne'
  have h2 : (nx : ℂ) ≠ 0 := by exact_mod_cast hx.ne'
  have orth : ∀ k ∈ grid ny nx, ∀ l ∈ grid ny nx,
      ∑ p ∈ grid ny nx, wave ny nx k (-(p.1 : ℤ)) (-(p.2 : ℤ)) * wave ny nx l p.1 p.2 = if l = k then (ny : ℂ) * nx else 0 := by
    intro k hk l hl
    rw [mem_grid] at hk hl
    have := fft2_ifft2 ny nx (fun a b => if (a, b) = l then (1 : ℂ) else 0) k.1 k.2 hk.1 hk.2
    rw [fft2_eq] at this
    have e : ∀ p ∈ grid ny nx, ifft2 ny nx (fun a b => if (a, b) = l then (1 : ℂ) else 0) p.1 p.2 = wave ny nx l p.1 p.2 := by
      intro p _
      rw [ifft2_eq, Finset.sum_eq_single l]
      · simp
      · intro b _ hb; simp [hb]
      · intro hc; exact absurd (mem_grid.2 hl) hc
    rw [Finset.sum_congr rfl fun p hp => by rw [e p hp]] at this
    rw [Finset.sum_congr rfl fun p _ => mul_comm _ _, show k = (k.1, k.2) from rfl, this]
    by_cases hc : l = k
    · subst hc; simp
    · rw [if_neg hc, if_neg (fun h => hc h.symm), mul_zero]
  unfold kerC
  have expand : ∀ p ∈ grid ny nx, (∑ k ∈ grid ny nx, H k.1 k.2 * wave ny nx k (ay - p.1) (ax - p.2)) / ((ny : ℂ) * nx) *
      ((∑ l ∈ grid ny nx, G l.1 l.2 * wave ny nx l (p.1 - by') (p.2 - bx)) / ((ny : ℂ) * nx)) =
      ∑ k ∈ grid ny nx, ∑ l ∈ grid ny nx, (H k.1 k.2 * wave ny nx k ay ax * (G l.1 l.2 * wave ny nx l (-by') (-bx)) / ((ny : ℂ) * nx) ^ 2) *
        (wave ny nx k (-(p.1 : ℤ)) (-(p.2 : ℤ)) * wave ny nx l p.1 p.2) := by
    intro p _
    rw [div_mul_div_comm, Finset.sum_mul_sum, Finset.sum_div]
    apply Finset.sum_congr rfl
    intro k _
    rw [Finset.sum_div]
    apply Finset.sum_congr rfl
    intro l _
    simp only [sub_eq_add_neg, wave_add]
    field_simp
  rw [Finset.sum_congr rfl expand, Finset.sum_comm, Finset.sum_div]
  apply Finset.sum_congr rfl
  intro k hk
  rw [Finset.sum_comm]
  simp_rw [← Finset.mul_sum]
  rw [Finset.sum_congr rfl fun l hl => by rw [orth k hk l hl], Finset.sum_eq_single k]
  · rw [if_pos rfl]
    simp only [sub_eq_add_neg, wave_add]
    field_simp
  · intro b _ hb; rw [if_neg hb, mul_zero]
  · intro h; exact absurd hk h

theorem kerR_conv {ny nx : Nat} (hy : 0 < ny) (hx : 0 < nx) {H G : Nat → Nat → ℝ} (eH : EvenProf ny nx H) (eG : EvenProf ny nx G)
    (ay ax by' bx : ℤ) :
    ∑ p ∈ grid ny nx, kerR ny nx H (ay - p.1) (ax - p.2) * kerR ny nx G (p.1 - by') (p.2 - bx) =
      kerR ny nx (fun ky kx => H ky kx * G ky kx) (ay - by') (ax - bx) := by
  have h := kerC_conv ny nx hy hx (cplx H) (cplx G) ay ax by' bx
  have e : (fun ky kx => cplx H ky kx * cplx G ky kx) = cplx fun ky kx => H ky kx * G ky kx := by
    funext ky kx; unfold cplx; push_cast; rfl
  rw [e, kerC_real (eH.mul eG)] at h
  simp only [kerC_real eH, kerC_real eG] at h
  exact_mod_cast h

/-- The sum of a kernel over the map. -/
theorem kerR_sum {ny nx : Nat} (hy : 0 < ny) (hx : 0 < nx) (H : Nat → Nat → ℝ) (ay ax : ℤ) :
    ∑ p ∈ grid ny nx, kerR ny nx H (ay - p.1) (ax - p.2) = H 0 0 := by
  have h1 : (ny : ℂ) ≠ 0 := by exact_mod_cast hy.ne'
  have h2 : (nx : ℂ) ≠ 0 := by exact_mod_cast hx.ne'
  set D : Nat → Nat → ℂ := fun a b => if (a, b) = (0, 0) then (ny : ℂ) * nx else 0 with hD
  have k0 : ∀ dy dx, kerC ny nx D dy dx = 1 := by
    intro dy dx
    unfold kerC
    rw [Finset.sum_eq_single (0, 0)]
    · rw [hD]; unfold wave; simp [cis_zero, h1, h2]
    · intro b _ hb; rw [hD]; simp only [Prod.mk.eta, if_neg hb, zero_mul]
    · intro hc; exact absurd (mem_grid.2 ⟨hy, hx⟩) hc
  have h := kerC_conv ny nx hy hx (cplx H) D ay ax 0 0
  simp only [k0, mul_one] at h
  have hr : kerC ny nx (fun ky kx => cplx H ky kx * D ky kx) (ay - 0) (ax - 0) = (H 0 0 : ℂ) := by
    unfold kerC
    rw [Finset.sum_eq_single (0, 0)]
    · rw [hD]; unfold wave cplx; simp only [if_true]; simp [cis_zero]; field_simp
    · intro b _ hb; rw [hD]; simp only [Prod.mk.eta, if_neg hb, zero_mul, mul_zero]
    · intro hc; exact absurd (mem_grid.2 ⟨hy, hx⟩) hc
  rw [hr] at h
  have := congrArg Complex.re h
  rw [Complex.re_sum, Complex.ofReal_re] at this
  exact this

/-! ### The four pairs of transforms -/

section norms
variable (ny nx : Nat) (hy : 0 < ny) (hx : 0 < nx) (A : ℝ) (hA : 0 < A)
include hy hx hA

theorem norm_ff : ifftNorm .phys false ny nx A * fftNorm .phys false ny nx A = 1 / ((ny : ℝ) * nx) := by
  have h : (0 : ℝ) < ny * nx := by positivity
  have hs := Real.sqrt_pos.2 h
  have hA' := Real.sqrt_pos.2 hA
  have e := Real.mul_self_sqrt h.le
  unfold fftNorm ifftNorm
  simp only [ne_eq, reduceCtorEq, not_false_eq_true, if_true, Bool.false_eq_true, if_false]
  generalize Real.sqrt (ny * nx) = s at *
  field_simp
  linear_combination -e

theorem norm_tt : ifftNorm .phys true ny nx A * fftNorm .phys true ny nx A = 1 / ((ny : ℝ) * nx) := by
  have h : (0 : ℝ) < ny * nx := by positivity
  have hs := Real.sqrt_pos.2 h
  have hA' := Real.sqrt_pos.2 hA
  have e := Real.mul_self_sqrt h.le
  unfold fftNorm ifftNorm
  simp only [ne_eq, reduceCtorEq, not_false_eq_true, if_true]
  generalize Real.sqrt (ny * nx) = s at *
  field_simp
  linear_combination -e

theorem norm_tf : ifftNorm .phys true ny nx A * fftNorm .phys false ny nx A = A / ((ny : ℝ) * nx) := by
  have h : (0 : ℝ) < ny * nx := by positivity
  have hs := Real.sqrt_pos.2 h
  have hA' := Real.sqrt_pos.2 hA
  have e := Real.mul_self_sqrt h.le
  have eA := Real.mul_self_sqrt hA.le
  unfold fftNorm ifftNorm
  simp only [ne_eq, reduceCtorEq, not_false_eq_true, if_true, Bool.false_eq_true, if_false]
  generalize Real.sqrt (ny * nx) = s at *
  generalize Real.sqrt A = a at *
  field_simp
  linear_combination (ny : ℝ) * nx * eA - A * e

theorem norm_ft : ifftNorm .phys false ny nx A * fftNorm .phys true ny nx A = 1 / (A * ((ny : ℝ) * nx)) := by
  have h : (0 : ℝ) < ny * nx := by positivity
  have hs := Real.sqrt_pos.2 h
  have hA' := Real.sqrt_pos.2 hA
  have e := Real.mul_self_sqrt h.le
  have eA := Real.mul_self_sqrt hA.le
  unfold fftNorm ifftNorm
  simp only [ne_eq, reduceCtorEq, not_false_eq_true, if_true, Bool.false_eq_true, if_false]
  generalize Real.sqrt (ny * nx) = s at *
  generalize Real.sqrt A = a at *
  field_simp
  linear_combination -(A * e) - s * s * eA

theorem filter_any (a b : Bool) (c : ℝ) (hc : ifftNorm .phys a ny nx A * fftNorm .phys b ny nx A = c / ((ny : ℝ) * nx))
    (H : Nat → Nat → ℂ) (m : Nat → Nat → ℝ) (y x : Nat) :
    (enmapIfft .phys a ny nx A (uHmul H (enmapFft .phys b ny nx A (cplx m))) y x).re =
      c * ∑ p ∈ grid ny nx, m p.1 p.2 * (kerC ny nx H (y - p.1) (x - p.2)).re := by
  have h1 : (ny : ℝ) ≠ 0 := by positivity
  have h2 : (nx : ℝ) ≠ 0 := by positivity
  have e : enmapIfft .phys a ny nx A (uHmul H (enmapFft .phys b ny nx A (cplx m))) y x =
      ((c : ℝ) : ℂ) * ∑ p ∈ grid ny nx, (m p.1 p.2 : ℂ) * kerC ny nx H (y - p.1) (x - p.2) := by
    unfold enmapIfft uHmul enmapFft
    have : (fun ky kx => H ky kx * (fft2 ny nx (cplx m) ky kx * ((fftNorm .phys b ny nx A : ℝ) : ℂ))) =
        fun ky kx => (H ky kx * fft2 ny nx (cplx m) ky kx) * ((fftNorm .phys b ny nx A : ℝ) : ℂ) := by funext ky kx; ring
    rw [this, ifft2_mul, ifft2_filter ny nx hy hx]
    have hc' : (c : ℝ) = (ifftNorm .phys a ny nx A * fftNorm .phys b ny nx A) * ((ny : ℝ) * nx) := by rw [hc]; field_simp
    rw [hc']
    unfold cplx
    push_cast; ring
  rw [e, Complex.re_ofReal_mul, Complex.re_sum]
  congr 1
  apply Finset.sum_congr rfl
  intro p _
  rw [Complex.re_ofReal_mul]

theorem filter_h2m_m2h (H : Nat → Nat → ℂ) (m : Nat → Nat → ℝ) (y x : Nat) :
    uHarm2map ny nx A (uHmul H (uMap2harm ny nx A m)) y x = ∑ p ∈ grid ny nx, m p.1 p.2 * (kerC ny nx H (y - p.1) (x - p.2)).re := by
  have := filter_any ny nx hy hx A hA false false 1 (norm_ff ny nx hy hx A hA) H m y x
  rw [one_mul] at this; exact this

theorem filter_adj_adj (H : Nat → Nat → ℂ) (m : Nat → Nat → ℝ) (y x : Nat) :
    uMap2harmAdj ny nx A (uHmul H (uHarm2mapAdj ny nx A m)) y x = ∑ p ∈ grid ny nx, m p.1 p.2 * (kerC ny nx H (y - p.1) (x - p.2)).re := by
  have := filter_any ny nx hy hx A hA true true 1 (norm_tt ny nx hy hx A hA) H m y x
  rw [one_mul] at this; exact this

theorem filter_adj_m2h (H : Nat → Nat → ℂ) (m : Nat → Nat → ℝ) (y x : Nat) :
    uMap2harmAdj ny nx A (uHmul H (uMap2harm ny nx A m)) y x = A * ∑ p ∈ grid ny nx, m p.1 p.2 * (kerC ny nx H (y - p.1) (x - p.2)).re :=
  filter_any ny nx hy hx A hA true false A (norm_tf ny nx hy hx A hA) H m y x

theorem filter_h2m_adj (H : Nat → Nat → ℂ) (m : Nat → Nat → ℝ) (y x : Nat) :
    uHarm2map ny nx A (uHmul H (uHarm2mapAdj ny nx A m)) y x = 1 / A * ∑ p ∈ grid ny nx, m p.1 p.2 * (kerC ny nx H (y - p.1) (x - p.2)).re := by
  refine filter_any ny nx hy hx A hA false true (1 / A) ?_ H m y x
  rw [norm_ft ny nx hy hx A hA]
  have h1 : (ny : ℝ) ≠ 0 := by positivity
  have h2 : (nx : ℝ) ≠ 0 := by positivity
  field_simp

/-- The real-space image of a profile, as computed inside hprof_rpow and rpow. -/
theorem prof_map (B : Nat → Nat → ℝ) (y x : Nat) :
    uHarm2map ny nx A (fun ky kx => ((B ky kx / Real.sqrt (A * (ny * nx)) : ℝ) : ℂ)) y x = kerR ny nx B y x / A := by
  have h1 : (ny : ℝ) ≠ 0 := by positivity
  have h2 : (nx : ℝ) ≠ 0 := by positivity
  unfold uHarm2map enmapIfft
  have e : (fun ky kx => ((B ky kx / Real.sqrt (A * (ny * nx)) : ℝ) : ℂ)) =
      fun ky kx => cplx B ky kx * ((1 / Real.sqrt (A * (ny * nx)) : ℝ) : ℂ) := by
    funext ky kx; unfold cplx; push_cast; ring
  rw [e, ifft2_mul, ifft2_ker ny nx hy hx]
  rw [show (ny : ℂ) * nx * kerC ny nx (cplx B) y x * ((1 / Real.sqrt (A * (ny * nx)) : ℝ) : ℂ) * ((ifftNorm .phys false ny nx A : ℝ) : ℂ) =
      (((ny : ℝ) * nx * (1 / Real.sqrt (A * (ny * nx))) * ifftNorm .phys false ny nx A : ℝ) : ℂ) * kerC ny nx (cplx B) y x by
    push_cast; ring, Complex.re_ofReal_mul]
  have : (ny : ℝ) * nx * (1 / Real.sqrt (A * (ny * nx))) * ifftNorm .phys false ny nx A = 1 / A := by
    unfold ifftNorm
    simp only [ne_eq, reduceCtorEq, not_false_eq_true, if_true, Bool.false_eq_true, if_false]
    rw [Real.sqrt_mul hA.le]
    have h : (0 : ℝ) < ny * nx := by positivity
    have hs := Real.sqrt_pos.2 h
    have hA' := Real.sqrt_pos.2 hA
    have e := Real.mul_self_sqrt h.le
    have eA := Real.mul_self_sqrt hA.le
    generalize Real.sqrt (ny * nx) = s at *
    generalize Real.sqrt A = a at *
    field_simp
    linear_combination -(A * e) - s * s * eA
  rw [this]
  unfold kerR; ring

theorem rpow_eq (B : Nat → Nat → ℝ) (pow : Nat) (ky kx : Nat) :
    uHprofRpow ny nx A B pow ky kx = (A : ℂ) * fft2 ny nx (cplx fun y x => (kerR ny nx B y x / A) ^ pow) ky kx := by
  unfold uHprofRpow
  simp only [prof_map ny nx hy hx A hA]
  unfold uMap2harm enmapFft
  rw [mul_assoc, ← Complex.ofReal_mul]
  have : fftNorm .phys false ny nx A * Real.sqrt (A * (ny * nx)) = A := by
    unfold fftNorm
    simp only [ne_eq, reduceCtorEq, not_false_eq_true, if_true, Bool.false_eq_true, if_false]
    rw [Real.sqrt_mul hA.le]
    have h : (0 : ℝ) < ny * nx := by positivity
    have hs := Real.sqrt_pos.2 h
    have eA := Real.mul_self_sqrt hA.le
    generalize Real.sqrt (ny * nx) = s at *
    field_simp
    linear_combination eA
  rw [this, mul_comm]

/-- The kernel of the real-space power of a profile is the power of the kernel. -/
theorem kerC_rpow (B : Nat → Nat → ℝ) (pow : Nat) (dy dx : ℤ) :
    kerC ny nx (uHprofRpow ny nx A B pow) dy dx = ((A * (kerR ny nx B dy dx / A) ^ pow : ℝ) : ℂ) := by
  have hy' : (0 : ℤ) < ny := by exact_mod_cast hy
  have hx' : (0 : ℤ) < nx := by exact_mod_cast hx
  have h1 : (ny : ℂ) ≠ 0 := by exact_mod_cast hy.ne'
  have h2 : (nx : ℂ) ≠ 0 := by exact_mod_cast hx.ne'
  obtain ⟨jy, hjy⟩ := Int.eq_ofNat_of_zero_le (Int.emod_nonneg dy hy'.ne')
  obtain ⟨jx, hjx⟩ := Int.eq_ofNat_of_zero_le (Int.emod_nonneg dx hx'.ne')
  have hjy2 : jy < ny := by have := Int.emod_lt_of_pos dy hy'; omega
  have hjx2 : jx < nx := by have := Int.emod_lt_of_pos dx hx'; omega
  have e := kerC_period ny nx hy hx (uHprofRpow ny nx A B pow) (dy % ny) (dx % nx) (dy / ny) (dx / nx)
  rw [Int.emod_add_mul_ediv, Int.emod_add_mul_ediv] at e
  rw [e, ← kerR_mod ny nx hy hx, hjy, hjx]
  have f := ifft2_ker ny nx hy hx (uHprofRpow ny nx A B pow) jy jx
  have g : uHprofRpow ny nx A B pow = fun ky kx => fft2 ny nx (cplx fun y x => (kerR ny nx B y x / A) ^ pow) ky kx * (A : ℂ) := by
    funext ky kx; rw [rpow_eq ny nx hy hx A hA, mul_comm]
  rw [g, ifft2_mul, ifft2_fft2 ny nx _ jy jx hjy2 hjx2, ← g] at f
  have : kerC ny nx (uHprofRpow ny nx A B pow) jy jx = cplx (fun y x => (kerR ny nx B y x / A) ^ pow) jy jx * A := by
    have h3 : (ny : ℂ) * nx ≠ 0 := mul_ne_zero h1 h2
    apply mul_left_cancel₀ h3
    rw [← f]; ring
  rw [this]
  unfold cplx
  push_cast; ring

end norms

end Pixell
