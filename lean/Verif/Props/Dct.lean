import Verif.Lemmas.Dct
import Mathlib.RingTheory.Polynomial.Chebyshev
import Mathlib.Analysis.SpecialFunctions.Trigonometric.Chebyshev.Basic

/-
Properties C94 (cosine and sine transforms), C95 (half-complex transforms) and C96 (Chebyshev transforms).
-/
namespace Pixell
open Real

/-! ### C94 -/

theorem off_inv (t : R2R) : t.inv.off = t.off := by cases t <;> rfl
theorem inv_inv_r2r (t : R2R) : t.inv.inv = t := by cases t <;> rfl

theorem r2r_len (t : R2R) (n : Nat) (h0 : 0 < n) (hn : t = .c1 → 2 ≤ n) : (2 * ((n : ℝ) + t.off)) ≠ 0 := by
  have : (1 : ℝ) ≤ n := by exact_mod_cast h0
  cases t
  case c1 => have h2 : (2 : ℝ) ≤ n := by exact_mod_cast hn rfl
             simp only [R2R.off]; push_cast; intro h; linarith
  all_goals (simp only [R2R.off]; push_cast; intro h; linarith)

theorem r2rRaw_mul (t : R2R) (n : Nat) (c : ℝ) (x : Nat → ℝ) (k : Nat) : r2rRaw t n (fun j => x j * c) k = r2rRaw t n x k * c := by
  unfold r2rRaw; rw [Finset.sum_mul]; apply Finset.sum_congr rfl; intro j _; ring

theorem r2rRaw_congr (t : R2R) (n : Nat) {x y : Nat → ℝ} (h : ∀ j, j < n → x j = y j) (k : Nat) : r2rRaw t n x k = r2rRaw t n y k := by
  unfold r2rRaw; apply Finset.sum_congr rfl; intro j hj; rw [h j (Finset.mem_range.1 hj)]

/-- Exchanging the transforms of the two axes. -/
theorem r2rRaw_swap (s t : R2R) (m n : Nat) (x : Nat → Nat → ℝ) (a b : Nat) :
    r2rRaw s m (fun i => r2rRaw t n (x i) b) a = r2rRaw t n (fun j => r2rRaw s m (fun i => x i j) a) b := by
  unfold r2rRaw
  simp_rw [Finset.mul_sum, Finset.sum_mul]
  rw [Finset.sum_comm]
  apply Finset.sum_congr rfl; intro j _
  apply Finset.sum_congr rfl; intro i _
  ring

/-- C94: fft.idct(normalize=True) undoes fft.dct and fft.dct undoes it, for all eight types, lengths and arrays. (Type
DCT-I needs two points.) -/
theorem C94_roundtrip (t : R2R) (n : Nat) (hn : t = .c1 → 2 ≤ n) (x : Nat → ℝ) (i : Nat) (hi : i < n) :
    fftIdct t true n (fftDct t n x) i = x i ∧ fftDct t n (fftIdct t true n x) i = x i := by
  have hz := r2r_len t n (by omega) hn
  constructor
  · simp only [fftIdct, fftDct, if_true]
    rw [r2r_roundtrip t n hn x i hi, off_inv]
    exact mul_div_cancel_left₀ _ hz
  · have e : fftIdct t true n x = fun j => r2rRaw t.inv n x j * (2 * ((n : ℝ) + t.off))⁻¹ := by
      funext j; simp only [fftIdct, if_true, off_inv]; rw [div_eq_mul_inv]
    rw [e, fftDct, r2rRaw_mul]
    have h := r2r_roundtrip t.inv n (by intro h; apply hn; cases t <;> simp_all [R2R.inv]) x i hi
    rw [inv_inv_r2r] at h
    rw [h, mul_comm, ← mul_assoc, inv_mul_cancel₀ hz, one_mul]

/-- C94: also for two axes at once. -/
theorem C94_roundtrip2 (t : R2R) (ny nx : Nat) (hy : t = .c1 → 2 ≤ ny) (hx : t = .c1 → 2 ≤ nx) (x : Nat → Nat → ℝ) (iy ix : Nat)
    (hiy : iy < ny) (hix : ix < nx) : fftIdct2 t true ny nx (fftDct2 t ny nx x) iy ix = x iy ix ∧
      fftIdct2 t false ny nx (fftDct2 t ny nx x) iy ix = 2 * ((ny : ℝ) + t.off) * (2 * ((nx : ℝ) + t.off)) * x iy ix := by
  have hzy := r2r_len t ny (by omega) hy
  have hzx := r2r_len t nx (by omega) hx
  have key : r2rRaw t.inv ny (fun ky => r2rRaw t.inv nx (fftDct2 t ny nx x ky) ix) iy =
      2 * ((ny : ℝ) + t.off) * (2 * ((nx : ℝ) + t.off)) * x iy ix := by
    have e : ∀ ky, ky < ny → r2rRaw t.inv nx (fftDct2 t ny nx x ky) ix = r2rRaw t ny (fun jy => x jy ix) ky * (2 * ((nx : ℝ) + t.off)) := by
      intro ky _
      have e1 : fftDct2 t ny nx x ky = fun kx => r2rRaw t nx (fun jx => r2rRaw t ny (fun jy => x jy jx) ky) kx := by
        funext kx; exact r2rRaw_swap t t ny nx x ky kx
      rw [e1]
      rw [show (fun kx => r2rRaw t nx (fun jx => r2rRaw t ny (fun jy => x jy jx) ky) kx) = r2rRaw t nx (fun jx => r2rRaw t ny (fun jy => x jy jx) ky) from rfl,
        r2r_roundtrip t nx hx _ ix hix, off_inv]
      ring
    rw [r2rRaw_congr t.inv ny e, r2rRaw_mul, r2r_roundtrip t ny hy _ iy hiy, off_inv]
    ring
  constructor
  · simp only [fftIdct2, if_true, key, off_inv]
    exact mul_div_cancel_left₀ _ (mul_ne_zero hzy hzx)
  · simp only [fftIdct2, Bool.false_eq_true, if_false, key]

/-- C94 fails for enmap.dct and enmap.idct with normalize=True: the round trip multiplies every map by the same factor,
less than one, for every size. -/
theorem C94_enmap_refuted (ny nx : Nat) (hy : 2 ≤ ny) (hx : 2 ≤ nx) (x : Nat → Nat → ℝ) (iy ix : Nat) (hiy : iy < ny) (hix : ix < nx) :
    enmapIdct ny nx (enmapDct ny nx x) iy ix = (2 * (ny : ℝ) - 2) * (2 * nx - 2) / ((2 * ny - 1) * (2 * nx - 1)) * x iy ix ∧
    (x iy ix ≠ 0 → enmapIdct ny nx (enmapDct ny nx x) iy ix ≠ x iy ix) := by
  have h1 : (2 : ℝ) ≤ ny := by exact_mod_cast hy
  have h2 : (2 : ℝ) ≤ nx := by exact_mod_cast hx
  have hp : (0 : ℝ) < (2 * ny - 1) * (2 * nx - 1) := mul_pos (by linarith) (by linarith)
  have hsq := Real.mul_self_sqrt hp.le
  have hs := Real.sqrt_pos.2 hp
  have key : enmapIdct ny nx (enmapDct ny nx x) iy ix = (2 * (ny : ℝ) - 2) * (2 * nx - 2) / ((2 * ny - 1) * (2 * nx - 1)) * x iy ix := by
    have e : fftIdct2 .c1 false ny nx (enmapDct ny nx x) iy ix = fftIdct2 .c1 false ny nx (fftDct2 .c1 ny nx x) iy ix * enmapDctNorm ny nx := by
      simp only [fftIdct2, Bool.false_eq_true, if_false]
      rw [← r2rRaw_mul]
      apply r2rRaw_congr
      intro j _
      rw [← r2rRaw_mul]
      rfl
    unfold enmapIdct
    rw [e, (C94_roundtrip2 .c1 ny nx (fun _ => hy) (fun _ => hx) x iy ix hiy hix).2]
    simp only [enmapDctNorm, R2R.off]
    push_cast
    rw [show (2 * ((ny : ℝ) + -1) * (2 * (nx + -1)) * x iy ix * (1 / √((2 * ny - 1) * (2 * nx - 1))) * (1 / √((2 * ny - 1) * (2 * nx - 1)))) =
      (2 * ny - 2) * (2 * nx - 2) / (√((2 * ny - 1) * (2 * nx - 1)) * √((2 * ny - 1) * (2 * nx - 1))) * x iy ix by field_simp; ring, hsq]
  refine ⟨key, fun h0 => ?_⟩
  rw [key]
  intro h
  have : (2 * (ny : ℝ) - 2) * (2 * nx - 2) / ((2 * ny - 1) * (2 * nx - 1)) = 1 := by
    have := mul_right_cancel₀ h0 (h.trans (one_mul _).symm)
    exact this
  rw [div_eq_one_iff_eq hp.ne'] at this
  nlinarith

/-- C94: dct_adjoint is not the adjoint of enmap.dct, for any map with at least three columns: the two inner products
differ for the maps with a one in pixel (0,1) and in pixel (0,0). -/
theorem C94_adjoint_refuted (ny nx : Nat) (hy : 2 ≤ ny) (hx : 3 ≤ nx) : ∃ x y : Nat → Nat → ℝ,
    ∑ i ∈ Finset.range ny, ∑ j ∈ Finset.range nx, enmapDct ny nx x i j * y i j ≠
    ∑ i ∈ Finset.range ny, ∑ j ∈ Finset.range nx, x i j * enmapIdct ny nx y i j := by
  have h1 : (2 : ℝ) ≤ ny := by exact_mod_cast hy
  have h2 : (3 : ℝ) ≤ nx := by exact_mod_cast hx
  have hp : (0 : ℝ) < (2 * ny - 1) * (2 * nx - 1) := mul_pos (by linarith) (by linarith)
  have hs := Real.sqrt_pos.2 hp
  have delta : ∀ (a : Nat) (f : Nat → Nat → ℝ), a < nx →
      ∑ i ∈ Finset.range ny, ∑ j ∈ Finset.range nx, f i j * (if i = 0 ∧ j = a then (1 : ℝ) else 0) = f 0 a := by
    intro a f ha
    rw [Finset.sum_eq_single 0, Finset.sum_eq_single a]
    · simp
    · intro j _ hj; simp [hj]
    · intro h; exact absurd (Finset.mem_range.2 ha) h
    · intro i _ hi; apply Finset.sum_eq_zero; intro j _; simp [hi]
    · intro h; exact absurd (Finset.mem_range.2 (by omega)) h
  have single : ∀ (a : Nat), a < nx → ∀ ky kx, r2rRaw .c1 ny (fun jy => r2rRaw .c1 nx (fun jx => if jy = 0 ∧ jx = a then (1 : ℝ) else 0) kx) ky =
      r2rWeight .c1 nx a * r2rWave .c1 nx a kx * r2rWave .c1 ny 0 ky := by
    intro a ha ky kx
    simp only [r2rRaw]
    rw [Finset.sum_eq_single 0, Finset.sum_eq_single a]
    · simp [r2rWeight]
    · intro j _ hj; simp [hj]
    · intro h; exact absurd (Finset.mem_range.2 ha) h
    · intro i _ hi
      rw [Finset.sum_eq_zero (by intro j _; simp [hi])]; ring
    · intro h; exact absurd (Finset.mem_range.2 (by omega)) h
  refine ⟨fun i j => if i = 0 ∧ j = 1 then 1 else 0, fun i j => if i = 0 ∧ j = 0 then 1 else 0, ?_⟩
  simp_rw [mul_comm (if _ = 0 ∧ _ = 1 then (1 : ℝ) else 0)]
  rw [delta 0 _ (by omega), delta 1 _ (by omega)]
  simp only [enmapDct, enmapIdct, fftDct2, fftIdct2, Bool.false_eq_true, if_false, R2R.inv]
  rw [single 1 (by omega), single 0 (by omega)]
  have w1 : r2rWeight .c1 nx 1 = 2 := by simp only [r2rWeight]; rw [if_neg (by omega)]
  have w0 : r2rWeight .c1 nx 0 = 1 := by simp [r2rWeight]
  rw [w1, w0]
  simp only [r2rWave, Nat.cast_zero, mul_zero, zero_mul, zero_div, cos_zero, enmapDctNorm]
  have : (1 / √((2 * (ny : ℝ) - 1) * (2 * nx - 1))) ≠ 0 := by positivity
  intro h
  apply this
  linarith

/-- C94: with the numpy engine dct computes none of the eight transforms: the array with 1 and −1 at the second and last
place gives zeros, but its transform is not zero. For all lengths from three. -/
theorem C94_numpy_refuted (t : R2R) (n : Nat) (hn : 3 ≤ n) : ∃ x : Nat → ℝ, (∀ k, numpyDct t n x k = 0) ∧ ∃ k, k < n ∧ fftDct t n x k ≠ 0 := by
  refine ⟨fun j => if j = 1 then 1 else if j + 1 = n then -1 else 0, ?_, ?_⟩
  · intro k
    unfold numpyDct idftRaw
    rw [Complex.re_sum, Finset.sum_eq_add (1 : ℕ) (n - 1) (by omega)]
    · have hn' : (n : ℝ) ≠ 0 := by exact_mod_cast (by omega : n ≠ 0)
      simp only
      rw [if_pos trivial, if_neg (by omega), if_pos (by omega), Nat.cast_sub (by omega)]
      have : cis ((k : ℝ) * ((n : ℝ) - (1 : ℕ)) / n) = (starRingEnd ℂ) (cis ((k : ℝ) * (1 : ℕ) / n)) := by
        rw [← cis_neg, ← cis_add_int (-((k : ℝ) * (1 : ℕ) / n)) k]
        congr 1
        push_cast
        field_simp; ring
      rw [this]
      simp
    · intro j _ hj
      simp only
      rw [if_neg hj.1, if_neg (by have := hj.2; omega)]
      simp
    · intro h; exact absurd (Finset.mem_range.2 (by omega)) h
    · intro h; exact absurd (Finset.mem_range.2 (by omega)) h
  · by_contra h
    push Not at h
    have r := (C94_roundtrip t n (fun _ => by omega) (fun j => if j = 1 then 1 else if j + 1 = n then -1 else 0) 1 (by omega)).1
    simp only [fftIdct, if_true] at r
    rw [r2rRaw_congr t.inv n (y := fun _ => 0 * 0) (fun j hj => by rw [h j hj]; ring), r2rRaw_mul] at r
    simp at r

/-- DCT-I of two numbers: sum and difference. -/
example : fftDct .c1 2 (fun j => if j = 0 then 3 else 1) 0 = 4 ∧ fftDct .c1 2 (fun j => if j = 0 then 3 else 1) 1 = 2 := by
  simp [fftDct, r2rRaw, Finset.sum_range_succ, r2rWeight, r2rWave]; norm_num

/-! ### C95 -/

theorem dft_real_conj (n : Nat) (hn : 0 < n) (x : Nat → ℝ) (k : Nat) (hk : k ≤ n) :
    (starRingEnd ℂ) (dftRaw n (fun j => (x j : ℂ)) k) = dftRaw n (fun j => (x j : ℂ)) (n - k) := by
  have hn' : (n : ℝ) ≠ 0 := by exact_mod_cast hn.ne'
  unfold dftRaw
  rw [map_sum]
  apply Finset.sum_congr rfl
  intro j _
  rw [map_mul, Complex.conj_ofReal, ← cis_neg, Nat.cast_sub hk, ← cis_add_int (-((j : ℝ) * (n - k) / n)) j]
  congr 2
  push_cast
  field_simp; ring

theorem c2r_r2c (n : Nat) (hn : 0 < n) (x : Nat → ℝ) (j : Nat) (hj : j < n) : c2rRaw n (fftRfft n x) j = n * x j := by
  unfold c2rRaw
  have get : ∀ k, k ≤ n / 2 → (fftRfft n x).getD k 0 = dftRaw n (fun j => (x j : ℂ)) k := by
    intro k hk
    simp [fftRfft, List.getD, List.getElem?_map, List.getElem?_range (by omega : k < n / 2 + 1)]
  have e : ∀ k, k < n → (if k ≤ n / 2 then (if k = 0 ∨ 2 * k = n then (((fftRfft n x).getD k 0).re : ℂ) else (fftRfft n x).getD k 0)
      else (starRingEnd ℂ) ((fftRfft n x).getD (n - k) 0)) = dftRaw n (fun j => (x j : ℂ)) k := by
    intro k hk
    by_cases h1 : k ≤ n / 2
    · rw [if_pos h1, get k h1]
      by_cases h2 : k = 0 ∨ 2 * k = n
      · rw [if_pos h2]
        apply Complex.conj_eq_iff_re.1
        rcases h2 with rfl | h2
        · unfold dftRaw
          simp [cis_zero]
        · rw [dft_real_conj n hn x k (by omega)]
          congr 1; omega
      · rw [if_neg h2]
    · rw [if_neg h1, get (n - k) (by omega), dft_real_conj n hn x (n - k) (by omega)]
      congr 1; omega
  rw [idft_congr e j, idft_dft n _ j hj]
  simp

/-- C95: irfft(rfft(x), n=len(x), normalize=True) returns x, for every length, even or odd; without normalization n·x. -/
theorem C95_roundtrip (n : Nat) (hn : 0 < n) (x : Nat → ℝ) :
    fftIrfft true (some n) (fftRfft n x) = (List.range n).map x ∧
    fftIrfft false (some n) (fftRfft n x) = (List.range n).map fun j => n * x j := by
  obtain ⟨m, rfl⟩ : ∃ m, n = m + 1 := ⟨n - 1, by omega⟩
  have hn' : ((m + 1 : ℕ) : ℝ) ≠ 0 := by exact_mod_cast hn.ne'
  constructor
  · simp only [fftIrfft, if_true]
    apply List.map_congr_left
    intro j hj
    rw [c2r_r2c (m + 1) hn x j (List.mem_range.1 hj)]
    field_simp
  · simp only [fftIrfft, Bool.false_eq_true, if_false]
    apply List.map_congr_left
    intro j hj
    rw [c2r_r2c (m + 1) hn x j (List.mem_range.1 hj)]

/-- C95: without n the array comes back exactly if its length is even; an odd length loses a sample. -/
theorem C95_default (n : Nat) (hn : 0 < n) (x : Nat → ℝ) :
    (n % 2 = 0 → fftIrfft true none (fftRfft n x) = (List.range n).map x) ∧
    (n % 2 = 1 → (fftIrfft true none (fftRfft n x)).length = n - 1) := by
  have hl : (fftRfft n x).length = n / 2 + 1 := by simp [fftRfft]
  constructor
  · intro h
    have e : fftIrfft true none (fftRfft n x) = fftIrfft true (some n) (fftRfft n x) := by
      obtain ⟨m, rfl⟩ : ∃ m, n = m + 1 := ⟨n - 1, by omega⟩
      simp only [fftIrfft, hl]
      rw [show ((m + 1) / 2 + 1 - 1) * 2 = m + 1 by omega]
    rw [e, (C95_roundtrip n hn x).1]
  · intro h
    simp only [fftIrfft, List.length_map, List.length_range, hl]
    omega

/-- C95: the coefficients that rfft leaves out are the conjugates of those it returns. -/
theorem C95_half (n : Nat) (x : Nat → ℝ) (k : Nat) (hk : k < n) :
    dftRaw n (fun j => (x j : ℂ)) k =
      if k ≤ n / 2 then (fftRfft n x).getD k 0 else (starRingEnd ℂ) ((fftRfft n x).getD (n - k) 0) := by
  have get : ∀ k, k ≤ n / 2 → (fftRfft n x).getD k 0 = dftRaw n (fun j => (x j : ℂ)) k := by
    intro k hk
    simp [fftRfft, List.getD, List.getElem?_map, List.getElem?_range (by omega : k < n / 2 + 1)]
  by_cases h1 : k ≤ n / 2
  · rw [if_pos h1, get k h1]
  · rw [if_neg h1, get (n - k) (by omega), dft_real_conj n (by omega) x (n - k) (by omega)]
    congr 1; omega

example : (fftRfft 5 fun j => (j : ℝ)).length = 3 ∧ (fftIrfft true none (fftRfft 5 fun j => (j : ℝ))).length = 4 := by
  simp [fftRfft, fftIrfft]

/-! ### C96 -/

theorem cis_re (t : ℝ) : (cis t).re = cos (2 * π * t) := by
  unfold cis
  rw [show (2 * (π : ℂ) * t * Complex.I) = ((2 * π * t : ℝ) : ℂ) * Complex.I by push_cast; ring, Complex.exp_ofReal_mul_I_re]

/-- redft00 computes the DCT-I. -/
theorem C96_redft00 (n : Nat) (hn : 2 ≤ n) (a : Nat → ℝ) (k : Nat) : redft00 false n a k = r2rRaw .c1 n a k := by
  obtain ⟨M, rfl⟩ : ∃ M, n = M + 2 := ⟨n - 2, by omega⟩
  have hM : ((M : ℝ) + 1) ≠ 0 := by positivity
  simp only [redft00, Bool.false_eq_true, if_false]
  unfold dftRaw r2rRaw
  rw [Complex.re_sum]
  have e : ∀ j ∈ Finset.range (2 * (M + 2 - 1)), (((evenExt (M + 2) a j : ℝ) : ℂ) * cis (-((j : ℝ) * k / (2 * (M + 2 - 1) : ℕ)))).re =
      evenExt (M + 2) a j * cos (π * (j * k) / (M + 1)) := by
    intro j _
    rw [Complex.re_ofReal_mul, cis_re, show M + 2 - 1 = M + 1 by omega]
    congr 1
    rw [← cos_neg]
    congr 1
    push_cast
    field_simp
  rw [Finset.sum_congr rfl e, show 2 * (M + 2 - 1) = (M + 2) + M by omega, Finset.sum_range_add]
  have e1 : ∀ j ∈ Finset.range (M + 2), evenExt (M + 2) a j * cos (π * (j * k) / (M + 1)) = a j * cos (π * (j * k) / (M + 1)) := by
    intro j hj; unfold evenExt; rw [if_pos (Finset.mem_range.1 hj)]
  rw [Finset.sum_congr rfl e1, ← Finset.sum_range_reflect (fun x => evenExt (M + 2) a (M + 2 + x) * cos (π * (((M + 2 + x : ℕ) : ℝ) * k) / (M + 1)))]
  have e2 : ∀ j ∈ Finset.range M, evenExt (M + 2) a (M + 2 + (M - 1 - j)) * cos (π * (((M + 2 + (M - 1 - j) : ℕ) : ℝ) * k) / (M + 1)) =
      a (j + 1) * cos (π * (((j + 1 : ℕ) : ℝ) * k) / (M + 1)) := by
    intro j hj
    have hj' := Finset.mem_range.1 hj
    unfold evenExt
    rw [if_neg (by omega), show 2 * (M + 2 - 1) - (M + 2 + (M - 1 - j)) = j + 1 by omega,
      show M + 2 + (M - 1 - j) = 2 * (M + 1) - (j + 1) by omega, Nat.cast_sub (by omega)]
    congr 1
    push_cast
    rw [show π * ((2 * ((M : ℝ) + 1) - (j + 1)) * k) / (M + 1) = ((k : ℤ) : ℝ) * (2 * π) - π * (((j : ℝ) + 1) * k) / (M + 1) by
      push_cast; field_simp, cos_int_mul_two_pi_sub]
  rw [Finset.sum_congr rfl e2]
  have e3 : ∀ j ∈ Finset.range (M + 2), r2rWeight .c1 (M + 2) j * a j * r2rWave .c1 (M + 2) j k =
      a j * cos (π * (j * k) / (M + 1)) + (if j = 0 ∨ j + 1 = M + 2 then 0 else a j * cos (π * (j * k) / (M + 1))) := by
    intro j _
    simp only [r2rWeight, r2rWave, show M + 2 - 1 = M + 1 by omega]
    rw [Nat.cast_add, Nat.cast_one]
    by_cases h : j = 0 ∨ j + 1 = M + 2
    · rw [if_pos h, if_pos h]; ring
    · rw [if_neg h, if_neg h]; ring
  rw [Finset.sum_congr rfl e3, Finset.sum_add_distrib]
  congr 1
  rw [Finset.sum_range_succ, Finset.sum_range_succ', if_pos (Or.inr rfl), if_pos (Or.inl rfl), add_zero, add_zero]
  apply Finset.sum_congr rfl
  intro j hj
  have := Finset.mem_range.1 hj
  rw [if_neg (by omega)]

/-- Specification: the value at x of the Chebyshev series with coefficients b. -/
noncomputable def chebSeries (n : Nat) (b : Nat → ℝ) (x : ℝ) : ℝ :=
  ∑ k ∈ Finset.range n, b k * (Polynomial.Chebyshev.T ℝ (k : ℤ)).eval x

/-- Specification: the Chebyshev points. -/
noncomputable def chebPoint (n j : Nat) : ℝ := cos (π * j / (n - 1 : ℕ))

theorem chebSeries_point (n : Nat) (b : Nat → ℝ) (j : Nat) :
    chebSeries n b (chebPoint n j) = ∑ k ∈ Finset.range n, b k * cos (π * (k * j) / (n - 1 : ℕ)) := by
  unfold chebSeries chebPoint
  apply Finset.sum_congr rfl
  intro k _
  rw [Polynomial.Chebyshev.T_real_cos]
  congr 2
  push_cast; ring

/-- C96: ichebt of a one-dimensional array gives the values of the Chebyshev series at the Chebyshev points. -/
theorem C96_ichebt (n : Nat) (hn : 2 ≤ n) (b : Nat → ℝ) (j : Nat) : ichebt1 n b j = chebSeries n b (chebPoint n j) := by
  unfold ichebt1
  rw [C96_redft00 n hn, chebSeries_point]
  unfold r2rRaw
  apply Finset.sum_congr rfl
  intro k hk
  have := Finset.mem_range.1 hk
  simp only [r2rWeight, r2rWave]
  by_cases h : k = 0 ∨ k + 1 = n
  · rw [if_pos h, if_neg (by omega)]; ring
  · rw [if_neg h, if_pos (by omega)]; ring

theorem redft_norm (n : Nat) (a : Nat → ℝ) (k : Nat) : redft00 true n a k = redft00 false n a k * (2 * ((n : ℝ) - 1))⁻¹ := by
  simp only [redft00, Bool.false_eq_true, if_false, if_true]; rw [div_eq_mul_inv]

/-- C96: chebt of a one-dimensional array gives the coefficients of the Chebyshev series through the array's values at the
Chebyshev points, and ichebt and chebt undo each other. -/
theorem C96_chebt (n : Nat) (hn : 2 ≤ n) (a : Nat → ℝ) (j : Nat) (hj : j < n) :
    chebSeries n (chebt1 n a) (chebPoint n j) = a j ∧ ichebt1 n (chebt1 n a) j = a j ∧ chebt1 n (ichebt1 n a) j = a j := by
  have h2 : (2 : ℝ) ≤ n := by exact_mod_cast hn
  have hz : ((n : ℝ) - 1) ≠ 0 := by intro h; linarith
  have h1 : ichebt1 n (chebt1 n a) j = a j := by
    unfold ichebt1
    have e : (fun i => if 1 ≤ i ∧ i + 1 < n then chebt1 n a i * (1 / 2) else chebt1 n a i) = fun i => r2rRaw .c1 n a i * (2 * ((n : ℝ) - 1))⁻¹ := by
      funext i
      simp only [chebt1]
      rw [redft_norm, C96_redft00 n hn]
      by_cases h : 1 ≤ i ∧ i + 1 < n
      · rw [if_pos h, if_pos h]; ring
      · rw [if_neg h, if_neg h]
    rw [e, C96_redft00 n hn, r2rRaw_mul]
    have := r2r_roundtrip .c1 n (fun _ => hn) a j hj
    simp only [R2R.inv, R2R.off] at this
    rw [this]
    push_cast
    field_simp; ring
  refine ⟨by rw [← C96_ichebt n hn]; exact h1, h1, ?_⟩
  have e : ichebt1 n a = r2rRaw .c1 n (fun i => if 1 ≤ i ∧ i + 1 < n then a i * (1 / 2) else a i) := by
    funext i; unfold ichebt1; rw [C96_redft00 n hn]
  simp only [chebt1]
  rw [redft_norm, C96_redft00 n hn, e]
  have := r2r_roundtrip .c1 n (fun _ => hn) (fun i => if 1 ≤ i ∧ i + 1 < n then a i * (1 / 2) else a i) j hj
  simp only [R2R.inv, R2R.off] at this
  rw [this]
  push_cast
  by_cases h : 1 ≤ j ∧ j + 1 < n
  · rw [if_pos h, if_pos h]; field_simp; ring
  · rw [if_neg h, if_neg h]; field_simp; ring

/-- C96 for two-dimensional arrays: the two still undo each other. -/
theorem C96_rows_inverse_partial (m n : Nat) (hn : 2 ≤ n) (a : Nat → Nat → ℝ) (r j : Nat) (hj : j < n) : ichebt2 m n (chebt2 m n a) r j = a r j := by
  have h2 : (2 : ℝ) ≤ n := by exact_mod_cast hn
  have hz : ((n : ℝ) - 1) ≠ 0 := by intro h; linarith
  unfold ichebt2
  have e : (fun i => if 1 ≤ r ∧ r + 1 < m then chebt2 m n a r i * (1 / 2) else chebt2 m n a r i) = fun i => r2rRaw .c1 n (a r) i * (2 * ((n : ℝ) - 1))⁻¹ := by
    funext i
    simp only [chebt2]
    rw [redft_norm, C96_redft00 n hn]
    by_cases h : 1 ≤ r ∧ r + 1 < m
    · rw [if_pos h, if_pos h]; ring
    · rw [if_neg h, if_neg h]
  rw [e, C96_redft00 n hn, r2rRaw_mul]
  have := r2r_roundtrip .c1 n (fun _ => hn) (a r) j hj
  simp only [R2R.inv, R2R.off] at this
  rw [this]
  push_cast
  field_simp; ring

/-- C96 fails for two-dimensional arrays, although the transform is documented to be along the last dimension: the factor
two goes to the inner rows rather than the inner columns. In the first row every inner coefficient is half of what it
should be; in an inner row the first and the last are twice what they should be. -/
theorem C96_rows_refuted (m n : Nat) (a : Nat → Nat → ℝ) (r k : Nat) :
    (r = 0 → 1 ≤ k → k + 1 < n → chebt2 m n a r k = chebt1 n (a r) k / 2) ∧
    (1 ≤ r → r + 1 < m → k = 0 → chebt2 m n a r k = 2 * chebt1 n (a r) k) ∧
    (2 ≤ n → chebt2 m n (fun _ _ => 1) 1 0 ≠ chebt1 n (fun _ => 1) 0 ∨ m ≤ 2) := by
  refine ⟨?_, ?_, ?_⟩
  · rintro rfl h1 h2
    simp only [chebt2, chebt1]
    rw [if_neg (by omega), if_pos ⟨h1, h2⟩]; ring
  · rintro h1 h2 rfl
    simp only [chebt2, chebt1]
    rw [if_pos ⟨h1, h2⟩, if_neg (by omega)]; ring
  · intro hn
    by_cases hm : m ≤ 2
    · exact Or.inr hm
    left
    simp only [chebt2, chebt1]
    rw [if_pos (by omega), if_neg (by omega), redft_norm]
    have h2 : (2 : ℝ) ≤ n := by exact_mod_cast hn
    have hpos : 0 < redft00 false n (fun _ => 1) 0 := by
      rw [C96_redft00 n hn]
      unfold r2rRaw
      apply Finset.sum_pos
      · intro j _
        simp only [r2rWeight, r2rWave, Nat.cast_zero, mul_zero, zero_div, cos_zero]
        by_cases h : j = 0 ∨ j + 1 = n
        · rw [if_pos h]; norm_num
        · rw [if_neg h]; norm_num
      · exact ⟨0, Finset.mem_range.2 (by omega)⟩
    have : 0 < (2 * ((n : ℝ) - 1))⁻¹ := inv_pos.2 (by linarith)
    have := mul_pos hpos this
    intro h; linarith

/-- The series 1 + 2x through (1, 3) and (−1, −1). -/
example : chebt1 2 (fun j => if j = 0 then 3 else -1) 0 = 1 ∧ chebt1 2 (fun j => if j = 0 then 3 else -1) 1 = 2 := by
  simp only [chebt1]
  rw [redft_norm, redft_norm, C96_redft00 2 (le_refl _), C96_redft00 2 (le_refl _)]
  simp [r2rRaw, Finset.sum_range_succ, r2rWeight, r2rWave]; norm_num

end Pixell
