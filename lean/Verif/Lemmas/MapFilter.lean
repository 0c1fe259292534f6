import Verif.Model.MapFilter
import Verif.Lemmas.FlatFourier
import Verif.Props.FlatFourier

/-
Filters of real maps: the transform of a real map is Hermitian, and filters with the same symmetry give real maps.
-/
namespace Pixell
open Complex
open scoped ComplexConjugate

/-- The index of the opposite frequency. -/
def hneg (n k : Nat) : Nat := (n - k) % n

theorem hneg_lt {n : Nat} (hn : 0 < n) (k : Nat) : hneg n k < n := Nat.mod_lt _ hn

theorem hneg_hneg {n k : Nat} (hk : k < n) : hneg n (hneg n k) = k := by
  unfold hneg
  by_cases h : k = 0
  · subst h; simp
  · rw [Nat.mod_eq_of_lt (a := n - k) (by omega), Nat.mod_eq_of_lt (by omega)]; omega

theorem sum_hneg {M : Type} [AddCommMonoid M] (n : Nat) (f : Nat → M) :
    ∑ k ∈ Finset.range n, f (hneg n k) = ∑ k ∈ Finset.range n, f k := by
  rcases Nat.eq_zero_or_pos n with rfl | hn
  · simp
  · apply Finset.sum_nbij' (hneg n) (hneg n)
    · intro a _; exact Finset.mem_range.mpr (hneg_lt hn a)
    · intro a _; exact Finset.mem_range.mpr (hneg_lt hn a)
    · intro a ha; exact hneg_hneg (Finset.mem_range.mp ha)
    · intro a ha; exact hneg_hneg (Finset.mem_range.mp ha)
    · intro a _; rfl

theorem cis_hneg {n k : Nat} (hk : k < n) (j : Nat) : cis ((j : ℝ) * hneg n k / n) = conj (cis ((j : ℝ) * k / n)) := by
  have hn' : (n : ℝ) ≠ 0 := by exact_mod_cast (by omega : n ≠ 0)
  rw [← cis_neg]
  unfold hneg
  by_cases h : k = 0
  · subst h; simp
  · rw [Nat.mod_eq_of_lt (a := n - k) (by omega), Nat.cast_sub hk.le,
      show (j : ℝ) * ((n : ℝ) - k) / n = -((j : ℝ) * k / n) + ((j : ℤ) : ℝ) by push_cast; field_simp; ring, cis_add_int]

theorem idft_conj (n : Nat) (y : Nat → ℂ) (j : Nat) : idftRaw n (fun k => conj (y (hneg n k))) j = conj (idftRaw n y j) := by
  unfold idftRaw
  rw [map_sum, ← sum_hneg n]
  apply Finset.sum_congr rfl
  intro k hk
  have hk' := Finset.mem_range.mp hk
  rw [map_mul, cis_hneg hk']
  simp only
  rw [hneg_hneg hk']

theorem dft_conj (n : Nat) (x : Nat → ℂ) (k : Nat) (hk : k < n) : dftRaw n (fun j => conj (x j)) (hneg n k) = conj (dftRaw n x k) := by
  unfold dftRaw
  rw [map_sum]
  apply Finset.sum_congr rfl
  intro j _
  rw [map_mul, cis_neg, cis_hneg hk, cis_neg]

theorem ifft2_conj (ny nx : Nat) (y : Nat → Nat → ℂ) (jy jx : Nat) :
    ifft2 ny nx (fun ky kx => conj (y (hneg ny ky) (hneg nx kx))) jy jx = conj (ifft2 ny nx y jy jx) := by
  unfold ifft2
  simp only [idft_conj]
  exact idft_conj ny (fun ky => idftRaw nx (y ky) jx) jy

theorem fft2_conj (ny nx : Nat) (x : Nat → Nat → ℂ) (ky kx : Nat) (hy : ky < ny) (hx : kx < nx) :
    fft2 ny nx (fun y x' => conj (x y x')) (hneg ny ky) (hneg nx kx) = conj (fft2 ny nx x ky kx) := by
  unfold fft2
  simp only [dft_conj nx _ kx hx]
  exact dft_conj ny (fun jy => dftRaw nx (x jy) kx) ky hy

/-- The symmetry of the transforms of real maps. -/
def HermitianF (ny nx : Nat) (p : Nat → Nat → ℂ) : Prop :=
  ∀ ky kx, ky < ny → kx < nx → p (hneg ny ky) (hneg nx kx) = conj (p ky kx)

theorem fft2_hermitian (ny nx : Nat) (m : Nat → Nat → ℝ) : HermitianF ny nx (fft2 ny nx fun y x => (m y x : ℂ)) := by
  intro ky kx hy hx
  have := fft2_conj ny nx (fun y x => (m y x : ℂ)) ky kx hy hx
  simpa only [conj_ofReal] using this

theorem HermitianF.mul {ny nx : Nat} {p q : Nat → Nat → ℂ} (hp : HermitianF ny nx p) (hq : HermitianF ny nx q) :
    HermitianF ny nx fun ky kx => p ky kx * q ky kx := by
  intro ky kx hy hx
  rw [map_mul]
  simp only
  rw [hp ky kx hy hx, hq ky kx hy hx]

theorem ifft2_real (ny nx : Nat) (y : Nat → Nat → ℂ) (hy : HermitianF ny nx y) (jy jx : Nat) :
    conj (ifft2 ny nx y jy jx) = ifft2 ny nx y jy jx := by
  rw [← ifft2_conj]
  apply ifft2_congr
  intro ky kx h1 h2
  rw [hy ky kx h1 h2, conj_conj]

/-- The filtered map without the real part. -/
noncomputable def filterC (ny nx : Nat) (p : Nat → Nat → ℂ) (m : Nat → Nat → ℂ) (jy jx : Nat) : ℂ :=
  ifft2 ny nx (fun ky kx => fft2 ny nx m ky kx * p ky kx) jy jx / (ny * nx)

theorem sqrt_norm (ny nx : Nat) (hy : 0 < ny) (hx : 0 < nx) :
    ((fftNorm .unit false ny nx 1 : ℝ) : ℂ) * ((ifftNorm .unit false ny nx 1 : ℝ) : ℂ) = 1 / ((ny : ℂ) * nx) := by
  have h := norm_product .unit (by decide) ny nx hy hx 1 one_pos
  have hn : ((ny : ℂ) * nx) ≠ 0 := by
    have h1 : (ny : ℂ) ≠ 0 := by exact_mod_cast hy.ne'
    have h2 : (nx : ℂ) ≠ 0 := by exact_mod_cast hx.ne'
    exact mul_ne_zero h1 h2
  rw [eq_div_iff hn]
  exact_mod_cast h

theorem enmap_filterC (ny nx : Nat) (hy : 0 < ny) (hx : 0 < nx) (p m : Nat → Nat → ℂ) (jy jx : Nat) :
    enmapIfft .unit false ny nx 1 (fun ky kx => enmapFft .unit false ny nx 1 m ky kx * p ky kx) jy jx = filterC ny nx p m jy jx := by
  unfold enmapIfft enmapFft filterC
  have e : (fun ky kx => fft2 ny nx m ky kx * ((fftNorm .unit false ny nx 1 : ℝ) : ℂ) * p ky kx) =
      fun ky kx => (fft2 ny nx m ky kx * p ky kx) * ((fftNorm .unit false ny nx 1 : ℝ) : ℂ) := by
    funext ky kx; ring
  rw [e, ifft2_mul, mul_assoc, sqrt_norm ny nx hy hx]
  ring

theorem filterMap_eq (ny nx : Nat) (hy : 0 < ny) (hx : 0 < nx) (p : Nat → Nat → ℂ) (m : Nat → Nat → ℝ) (jy jx : Nat) :
    filterMap ny nx p m jy jx = (filterC ny nx p (fun y x => (m y x : ℂ)) jy jx).re := by
  unfold filterMap
  rw [enmap_filterC ny nx hy hx]

/-- A filter with the symmetry of real maps gives a real map: nothing is dropped. -/
theorem filterC_real (ny nx : Nat) (p : Nat → Nat → ℂ) (hp : HermitianF ny nx p) (m : Nat → Nat → ℝ) (jy jx : Nat) :
    ((filterC ny nx p (fun y x => (m y x : ℂ)) jy jx).re : ℂ) = filterC ny nx p (fun y x => (m y x : ℂ)) jy jx := by
  apply conj_eq_iff_re.1
  unfold filterC
  rw [map_div₀, ifft2_real ny nx _ ((fft2_hermitian ny nx m).mul hp), map_mul, conj_natCast, conj_natCast]

theorem filterC_congr {ny nx : Nat} {p q m m' : Nat → Nat → ℂ} (hp : ∀ y x, y < ny → x < nx → p y x = q y x)
    (hm : ∀ y x, y < ny → x < nx → m y x = m' y x) (jy jx : Nat) : filterC ny nx p m jy jx = filterC ny nx q m' jy jx := by
  unfold filterC
  congr 1
  apply ifft2_congr
  intro ky kx hy hx
  rw [fft2_congr hm, hp ky kx hy hx]

theorem filterC_comp (ny nx : Nat) (hy : 0 < ny) (hx : 0 < nx) (p q m : Nat → Nat → ℂ) (jy jx : Nat) :
    filterC ny nx p (filterC ny nx q m) jy jx = filterC ny nx (fun ky kx => q ky kx * p ky kx) m jy jx := by
  unfold filterC
  congr 1
  apply ifft2_congr
  intro ky kx h1 h2
  have h1' : (ny : ℂ) ≠ 0 := by exact_mod_cast hy.ne'
  have h2' : (nx : ℂ) ≠ 0 := by exact_mod_cast hx.ne'
  have e : (fun y x => ifft2 ny nx (fun ky kx => fft2 ny nx m ky kx * q ky kx) y x / ((ny : ℂ) * nx)) =
      fun y x => ifft2 ny nx (fun ky kx => fft2 ny nx m ky kx * q ky kx) y x * (1 / ((ny : ℂ) * nx)) := by
    funext y x; ring
  rw [e, fft2_mul, fft2_ifft2 ny nx _ ky kx h1 h2]
  field_simp

theorem filterMap_congr {ny nx : Nat} {p q : Nat → Nat → ℂ} {m m' : Nat → Nat → ℝ} (hy : 0 < ny) (hx : 0 < nx)
    (hp : ∀ y x, y < ny → x < nx → p y x = q y x) (hm : ∀ y x, y < ny → x < nx → m y x = m' y x) (jy jx : Nat) :
    filterMap ny nx p m jy jx = filterMap ny nx q m' jy jx := by
  rw [filterMap_eq ny nx hy hx, filterMap_eq ny nx hy hx, filterC_congr hp (fun y x h1 h2 => by rw [hm y x h1 h2])]

/-- Filters in a row, if the first one keeps maps real. -/
theorem filterMap_comp (ny nx : Nat) (hy : 0 < ny) (hx : 0 < nx) (p q : Nat → Nat → ℂ) (hq : HermitianF ny nx q) (m : Nat → Nat → ℝ)
    (jy jx : Nat) : filterMap ny nx p (filterMap ny nx q m) jy jx = filterMap ny nx (fun ky kx => q ky kx * p ky kx) m jy jx := by
  rw [filterMap_eq ny nx hy hx, filterMap_eq ny nx hy hx]
  have e : (fun y x => ((filterMap ny nx q m y x : ℝ) : ℂ)) = filterC ny nx q fun y x => (m y x : ℂ) := by
    funext y x
    rw [filterMap_eq ny nx hy hx, filterC_real ny nx q hq]
  rw [e, filterC_comp ny nx hy hx]

/-- The filter that does nothing. -/
theorem filterMap_one (ny nx : Nat) (m : Nat → Nat → ℝ) (jy jx : Nat) (hy : jy < ny) (hx : jx < nx) :
    filterMap ny nx (fun _ _ => 1) m jy jx = m jy jx := by
  rw [filterMap_eq ny nx (by omega) (by omega)]
  unfold filterC
  simp only [mul_one]
  have h1' : (ny : ℂ) ≠ 0 := by exact_mod_cast (by omega : ny ≠ 0)
  have h2' : (nx : ℂ) ≠ 0 := by exact_mod_cast (by omega : nx ≠ 0)
  rw [show (fun ky kx => fft2 ny nx (fun y x => (m y x : ℂ)) ky kx) = fft2 ny nx (fun y x => (m y x : ℂ)) from rfl,
    ifft2_fft2 ny nx _ jy jx hy hx, mul_div_cancel_left₀ _ (mul_ne_zero h1' h2'), ofReal_re]

theorem fftfreq_hneg_sq (n k : Nat) (hk : k < n) : fftfreq n (hneg n k) ^ 2 = fftfreq n k ^ 2 := by
  have hn' : (n : ℝ) ≠ 0 := by exact_mod_cast (by omega : n ≠ 0)
  unfold hneg
  by_cases h0 : k = 0
  · subst h0; simp
  · rw [Nat.mod_eq_of_lt (a := n - k) (by omega)]
    unfold fftfreq
    by_cases h : k < (n - 1) / 2 + 1
    · rw [if_pos h, if_neg (by omega), Nat.cast_sub hk.le]; field_simp; ring
    · by_cases h2 : n - k < (n - 1) / 2 + 1
      · rw [if_neg h, if_pos h2, Nat.cast_sub hk.le]; field_simp; ring
      · have e : n - k = k := by omega
        rw [e]

theorem fftfreq_hneg (n k : Nat) (hk : k < n) (h2 : 2 * k ≠ n) : fftfreq n (hneg n k) = -fftfreq n k := by
  have hn' : (n : ℝ) ≠ 0 := by exact_mod_cast (by omega : n ≠ 0)
  unfold hneg
  by_cases h0 : k = 0
  · subst h0; simp [fftfreq]
  · rw [Nat.mod_eq_of_lt (a := n - k) (by omega)]
    unfold fftfreq
    by_cases h : k < (n - 1) / 2 + 1
    · rw [if_pos h, if_neg (by omega), Nat.cast_sub hk.le]; field_simp; ring
    · rw [if_neg h, if_pos (by omega), Nat.cast_sub hk.le]; field_simp; ring

theorem lAxis_hneg_sq (n k : Nat) (s : ℝ) (hk : k < n) : lAxis n s (hneg n k) ^ 2 = lAxis n s k ^ 2 := by
  unfold lAxis
  rw [show ∀ a : ℝ, (a / s * 2 * Real.pi) ^ 2 = a ^ 2 * (1 / s * 2 * Real.pi) ^ 2 by intro a; ring, fftfreq_hneg_sq n k hk]
  ring

theorem lAxis_hneg (n k : Nat) (s : ℝ) (hk : k < n) (h2 : 2 * k ≠ n) : lAxis n s (hneg n k) = -lAxis n s k := by
  unfold lAxis; rw [fftfreq_hneg n k hk h2]; ring

theorem fftfreq_abs (n k : Nat) (hk : k < n) : |fftfreq n k| ≤ 1 / 2 := by
  have hn' : (0 : ℝ) < n := by exact_mod_cast (by omega : 0 < n)
  unfold fftfreq
  by_cases h : k < (n - 1) / 2 + 1
  · rw [if_pos h, abs_of_nonneg (by positivity), div_le_iff₀ hn']
    have : (2 * k : ℕ) ≤ n := by omega
    have : (2 * k : ℝ) ≤ n := by exact_mod_cast this
    linarith
  · rw [if_neg h, abs_div, abs_of_pos hn', div_le_iff₀ hn', abs_le]
    have h1 : (n : ℕ) ≤ 2 * k := by omega
    have h1' : (n : ℝ) ≤ 2 * k := by exact_mod_cast h1
    have h2 : (k : ℝ) < n := by exact_mod_cast hk
    constructor <;> linarith

end Pixell
