import Verif.Lemmas.FlatFourier
import Verif.Model.Dct

/-! Orthogonality of the cosine and sine transforms. -/
namespace Pixell
open Real

theorem cos_pi_int_sub (i j : ℤ) : cos (π * (i - j)) = cos (π * i) * cos (π * j) := by
  rw [mul_sub, cos_sub, show sin (π * j) = 0 by rw [mul_comm]; exact sin_int_mul_pi j]; ring

theorem cos_pi_int_add (i j : ℤ) : cos (π * (i + j)) = cos (π * i) * cos (π * j) := by
  rw [mul_add, cos_add, show sin (π * j) = 0 by rw [mul_comm]; exact sin_int_mul_pi j]; ring

theorem sin_ne_zero_of_not_dvd {N : Nat} (hN : 0 < N) {m : ℤ} (h : ¬ (2 * N : ℤ) ∣ m) : sin (π * m / (2 * N)) ≠ 0 := by
  intro h0
  obtain ⟨q, hq⟩ := sin_eq_zero_iff.1 h0
  apply h
  refine ⟨q, ?_⟩
  have hN' : (N : ℝ) ≠ 0 := by exact_mod_cast hN.ne'
  have : (m : ℝ) = 2 * N * q := by
    field_simp at hq
    linarith
  exact_mod_cast this

theorem tele_half (θ : ℝ) (n : Nat) : ∑ k ∈ Finset.range n, cos (θ * (k + 1 / 2)) * (2 * sin (θ / 2)) = sin (θ * n) := by
  induction n with
  | zero => simp
  | succ n ih =>
    rw [Finset.sum_range_succ, ih]
    push_cast
    rw [show θ * (n + 1) = θ * (n + 1 / 2) + θ / 2 by ring, show θ * n = θ * (n + 1 / 2) - θ / 2 by ring, sin_add, sin_sub]
    ring

theorem cos_half_sum (n : Nat) (hn : 0 < n) (m : ℤ) :
    ∑ k ∈ Finset.range n, cos (π * (m * ((k : ℝ) + 1 / 2)) / n) = if (2 * n : ℤ) ∣ m then n * cos (π * m / (2 * n)) else 0 := by
  have hn' : (n : ℝ) ≠ 0 := by exact_mod_cast hn.ne'
  by_cases h : (2 * n : ℤ) ∣ m
  · rw [if_pos h]
    obtain ⟨q, rfl⟩ := h
    have e : ∀ k ∈ Finset.range n, cos (π * (((2 * n * q : ℤ) : ℝ) * ((k : ℝ) + 1 / 2)) / n) = cos (π * q) := by
      intro k _
      push_cast
      rw [show π * (2 * n * q * ((k : ℝ) + 1 / 2)) / n = π * q + ((q * k : ℤ) : ℝ) * (2 * π) by push_cast; field_simp; ring, cos_add_int_mul_two_pi]
    rw [Finset.sum_congr rfl e, Finset.sum_const, Finset.card_range, nsmul_eq_mul]
    push_cast
    congr 2
    field_simp
  · rw [if_neg h]
    have hs := sin_ne_zero_of_not_dvd hn h
    have t := tele_half (π * m / n) n
    rw [← Finset.sum_mul, show π * m / n * n = m * π by field_simp, sin_int_mul_pi, show π * m / n / 2 = π * m / (2 * n) by field_simp] at t
    have e : ∀ k ∈ Finset.range n, cos (π * (m * ((k : ℝ) + 1 / 2)) / n) = cos (π * m / n * (k + 1 / 2)) := by
      intro k _; congr 1; ring
    rw [Finset.sum_congr rfl e]
    rcases mul_eq_zero.1 t with t | t
    · exact t
    · exact absurd (by linarith) hs

theorem tele_int (θ : ℝ) (n : Nat) :
    ∑ k ∈ Finset.range n, cos (θ * (k + 1)) * (2 * sin (θ / 2)) = sin (θ * (n + 1 / 2)) - sin (θ / 2) := by
  induction n with
  | zero => simp; rw [show θ * 2⁻¹ = θ / 2 by ring, sub_self]
  | succ n ih =>
    rw [Finset.sum_range_succ, ih]
    push_cast
    rw [show θ * (n + 1 + 1 / 2) = θ * (n + 1) + θ / 2 by ring, show θ * (n + 1 / 2) = θ * (n + 1) - θ / 2 by ring, sin_add, sin_sub]
    ring

theorem cos_int_sum (M : Nat) (m : ℤ) :
    ∑ k ∈ Finset.range M, cos (π * (m * ((k : ℝ) + 1)) / (M + 1)) =
      (if (2 * (M + 1) : ℤ) ∣ m then (M + 1 : ℝ) else 0) - (1 + cos (π * m)) / 2 := by
  have hn' : ((M : ℝ) + 1) ≠ 0 := by positivity
  by_cases h : (2 * (M + 1) : ℤ) ∣ m
  · rw [if_pos h]
    obtain ⟨q, rfl⟩ := h
    have e : ∀ k ∈ Finset.range M, cos (π * (((2 * (M + 1) * q : ℤ) : ℝ) * ((k : ℝ) + 1)) / (M + 1)) = 1 := by
      intro k _
      push_cast
      rw [show π * (2 * (M + 1) * q * ((k : ℝ) + 1)) / (M + 1) = ((q * (k + 1) : ℤ) : ℝ) * (2 * π) by push_cast; field_simp, cos_int_mul_two_pi]
    rw [Finset.sum_congr rfl e, Finset.sum_const, Finset.card_range, nsmul_eq_mul,
      show π * ((2 * (M + 1) * q : ℤ) : ℝ) = (((M + 1) * q : ℤ) : ℝ) * (2 * π) by push_cast; ring, cos_int_mul_two_pi]
    ring
  · rw [if_neg h]
    have hs : sin (π * m / (2 * ((M + 1 : ℕ) : ℝ))) ≠ 0 := sin_ne_zero_of_not_dvd (Nat.succ_pos M) (by push_cast; exact h)
    have t := tele_int (π * m / (M + 1)) M
    rw [← Finset.sum_mul, show π * m / (M + 1) / 2 = π * m / (2 * ((M + 1 : ℕ) : ℝ)) by push_cast; field_simp,
      show π * m / (M + 1) * (M + 1 / 2) = m * π - π * m / (2 * ((M + 1 : ℕ) : ℝ)) by push_cast; field_simp; ring,
      sin_sub, sin_int_mul_pi] at t
    have e : ∀ k ∈ Finset.range M, cos (π * (m * ((k : ℝ) + 1)) / (M + 1)) = cos (π * m / (M + 1) * (k + 1)) := by
      intro k _; congr 1; ring
    rw [Finset.sum_congr rfl e]
    apply mul_right_cancel₀ hs
    rw [mul_comm (m : ℝ) π] at t
    linarith

theorem cc_half (a b : ℝ) : 2 * (cos a * cos b) = cos (a - b) + cos (a + b) := by rw [cos_sub, cos_add]; ring
theorem ss_half (a b : ℝ) : 2 * (sin a * sin b) = cos (a - b) - cos (a + b) := by rw [cos_sub, cos_add]; ring

theorem dvd_small {N m : ℤ} (h1 : -N < m) (h2 : m < N) : N ∣ m ↔ m = 0 :=
  ⟨fun h => Int.eq_zero_of_abs_lt_dvd h (abs_lt.2 ⟨h1, h2⟩), fun h => h ▸ dvd_zero N⟩

/-- Σ_k over the half-integer grid of cos·cos. -/
theorem half_cc (n : Nat) (hn : 0 < n) (p q : ℤ) :
    2 * ∑ k ∈ Finset.range n, cos (π * (p * ((k : ℝ) + 1 / 2)) / n) * cos (π * (q * ((k : ℝ) + 1 / 2)) / n) =
      (if (2 * n : ℤ) ∣ p - q then n * cos (π * (p - q : ℤ) / (2 * n)) else 0) +
      (if (2 * n : ℤ) ∣ p + q then n * cos (π * (p + q : ℤ) / (2 * n)) else 0) := by
  rw [← cos_half_sum n hn (p - q), ← cos_half_sum n hn (p + q), Finset.mul_sum, ← Finset.sum_add_distrib]
  apply Finset.sum_congr rfl
  intro k _
  rw [cc_half]
  push_cast
  congr 2 <;> ring

theorem half_ss (n : Nat) (hn : 0 < n) (p q : ℤ) :
    2 * ∑ k ∈ Finset.range n, sin (π * (p * ((k : ℝ) + 1 / 2)) / n) * sin (π * (q * ((k : ℝ) + 1 / 2)) / n) =
      (if (2 * n : ℤ) ∣ p - q then n * cos (π * (p - q : ℤ) / (2 * n)) else 0) -
      (if (2 * n : ℤ) ∣ p + q then n * cos (π * (p + q : ℤ) / (2 * n)) else 0) := by
  rw [← cos_half_sum n hn (p - q), ← cos_half_sum n hn (p + q), Finset.mul_sum, ← Finset.sum_sub_distrib]
  apply Finset.sum_congr rfl
  intro k _
  rw [ss_half]
  push_cast
  congr 2 <;> ring

/-- The same with frequencies halfway between integers. -/
theorem quarter_cc (n : Nat) (hn : 0 < n) (p q : ℤ) :
    2 * ∑ k ∈ Finset.range n, cos (π * ((p + 1 / 2) * ((k : ℝ) + 1 / 2)) / n) * cos (π * ((q + 1 / 2) * ((k : ℝ) + 1 / 2)) / n) =
      (if (2 * n : ℤ) ∣ p - q then n * cos (π * (p - q : ℤ) / (2 * n)) else 0) +
      (if (2 * n : ℤ) ∣ p + q + 1 then n * cos (π * (p + q + 1 : ℤ) / (2 * n)) else 0) := by
  rw [← cos_half_sum n hn (p - q), ← cos_half_sum n hn (p + q + 1), Finset.mul_sum, ← Finset.sum_add_distrib]
  apply Finset.sum_congr rfl
  intro k _
  rw [cc_half]
  push_cast
  congr 2 <;> ring

theorem quarter_ss (n : Nat) (hn : 0 < n) (p q : ℤ) :
    2 * ∑ k ∈ Finset.range n, sin (π * ((p + 1 / 2) * ((k : ℝ) + 1 / 2)) / n) * sin (π * ((q + 1 / 2) * ((k : ℝ) + 1 / 2)) / n) =
      (if (2 * n : ℤ) ∣ p - q then n * cos (π * (p - q : ℤ) / (2 * n)) else 0) -
      (if (2 * n : ℤ) ∣ p + q + 1 then n * cos (π * (p + q + 1 : ℤ) / (2 * n)) else 0) := by
  rw [← cos_half_sum n hn (p - q), ← cos_half_sum n hn (p + q + 1), Finset.mul_sum, ← Finset.sum_sub_distrib]
  apply Finset.sum_congr rfl
  intro k _
  rw [ss_half]
  push_cast
  congr 2 <;> ring

/-- Σ_k over the inner points of the integer grid. -/
noncomputable def innerSum (M : Nat) (m : ℤ) : ℝ := (if (2 * (M + 1) : ℤ) ∣ m then (M + 1 : ℝ) else 0) - (1 + cos (π * m)) / 2

theorem int_cc (M : Nat) (p q : ℤ) :
    2 * ∑ k ∈ Finset.range M, cos (π * (p * ((k : ℝ) + 1)) / (M + 1)) * cos (π * (q * ((k : ℝ) + 1)) / (M + 1)) =
      innerSum M (p - q) + innerSum M (p + q) := by
  unfold innerSum
  rw [← cos_int_sum M (p - q), ← cos_int_sum M (p + q), Finset.mul_sum, ← Finset.sum_add_distrib]
  apply Finset.sum_congr rfl
  intro k _
  rw [cc_half]
  push_cast
  congr 2 <;> ring

theorem int_ss (M : Nat) (p q : ℤ) :
    2 * ∑ k ∈ Finset.range M, sin (π * (p * ((k : ℝ) + 1)) / (M + 1)) * sin (π * (q * ((k : ℝ) + 1)) / (M + 1)) =
      innerSum M (p - q) - innerSum M (p + q) := by
  unfold innerSum
  rw [← cos_int_sum M (p - q), ← cos_int_sum M (p + q), Finset.mul_sum, ← Finset.sum_sub_distrib]
  apply Finset.sum_congr rfl
  intro k _
  rw [ss_half]
  push_cast
  congr 2 <;> ring

theorem int_half_cc (M : Nat) (p q : ℤ) :
    2 * ∑ k ∈ Finset.range M, cos (π * ((p + 1 / 2) * ((k : ℝ) + 1)) / (M + 1)) * cos (π * ((q + 1 / 2) * ((k : ℝ) + 1)) / (M + 1)) =
      innerSum M (p - q) + innerSum M (p + q + 1) := by
  unfold innerSum
  rw [← cos_int_sum M (p - q), ← cos_int_sum M (p + q + 1), Finset.mul_sum, ← Finset.sum_add_distrib]
  apply Finset.sum_congr rfl
  intro k _
  rw [cc_half]
  push_cast
  congr 2 <;> ring

theorem int_half_ss (M : Nat) (p q : ℤ) :
    2 * ∑ k ∈ Finset.range M, sin (π * ((p + 1 / 2) * ((k : ℝ) + 1)) / (M + 1)) * sin (π * ((q + 1 / 2) * ((k : ℝ) + 1)) / (M + 1)) =
      innerSum M (p - q) - innerSum M (p + q + 1) := by
  unfold innerSum
  rw [← cos_int_sum M (p - q), ← cos_int_sum M (p + q + 1), Finset.mul_sum, ← Finset.sum_sub_distrib]
  apply Finset.sum_congr rfl
  intro k _
  rw [ss_half]
  push_cast
  congr 2 <;> ring

theorem cos_pi_nat_sq (j : ℤ) : cos (π * j) * cos (π * j) = 1 := by
  have h := sin_sq_add_cos_sq (π * j)
  rw [show sin (π * j) = 0 by rw [mul_comm]; exact sin_int_mul_pi j] at h
  nlinarith

/-- Which transform undoes which: the product of the two matrices. -/
theorem r2r_kernel (t : R2R) (n : Nat) (hn : t = .c1 → 2 ≤ n) (i j : Nat) (hi : i < n) (hj : j < n) :
    r2rWeight t n j * ∑ k ∈ Finset.range n, r2rWeight t.inv n k * (r2rWave t n j k * r2rWave t.inv n k i) =
      if j = i then 2 * ((n : ℝ) + t.inv.off) else 0 := by
  have hpos : 0 < n := by omega
  have hn' : (n : ℝ) ≠ 0 := by exact_mod_cast hpos.ne'
  have dm : (2 * n : ℤ) ∣ (j : ℤ) - i ↔ j = i := by rw [dvd_small (by omega) (by omega)]; omega
  have d1 : ¬ (2 * n : ℤ) ∣ (j : ℤ) + i + 1 := by rw [dvd_small (by omega) (by omega)]; omega
  have c0 : ∀ {m : ℤ}, m = 0 → cos (π * m / (2 * n)) = 1 := by rintro m rfl; simp
  have cm : j = i → cos (π * ((j : ℤ) - (i : ℤ) : ℤ) / (2 * n)) = 1 := fun h => c0 (by omega)
  cases t with
  | c1 =>
    obtain ⟨M, rfl⟩ : ∃ M, n = M + 2 := ⟨n - 2, by have := hn rfl; omega⟩
    simp only [R2R.inv, r2rWeight, r2rWave, R2R.off]
    rw [Finset.sum_range_succ, Finset.sum_range_succ']
    have e : ∀ k ∈ Finset.range M, (if k + 1 = 0 ∨ k + 1 + 1 = M + 2 then (1 : ℝ) else 2) *
        (cos (π * (j * (k + 1 : ℕ)) / (M + 2 - 1 : ℕ)) * cos (π * ((k + 1 : ℕ) * i) / (M + 2 - 1 : ℕ))) =
        2 * (cos (π * ((j : ℤ) * ((k : ℝ) + 1)) / (M + 1)) * cos (π * ((i : ℤ) * ((k : ℝ) + 1)) / (M + 1))) := by
      intro k hk
      have := Finset.mem_range.1 hk
      rw [if_neg (by omega)]
      simp only [show M + 2 - 1 = M + 1 by omega]
      push_cast
      rw [mul_comm ((k : ℝ) + 1) (i : ℝ)]
    rw [Finset.sum_congr rfl e, ← Finset.mul_sum, int_cc]
    have hM : ((M : ℝ) + 1) ≠ 0 := by positivity
    have e2 : cos (π * (j * (M + 1 : ℕ)) / (M + 2 - 1 : ℕ)) * cos (π * ((M + 1 : ℕ) * i) / (M + 2 - 1 : ℕ)) = cos (π * (j : ℤ)) * cos (π * (i : ℤ)) := by
      simp only [show M + 2 - 1 = M + 1 by omega]
      push_cast
      rw [show π * (j * ((M : ℝ) + 1)) / (M + 1) = π * j by field_simp, show π * (((M : ℝ) + 1) * i) / (M + 1) = π * i by field_simp]
    rw [e2]
    simp only [innerSum, Nat.cast_zero, zero_mul, mul_zero, zero_div, cos_zero, Int.cast_sub, Int.cast_add]
    rw [cos_pi_int_sub, cos_pi_int_add]
    simp only [true_or, or_true, if_true]
    have hd1 : (2 * ((M : ℤ) + 1)) ∣ (j : ℤ) - i ↔ j = i := by rw [dvd_small (by omega) (by omega)]; omega
    have hd2 : (2 * ((M : ℤ) + 1)) ∣ (j : ℤ) + i ↔ (j = i ∧ (j = 0 ∨ j + 1 = M + 2)) := by
      constructor
      · intro h
        by_cases h2 : (j : ℤ) + i = 2 * (M + 1)
        · omega
        · have := (dvd_small (by omega) (by omega)).1 h; omega
      · rintro ⟨rfl, rfl | h⟩
        · simp
        · exact ⟨1, by omega⟩
    simp only [hd1, hd2]
    by_cases h : j = i
    · by_cases h' : j = 0 ∨ j + 1 = M + 2
      · subst h; simp only [h', if_true, true_and]; push_cast; ring
      · subst h; simp only [h', if_false, and_false, if_true]; push_cast; ring
    · simp only [h, false_and, if_false]; push_cast; ring
  | c2 =>
    obtain ⟨M, rfl⟩ : ∃ M, n = M + 1 := ⟨n - 1, by omega⟩
    simp only [R2R.inv, r2rWeight, r2rWave, R2R.off]
    rw [Finset.sum_range_succ']
    have e : ∀ k ∈ Finset.range M, (if k + 1 = 0 then (1 : ℝ) else 2) *
        (cos (π * ((j + 1 / 2) * (k + 1 : ℕ)) / (M + 1 : ℕ)) * cos (π * ((k + 1 : ℕ) * (i + 1 / 2)) / (M + 1 : ℕ))) =
        2 * (cos (π * (((j : ℤ) + 1 / 2) * ((k : ℝ) + 1)) / (M + 1)) * cos (π * (((i : ℤ) + 1 / 2) * ((k : ℝ) + 1)) / (M + 1))) := by
      intro k _
      rw [if_neg (by omega)]
      push_cast
      rw [mul_comm ((k : ℝ) + 1) ((i : ℝ) + 1 / 2)]
    rw [Finset.sum_congr rfl e, ← Finset.mul_sum, int_half_cc]
    simp only [innerSum, Nat.cast_zero, zero_mul, mul_zero, zero_div, cos_zero, if_true]
    push_cast at dm d1
    rw [if_neg d1, Int.cast_sub, show (((j : ℤ) + i + 1 : ℤ) : ℝ) = ((j : ℤ) : ℝ) + ((i + 1 : ℤ) : ℝ) by push_cast; ring, cos_pi_int_sub, cos_pi_int_add,
      show ((i + 1 : ℤ) : ℝ) = (i : ℤ) + (1 : ℤ) by push_cast; ring, cos_pi_int_add]
    simp only [dm]
    push_cast
    rw [mul_one, cos_pi]
    by_cases h : j = i
    · rw [if_pos h, if_pos h]; ring
    · rw [if_neg h, if_neg h]; ring
  | c3 =>
    simp only [R2R.inv, r2rWeight, r2rWave, R2R.off]
    have e : ∀ k ∈ Finset.range n, (2 : ℝ) * (cos (π * (j * (k + 1 / 2)) / n) * cos (π * ((k + 1 / 2) * i) / n)) =
        2 * (cos (π * ((j : ℤ) * ((k : ℝ) + 1 / 2)) / n) * cos (π * ((i : ℤ) * ((k : ℝ) + 1 / 2)) / n)) := by
      intro k _
      push_cast
      rw [mul_comm ((k : ℝ) + 1 / 2) (i : ℝ)]
    rw [Finset.sum_congr rfl e, ← Finset.mul_sum, half_cc n hpos]
    have hd2 : (2 * n : ℤ) ∣ (j : ℤ) + i ↔ (j = i ∧ j = 0) := by rw [dvd_small (by omega) (by omega)]; omega
    simp only [dm, hd2]
    by_cases h : j = i
    · by_cases h' : j = 0
      · rw [if_pos h, if_pos h', if_pos ⟨h, h'⟩, if_pos h, cm h, c0 (by omega)]; push_cast; ring
      · rw [if_pos h, if_neg h', if_neg (fun x : j = i ∧ j = 0 => h' x.2), if_pos h, cm h]; push_cast; ring
    · rw [if_neg h, if_neg (fun x : j = i ∧ j = 0 => h x.1), if_neg h]; ring
  | c4 =>
    simp only [R2R.inv, r2rWeight, r2rWave, R2R.off]
    have e : ∀ k ∈ Finset.range n, (2 : ℝ) * (cos (π * ((j + 1 / 2) * (k + 1 / 2)) / n) * cos (π * ((k + 1 / 2) * (i + 1 / 2)) / n)) =
        2 * (cos (π * (((j : ℤ) + 1 / 2) * ((k : ℝ) + 1 / 2)) / n) * cos (π * (((i : ℤ) + 1 / 2) * ((k : ℝ) + 1 / 2)) / n)) := by
      intro k _
      push_cast
      rw [mul_comm ((k : ℝ) + 1 / 2) ((i : ℝ) + 1 / 2)]
    rw [Finset.sum_congr rfl e, ← Finset.mul_sum, quarter_cc n hpos, if_neg d1]
    simp only [dm]
    by_cases h : j = i
    · rw [if_pos h, if_pos h, cm h]; push_cast; ring
    · rw [if_neg h, if_neg h]; ring
  | s1 =>
    simp only [R2R.inv, r2rWeight, r2rWave, R2R.off]
    have e : ∀ k ∈ Finset.range n, (2 : ℝ) * (sin (π * ((j + 1) * (k + 1)) / (n + 1)) * sin (π * ((k + 1) * (i + 1)) / (n + 1))) =
        2 * (sin (π * (((j + 1 : ℕ) : ℤ) * ((k : ℝ) + 1)) / (n + 1)) * sin (π * (((i + 1 : ℕ) : ℤ) * ((k : ℝ) + 1)) / (n + 1))) := by
      intro k _
      push_cast
      rw [mul_comm ((k : ℝ) + 1) ((i : ℝ) + 1)]
    rw [Finset.sum_congr rfl e, ← Finset.mul_sum, int_ss]
    have hd1 : (2 * ((n : ℤ) + 1)) ∣ ((j + 1 : ℕ) : ℤ) - ((i + 1 : ℕ) : ℤ) ↔ j = i := by rw [dvd_small (by omega) (by omega)]; omega
    have hd2 : ¬ (2 * ((n : ℤ) + 1)) ∣ ((j + 1 : ℕ) : ℤ) + ((i + 1 : ℕ) : ℤ) := by rw [dvd_small (by omega) (by omega)]; omega
    simp only [innerSum, Int.cast_sub, Int.cast_add]
    rw [cos_pi_int_sub, cos_pi_int_add, if_neg hd2]
    simp only [hd1]
    by_cases h : j = i
    · rw [if_pos h, if_pos h]; push_cast; ring
    · rw [if_neg h, if_neg h]; ring
  | s2 =>
    obtain ⟨M, rfl⟩ : ∃ M, n = M + 1 := ⟨n - 1, by omega⟩
    simp only [R2R.inv, r2rWeight, r2rWave, R2R.off]
    rw [Finset.sum_range_succ]
    have e : ∀ k ∈ Finset.range M, (if k + 1 = M + 1 then (1 : ℝ) else 2) *
        (sin (π * ((j + 1 / 2) * (k + 1)) / (M + 1 : ℕ)) * sin (π * ((k + 1) * (i + 1 / 2)) / (M + 1 : ℕ))) =
        2 * (sin (π * (((j : ℤ) + 1 / 2) * ((k : ℝ) + 1)) / (M + 1)) * sin (π * (((i : ℤ) + 1 / 2) * ((k : ℝ) + 1)) / (M + 1))) := by
      intro k hk
      have := Finset.mem_range.1 hk
      rw [if_neg (by omega)]
      push_cast
      rw [mul_comm ((k : ℝ) + 1) ((i : ℝ) + 1 / 2)]
    rw [Finset.sum_congr rfl e, ← Finset.mul_sum, int_half_ss]
    have hs : ∀ a : ℕ, sin (π * (((a : ℝ) + 1 / 2) * (M + 1)) / (M + 1 : ℕ)) = cos (π * (a : ℤ)) := by
      intro a
      have hM : ((M : ℝ) + 1) ≠ 0 := by positivity
      push_cast
      rw [show π * (((a : ℝ) + 1 / 2) * (M + 1)) / (M + 1) = π * a + π / 2 by field_simp, sin_add_pi_div_two]
    rw [hs, show π * (((M : ℝ) + 1) * (i + 1 / 2)) / (M + 1 : ℕ) = π * (((i : ℝ) + 1 / 2) * (M + 1)) / (M + 1 : ℕ) by ring, hs]
    simp only [innerSum, if_true]
    push_cast at dm d1
    rw [if_neg d1, Int.cast_sub, show (((j : ℤ) + i + 1 : ℤ) : ℝ) = ((j : ℤ) : ℝ) + ((i + 1 : ℤ) : ℝ) by push_cast; ring, cos_pi_int_sub, cos_pi_int_add,
      show ((i + 1 : ℤ) : ℝ) = (i : ℤ) + (1 : ℤ) by push_cast; ring, cos_pi_int_add]
    simp only [dm]
    push_cast
    rw [mul_one, cos_pi]
    by_cases h : j = i
    · rw [if_pos h, if_pos h]; ring
    · rw [if_neg h, if_neg h]; ring
  | s3 =>
    simp only [R2R.inv, r2rWeight, r2rWave, R2R.off]
    have e : ∀ k ∈ Finset.range n, (2 : ℝ) * (sin (π * ((j + 1) * (k + 1 / 2)) / n) * sin (π * ((k + 1 / 2) * (i + 1)) / n)) =
        2 * (sin (π * (((j + 1 : ℕ) : ℤ) * ((k : ℝ) + 1 / 2)) / n) * sin (π * (((i + 1 : ℕ) : ℤ) * ((k : ℝ) + 1 / 2)) / n)) := by
      intro k _
      push_cast
      rw [mul_comm ((k : ℝ) + 1 / 2) ((i : ℝ) + 1)]
    rw [Finset.sum_congr rfl e, ← Finset.mul_sum, half_ss n hpos]
    have hd1 : (2 * n : ℤ) ∣ ((j + 1 : ℕ) : ℤ) - ((i + 1 : ℕ) : ℤ) ↔ j = i := by rw [dvd_small (by omega) (by omega)]; omega
    have hd2 : (2 * n : ℤ) ∣ ((j + 1 : ℕ) : ℤ) + ((i + 1 : ℕ) : ℤ) ↔ (j = i ∧ j + 1 = n) := by
      constructor
      · intro h
        by_cases h2 : ((j + 1 : ℕ) : ℤ) + ((i + 1 : ℕ) : ℤ) = 2 * n
        · omega
        · have := (dvd_small (by omega) (by omega)).1 h; omega
      · rintro ⟨rfl, h⟩
        exact ⟨1, by omega⟩
    simp only [hd1, hd2]
    by_cases h : j = i
    · have c0' : cos (π * (((j + 1 : ℕ) : ℤ) - ((i + 1 : ℕ) : ℤ) : ℤ) / (2 * n)) = 1 := c0 (by omega)
      by_cases h' : j + 1 = n
      · have : cos (π * (((j + 1 : ℕ) : ℤ) + ((i + 1 : ℕ) : ℤ) : ℤ) / (2 * n)) = -1 := by
          rw [show ((j + 1 : ℕ) : ℤ) + ((i + 1 : ℕ) : ℤ) = 2 * n by omega]
          push_cast
          rw [show π * (2 * (n : ℝ)) / (2 * n) = π by field_simp, cos_pi]
        rw [if_pos h, if_pos h', if_pos ⟨h, h'⟩, if_pos h, c0', this]; push_cast; ring
      · rw [if_pos h, if_neg h', if_neg (fun x : j = i ∧ j + 1 = n => h' x.2), if_pos h, c0']; push_cast; ring
    · rw [if_neg h, if_neg (fun x : j = i ∧ j + 1 = n => h x.1), if_neg h]; ring
  | s4 =>
    simp only [R2R.inv, r2rWeight, r2rWave, R2R.off]
    have e : ∀ k ∈ Finset.range n, (2 : ℝ) * (sin (π * ((j + 1 / 2) * (k + 1 / 2)) / n) * sin (π * ((k + 1 / 2) * (i + 1 / 2)) / n)) =
        2 * (sin (π * (((j : ℤ) + 1 / 2) * ((k : ℝ) + 1 / 2)) / n) * sin (π * (((i : ℤ) + 1 / 2) * ((k : ℝ) + 1 / 2)) / n)) := by
      intro k _
      push_cast
      rw [mul_comm ((k : ℝ) + 1 / 2) ((i : ℝ) + 1 / 2)]
    rw [Finset.sum_congr rfl e, ← Finset.mul_sum, quarter_ss n hpos, if_neg d1]
    simp only [dm]
    by_cases h : j = i
    · rw [if_pos h, if_pos h, cm h]; push_cast; ring
    · rw [if_neg h, if_neg h]; ring

/-- The inverse transform of a transform. -/
theorem r2r_roundtrip (t : R2R) (n : Nat) (hn : t = .c1 → 2 ≤ n) (x : Nat → ℝ) (i : Nat) (hi : i < n) :
    r2rRaw t.inv n (r2rRaw t n x) i = 2 * ((n : ℝ) + t.inv.off) * x i := by
  unfold r2rRaw
  have e : ∀ k ∈ Finset.range n, r2rWeight t.inv n k * (∑ j ∈ Finset.range n, r2rWeight t n j * x j * r2rWave t n j k) * r2rWave t.inv n k i =
      ∑ j ∈ Finset.range n, x j * (r2rWeight t n j * (r2rWeight t.inv n k * (r2rWave t n j k * r2rWave t.inv n k i))) := by
    intro k _
    rw [Finset.mul_sum, Finset.sum_mul]
    apply Finset.sum_congr rfl; intro j _; ring
  rw [Finset.sum_congr rfl e, Finset.sum_comm]
  have e2 : ∀ j ∈ Finset.range n, ∑ k ∈ Finset.range n, x j * (r2rWeight t n j * (r2rWeight t.inv n k * (r2rWave t n j k * r2rWave t.inv n k i))) =
      if j = i then 2 * ((n : ℝ) + t.inv.off) * x i else 0 := by
    intro j hj
    rw [← Finset.mul_sum, ← Finset.mul_sum, r2r_kernel t n hn i j hi (Finset.mem_range.1 hj)]
    by_cases h : j = i
    · rw [if_pos h, if_pos h, h]; ring
    · rw [if_neg h, if_neg h, mul_zero]
  rw [Finset.sum_congr rfl e2, Finset.sum_ite_eq' _ _ (fun _ => 2 * ((n : ℝ) + t.inv.off) * x i), if_pos (Finset.mem_range.2 hi)]

end Pixell
