import Verif.Model.SpecIO
import Mathlib.Algebra.Polynomial.Derivative
import Mathlib.Analysis.Calculus.Deriv.Polynomial
import Mathlib.MeasureTheory.Integral.IntervalIntegral.FundThmCalculus
import Mathlib.Topology.Algebra.Polynomial
import Mathlib.Tactic.LinearCombination
import Mathlib.Tactic.FieldSimp

/-! The Legendre polynomials are orthogonal. -/

namespace Pixell

open Polynomial

/-- The Legendre polynomials as polynomials. -/
noncomputable def legPoly : ℕ → ℝ[X]
  | 0 => 1
  | 1 => X
  | l + 2 => C (1 / ((l : ℝ) + 2)) * (C (2 * (l : ℝ) + 3) * X * legPoly (l + 1) - C ((l : ℝ) + 1) * legPoly l)

theorem legPoly_eval (l : ℕ) (x : ℝ) : (legPoly l).eval x = legendreP l x := by
  induction l using Nat.twoStepInduction with
  | zero => simp [legPoly, legendreP]
  | one => simp [legPoly, legendreP]
  | more l h1 h2 =>
    rw [legPoly, legendreP]
    simp only [eval_mul, eval_sub, eval_C, eval_X, h1, h2]
    ring

theorem legPoly_rec (l : ℕ) : C ((l : ℝ) + 2) * legPoly (l + 2) = C (2 * (l : ℝ) + 3) * X * legPoly (l + 1) - C ((l : ℝ) + 1) * legPoly l := by
  rw [legPoly, ← mul_assoc, ← C_mul, show ((l : ℝ) + 2) * (1 / ((l : ℝ) + 2)) = 1 by field_simp, C_1, one_mul]

theorem legPoly_degree (l : ℕ) : (legPoly l).natDegree ≤ l := by
  induction l using Nat.twoStepInduction with
  | zero => simp [legPoly]
  | one => simp [legPoly]
  | more l h1 h2 =>
    rw [legPoly]
    refine (natDegree_C_mul_le _ _).trans ((natDegree_sub_le _ _).trans (max_le ?_ ?_))
    · refine natDegree_mul_le.trans ?_
      have : (C (2 * (l : ℝ) + 3) * X).natDegree ≤ 1 := (natDegree_C_mul_le _ _).trans (by simp)
      omega
    · exact (natDegree_C_mul_le _ _).trans (by omega)

theorem legPoly_deriv (n : ℕ) :
    derivative (legPoly (n + 1)) = X * derivative (legPoly n) + C ((n : ℝ) + 1) * legPoly n ∧
    X * derivative (legPoly (n + 1)) - derivative (legPoly n) = C ((n : ℝ) + 1) * legPoly (n + 1) := by
  induction n with
  | zero => simp [legPoly]
  | succ n ih =>
    obtain ⟨hA, hB⟩ := ih
    have hrec := legPoly_rec n
    have hd := congrArg derivative hrec
    simp only [derivative_mul, derivative_sub, derivative_C, derivative_X, zero_mul, zero_add, mul_one] at hd
    have hne : (C ((n : ℝ) + 2) : ℝ[X]) ≠ 0 := by
      rw [Ne, C_eq_zero]; positivity
    have k2 : (C (2 : ℝ) : ℝ[X]) = 2 := C_ofNat 2
    have k3 : (C (3 : ℝ) : ℝ[X]) = 3 := C_ofNat 3
    have c1 : (C ((n : ℝ) + 2) : ℝ[X]) = (n : ℝ[X]) + 2 := by simp [k2]
    have c2 : (C (2 * (n : ℝ) + 3) : ℝ[X]) = 2 * (n : ℝ[X]) + 3 := by simp [k2, k3]
    have c3 : (C ((n : ℝ) + 1) : ℝ[X]) = (n : ℝ[X]) + 1 := by simp
    have c4 : (C (((n + 1 : ℕ) : ℝ) + 1) : ℝ[X]) = (n : ℝ[X]) + 2 := by simp; ring
    rw [c1, c2, c3] at hd hrec
    rw [c3] at hA hB
    rw [c1] at hne
    rw [c4]
    have hA' : derivative (legPoly (n + 2)) = X * derivative (legPoly (n + 1)) + ((n : ℝ[X]) + 2) * legPoly (n + 1) := by
      apply mul_left_cancel₀ hne
      linear_combination hd + ((n : ℝ[X]) + 1) * hB
    refine ⟨hA', ?_⟩
    rw [hA']
    linear_combination X * hB - hA - hrec

theorem legPoly_one (n : ℕ) : (legPoly n).eval 1 = 1 := by
  induction n using Nat.twoStepInduction with
  | zero => simp [legPoly]
  | one => simp [legPoly]
  | more l h1 h2 =>
    rw [legPoly]
    simp only [eval_mul, eval_sub, eval_C, eval_X, h1, h2]
    have : (l : ℝ) + 2 ≠ 0 := by positivity
    field_simp
    ring

theorem legPoly_neg_one (n : ℕ) : (legPoly n).eval (-1) = (-1) ^ n := by
  induction n using Nat.twoStepInduction with
  | zero => simp [legPoly]
  | one => simp [legPoly]
  | more l h1 h2 =>
    rw [legPoly]
    simp only [eval_mul, eval_sub, eval_C, eval_X, h1, h2]
    have : (l : ℝ) + 2 ≠ 0 := by positivity
    field_simp
    ring

/-- The integral over [-1,1]. -/
noncomputable def polyInt (p : ℝ[X]) : ℝ := ∫ x in (-1 : ℝ)..1, p.eval x

theorem polyInt_add (p q : ℝ[X]) : polyInt (p + q) = polyInt p + polyInt q := by
  unfold polyInt
  simp only [eval_add]
  exact intervalIntegral.integral_add (p.continuous.intervalIntegrable _ _) (q.continuous.intervalIntegrable _ _)

theorem polyInt_C (c : ℝ) (p : ℝ[X]) : polyInt (C c * p) = c * polyInt p := by
  unfold polyInt
  simp only [eval_mul, eval_C]
  exact intervalIntegral.integral_const_mul _ _

theorem polyInt_sub (p q : ℝ[X]) : polyInt (p - q) = polyInt p - polyInt q := by
  unfold polyInt
  simp only [eval_sub]
  exact intervalIntegral.integral_sub (p.continuous.intervalIntegrable _ _) (q.continuous.intervalIntegrable _ _)

theorem polyInt_deriv (p : ℝ[X]) : polyInt (derivative p) = p.eval 1 - p.eval (-1) :=
  intervalIntegral.integral_eq_sub_of_hasDerivAt (fun x _ => p.hasDerivAt x) ((derivative p).continuous.intervalIntegrable _ _)

theorem polyInt_one : polyInt 1 = 2 := by
  unfold polyInt
  simp
  norm_num

theorem legPoly_int (n : ℕ) : polyInt (legPoly (n + 1)) = 0 := by
  have hA := (legPoly_deriv (n + 1)).1
  have hB := (legPoly_deriv n).2
  have h : C (2 * (n : ℝ) + 3) * legPoly (n + 1) = derivative (legPoly (n + 2) - legPoly n) := by
    rw [derivative_sub, hA]
    have : (C (2 * (n : ℝ) + 3) : ℝ[X]) = C (((n + 1 : ℕ) : ℝ) + 1) + C ((n : ℝ) + 1) := by
      rw [← C_add]; congr 1; push_cast; ring
    rw [this]
    linear_combination -hB
  have := congrArg polyInt h
  rw [polyInt_C, polyInt_deriv, eval_sub, eval_sub, legPoly_one, legPoly_one, legPoly_neg_one, legPoly_neg_one, pow_add] at this
  have h3 : (2 * (n : ℝ) + 3) ≠ 0 := by positivity
  have : (2 * (n : ℝ) + 3) * polyInt (legPoly (n + 1)) = 0 := by rw [this]; ring
  exact (mul_eq_zero.1 this).resolve_left h3

/-- `x P_{n+1}` in terms of the neighbours. -/
theorem legPoly_mulX (n : ℕ) (q : ℝ[X]) :
    (2 * (n : ℝ) + 3) * polyInt (X * legPoly (n + 1) * q) = (n + 2) * polyInt (legPoly (n + 2) * q) + (n + 1) * polyInt (legPoly n * q) := by
  rw [← polyInt_C, ← polyInt_C, ← polyInt_C, ← polyInt_add]
  congr 1
  linear_combination (-q) * legPoly_rec n

theorem legPoly_orth (m : ℕ) : ∀ n, m < n → polyInt (legPoly m * legPoly n) = 0 := by
  induction m using Nat.twoStepInduction with
  | zero =>
    intro n hn
    obtain ⟨k, rfl⟩ := Nat.exists_eq_add_of_lt hn
    rw [show (0 + k + 1) = k + 1 by omega, legPoly, one_mul, legPoly_int]
  | one =>
    intro n hn
    obtain ⟨k, rfl⟩ := Nat.exists_eq_add_of_lt hn
    rw [show (1 + k + 1) = (k + 1) + 1 by omega, legPoly]
    have := legPoly_mulX (k + 1) 1
    simp only [mul_one] at this
    rw [legPoly_int k, show k + 1 + 2 = (k + 2) + 1 by omega, legPoly_int (k + 2)] at this
    have h3 : (2 * ((k + 1 : ℕ) : ℝ) + 3) ≠ 0 := by positivity
    rw [mul_zero, mul_zero, add_zero] at this
    exact (mul_eq_zero.1 this).resolve_left h3
  | more m h1 h2 =>
    intro n hn
    obtain ⟨k, rfl⟩ := Nat.exists_eq_add_of_lt hn
    set N := m + 1 + k + 1 with hN
    rw [show m + 2 + k + 1 = N + 1 by omega]
    have e1 := legPoly_mulX m (legPoly (N + 1))
    rw [h1 (N + 1) (by omega), mul_zero, add_zero] at e1
    have e2 := legPoly_mulX N (legPoly (m + 1))
    rw [mul_comm (legPoly (N + 2)), mul_comm (legPoly N), h2 (N + 2) (by omega), h2 N (by omega), mul_zero, mul_zero, add_zero] at e2
    have e3 : polyInt (X * legPoly (N + 1) * legPoly (m + 1)) = 0 := by
      have h3 : (2 * (N : ℝ) + 3) ≠ 0 := by positivity
      exact (mul_eq_zero.1 e2).resolve_left h3
    rw [show X * legPoly (m + 1) * legPoly (N + 1) = X * legPoly (N + 1) * legPoly (m + 1) by ring, e3, mul_zero] at e1
    have h3 : ((m : ℝ) + 2) ≠ 0 := by positivity
    exact (mul_eq_zero.1 e1.symm).resolve_left h3

theorem legPoly_norm (n : ℕ) : polyInt (legPoly n * legPoly n) = 2 / (2 * n + 1) := by
  induction n with
  | zero => simp [legPoly, polyInt_one]
  | succ n ih =>
    have e1 := legPoly_mulX n (legPoly n)
    rw [mul_comm (legPoly (n + 2)), legPoly_orth n (n + 2) (by omega), ih, mul_zero, zero_add] at e1
    have h3 : (2 * (n : ℝ) + 3) ≠ 0 := by positivity
    have h1 : (2 * (n : ℝ) + 1) ≠ 0 := by positivity
    have e2 : (2 * (n : ℝ) + 1) * polyInt (X * legPoly (n + 1) * legPoly n) = (n + 1) * polyInt (legPoly (n + 1) * legPoly (n + 1)) := by
      match n with
      | 0 =>
        simp [legPoly]
      | k + 1 =>
        have := legPoly_mulX k (legPoly (k + 2))
        rw [legPoly_orth k (k + 2) (by omega), mul_zero, add_zero] at this
        rw [show X * legPoly (k + 1 + 1) * legPoly (k + 1) = X * legPoly (k + 1) * legPoly (k + 2) by ring]
        push_cast
        rw [show (2 * ((k : ℝ) + 1) + 1) = 2 * k + 3 by ring, this]
        ring
    have h4 : ((n : ℝ) + 1) ≠ 0 := by positivity
    have e3 : polyInt (X * legPoly (n + 1) * legPoly n) = (n + 1) * (2 / (2 * n + 1)) / (2 * n + 3) := by
      rw [eq_div_iff h3]; linarith
    rw [e3] at e2
    have : polyInt (legPoly (n + 1) * legPoly (n + 1)) = (2 * (n : ℝ) + 1) * ((n + 1) * (2 / (2 * n + 1)) / (2 * n + 3)) / (n + 1) := by
      rw [eq_div_iff h4]; linarith
    rw [this]
    push_cast
    have h5 : (2 * ((n : ℝ) + 1) + 1) ≠ 0 := by positivity
    field_simp
    ring

/-- The Legendre polynomials are orthogonal on [-1,1], and the square of the norm of number `n` is 2/(2n+1). -/
theorem legPoly_inner (m n : ℕ) : polyInt (legPoly m * legPoly n) = if m = n then (2 : ℝ) / (2 * n + 1) else 0 := by
  split
  · rename_i h; rw [h]; exact legPoly_norm n
  · rename_i h
    rcases Nat.lt_or_gt_of_ne h with h | h
    · exact legPoly_orth m n h
    · rw [mul_comm]; exact legPoly_orth n m h

end Pixell
