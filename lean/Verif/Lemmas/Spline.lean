import Verif.Lemmas.Interpol
import Mathlib.Tactic.LinearCombination

/-! # Auxiliary lemmas on the spline filter -/

set_option linter.unusedSectionVars false

namespace Pixell

variable {K : Type} [Field K] [LinearOrder K] [IsStrictOrderedRing K] [FloorRing K]

/-- The line continued beyond its ends. -/
def extend (b : Border) (n : ℕ) (c : ℕ → K) (i : ℤ) : K := c (mapBorder b n i).toNat

/-! ## Borders and neighbours -/

theorem mapBorder_cyclic {n : ℕ} (hn : 1 ≤ n) (i : ℤ) : mapBorder .cyclic n i = i % n := by
  unfold mapBorder
  by_cases hi : i < 0 ∨ i ≥ n
  · rw [if_pos hi]
    simp only
    rw [Int.fmod_eq_emod_of_nonneg _ (by omega)]
  · rw [if_neg hi]
    push Not at hi
    rw [Int.emod_eq_of_lt hi.1 hi.2]

theorem mapBorder_mirror {n : ℕ} (hn : 2 ≤ n) (i : ℤ) :
    mapBorder .mirror n i
      = if i % (2 * (n : ℤ) - 2) ≥ n then 2 * (n : ℤ) - 2 - i % (2 * (n : ℤ) - 2)
        else i % (2 * (n : ℤ) - 2) := by
  unfold mapBorder
  by_cases hi : i < 0 ∨ i ≥ n
  · rw [if_pos hi]
    simp only
    rw [Int.fmod_eq_emod_of_nonneg _ (by omega)]
  · rw [if_neg hi]
    push Not at hi
    have : i % (2 * (n : ℤ) - 2) = i := Int.emod_eq_of_lt hi.1 (by omega)
    rw [this, if_neg (by omega)]

theorem mirror_mod {n : ℕ} (hn : 2 ≤ n) {i j : ℤ}
    (h : i % (2 * (n : ℤ) - 2) = j % (2 * (n : ℤ) - 2)) :
    mapBorder .mirror n i = mapBorder .mirror n j := by
  rw [mapBorder_mirror hn, mapBorder_mirror hn, h]

theorem mirror_neg {n : ℕ} (hn : 2 ≤ n) : mapBorder .mirror n (-1) = 1 := by
  rw [mirror_mod hn (show (-1 : ℤ) % (2 * (n : ℤ) - 2) = (2 * (n : ℤ) - 3) % (2 * (n : ℤ) - 2) by
    rw [show (2 * (n : ℤ) - 3) = -1 + (2 * (n : ℤ) - 2) by ring, Int.add_emod_right]),
    mapBorder_mirror hn, Int.emod_eq_of_lt (by omega) (by omega)]
  by_cases h : (2 * (n : ℤ) - 3) ≥ n
  · rw [if_pos h]; ring
  · rw [if_neg h]; omega

/-- Beyond the last point the mirrored line runs backwards. -/
theorem mirror_high {n : ℕ} (hn : 2 ≤ n) {v : ℤ} (h0 : (n : ℤ) - 1 ≤ v) (h1 : v ≤ 2 * (n : ℤ) - 2) :
    mapBorder .mirror n v = 2 * (n : ℤ) - 2 - v := by
  by_cases he : v = 2 * (n : ℤ) - 2
  · rw [mirror_mod hn (show v % (2 * (n : ℤ) - 2) = 0 % (2 * (n : ℤ) - 2) by rw [he]; simp),
      mapBorder_inside _ (le_refl _) (by omega), he]; ring
  · rw [mapBorder_mirror hn, Int.emod_eq_of_lt (by omega) (by omega)]
    by_cases h : v ≥ n
    · rw [if_pos h]
    · rw [if_neg h]; omega

/-- The neighbours of an index, in one order or the other, are the neighbours of the grid point it
stands for. -/
theorem border_neighbours {b : Border} {n : ℕ} (hb : b = .cyclic ∨ b = .mirror)
    (h : BorderOK b n) (i : ℤ) :
    (mapBorder b n (i - 1) = mapBorder b n (mapBorder b n i - 1) ∧
      mapBorder b n (i + 1) = mapBorder b n (mapBorder b n i + 1)) ∨
    (mapBorder b n (i - 1) = mapBorder b n (mapBorder b n i + 1) ∧
      mapBorder b n (i + 1) = mapBorder b n (mapBorder b n i - 1)) := by
  rcases hb with rfl | rfl
  · left
    have hn := h.2.1
    simp only [mapBorder_cyclic hn]
    constructor
    · rw [Int.emod_sub_emod]
    · rw [Int.emod_add_emod]
  · have hn := h.2.2 rfl
    have hv0 := Int.emod_nonneg i (b := 2 * (n : ℤ) - 2) (by omega)
    have hv1 := Int.emod_lt_of_pos i (b := 2 * (n : ℤ) - 2) (by omega)
    have e1 : mapBorder .mirror n (i - 1) = mapBorder .mirror n (i % (2 * (n : ℤ) - 2) - 1) :=
      mirror_mod hn (by rw [Int.emod_sub_emod])
    have e2 : mapBorder .mirror n (i + 1) = mapBorder .mirror n (i % (2 * (n : ℤ) - 2) + 1) :=
      mirror_mod hn (by rw [Int.emod_add_emod])
    rw [e1, e2, mapBorder_mirror hn i]
    generalize i % (2 * (n : ℤ) - 2) = v at hv0 hv1
    by_cases hv : v ≥ n
    · right
      rw [if_pos hv]
      constructor
      · rw [mirror_high hn (v := v - 1) (by omega) (by omega), mapBorder_inside] <;> omega
      · rw [mirror_high hn (v := v + 1) (by omega) (by omega), mapBorder_inside] <;> omega
    · left
      rw [if_neg hv]
      exact ⟨rfl, rfl⟩

/-! ## The recursions -/

theorem causal_closed (p c0 : K) (a : ℕ → K) (k : ℕ) :
    causal p c0 a k = p ^ k * c0 + ∑ i ∈ Finset.range k, p ^ i * a (k - i) := by
  induction k with
  | zero => simp [causal]
  | succ k ih =>
    rw [causal, ih, Finset.sum_range_succ', mul_add, Finset.mul_sum]
    simp only [Nat.add_sub_add_right, pow_succ]
    simp
    rw [Finset.sum_congr rfl fun i _ => show p ^ i * p * a (k - i) = p * (p ^ i * a (k - i)) by ring]
    ring

theorem poleFilter_last (b : Border) {n : ℕ} (m : ℕ) (p : K) (a : ℕ → K) :
    poleFilter b n m p a (n - 1)
      = anticausalInit b n m p (causal p (causalInit b n m p a) a) := by
  simp [poleFilter, anticausal]

theorem poleFilter_step (b : Border) {n : ℕ} (m : ℕ) (p : K) (a : ℕ → K) {i : ℕ} (h : i + 1 < n) :
    poleFilter b n m p a i
      = p * (poleFilter b n m p a (i + 1) - causal p (causalInit b n m p a) a i) := by
  have e : n - 1 - i = (n - 1 - (i + 1)) + 1 := by omega
  simp only [poleFilter]
  rw [e, anticausal, show n - 1 - (n - 1 - (i + 1) + 1) = i by omega]

/-- Backwards recursion, summed. -/
theorem anti_closed {n : ℕ} {p : K} {c d : ℕ → K}
    (h : ∀ i, i + 1 < n → c i = p * (c (i + 1) - d i)) (j : ℕ) (hj : j + 1 ≤ n) :
    c 0 = p ^ j * c j - ∑ i ∈ Finset.range j, p ^ (i + 1) * d i := by
  induction j with
  | zero => simp
  | succ j ih =>
    rw [ih (by omega), h j (by omega), Finset.sum_range_succ]
    ring

/-- Inside the line the filter is inverted exactly, whatever happens at the ends. -/
theorem pole_interior {n : ℕ} {p : K} (hp : p ≠ 0) {a c d : ℕ → K}
    (hc : ∀ i, i + 1 < n → c i = p * (c (i + 1) - d i))
    (hd : ∀ i, d (i + 1) = a (i + 1) + p * d i) {i : ℕ} (h : i + 2 < n) :
    c i - (p + 1 / p) * c (i + 1) + c (i + 2) = a (i + 1) := by
  have h1 := hc i (by omega)
  have h2 := hc (i + 1) (by omega)
  have h3 := hd i
  have e2 : c (i + 1) / p = c (i + 2) - d (i + 1) := by rw [h2]; field_simp
  have : (p + 1 / p) * c (i + 1) = p * c (i + 1) + c (i + 1) / p := by ring
  rw [this, e2]
  linear_combination h1 + h3

/-- The tail of a geometric sum. -/
theorem geom_tail {p X : K} (hq : |p| < 1) {x : ℕ → K} {m N : ℕ} (h : m ≤ N)
    (hx : ∀ k, m ≤ k → k < N → |x k| ≤ X) :
    |∑ k ∈ Finset.Ico m N, p ^ k * x k| + |p| ^ N * (X / (1 - |p|)) ≤ |p| ^ m * (X / (1 - |p|)) := by
  have h1 : (0 : K) < 1 - |p| := by linarith
  induction N, h using Nat.le_induction with
  | base => simp
  | succ N hN ih =>
    rw [Finset.sum_Ico_succ_top hN]
    have ih' := ih fun k hk hk' => hx k hk (by omega)
    have hb := hx N hN (by omega)
    have : |p ^ N * x N| ≤ |p| ^ N * X := by
      rw [abs_mul, abs_pow]
      exact mul_le_mul_of_nonneg_left hb (pow_nonneg (abs_nonneg p) N)
    have h2 := abs_add_le (∑ k ∈ Finset.Ico m N, p ^ k * x k) (p ^ N * x N)
    have h3 : |p| ^ N * X + |p| ^ (N + 1) * (X / (1 - |p|)) = |p| ^ N * (X / (1 - |p|)) := by
      field_simp; ring
    linarith

theorem geom_sum_le {p X : K} (hq : |p| < 1) {x : ℕ → K} {N : ℕ} (hX : 0 ≤ X)
    (hx : ∀ k < N, |x k| ≤ X) : |∑ k ∈ Finset.range N, p ^ k * x k| ≤ X / (1 - |p|) := by
  have := geom_tail hq (Nat.zero_le N) (x := x) fun k _ hk => hx k hk
  rw [Nat.Ico_zero_eq_range, pow_zero, one_mul] at this
  have h1 : (0 : K) < 1 - |p| := by linarith
  have : 0 ≤ |p| ^ N * (X / (1 - |p|)) :=
    mul_nonneg (pow_nonneg (abs_nonneg p) N) (div_nonneg hX h1.le)
  linarith

/-- A bound on the causal coefficients. -/
theorem causal_le {p c0 A : K} (hq : |p| < 1) {a : ℕ → K} {n : ℕ} (ha : ∀ i < n, |a i| ≤ A)
    (h0 : |c0| ≤ A / (1 - |p|)) (i : ℕ) (hi : i < n) : |causal p c0 a i| ≤ A / (1 - |p|) := by
  have h1 : (0 : K) < 1 - |p| := by linarith
  induction i with
  | zero => exact h0
  | succ i ih =>
    rw [causal]
    have := ih (by omega)
    have h2 := abs_add_le (a (i + 1)) (p * causal p c0 a i)
    rw [abs_mul] at h2
    have h3 := mul_le_mul_of_nonneg_left this (abs_nonneg p)
    have h4 := ha (i + 1) hi
    have : A + |p| * (A / (1 - |p|)) = A / (1 - |p|) := by field_simp; ring
    linarith

/-- The error left by cutting the initial sums after `m` terms. -/
def poleEps (n m : ℕ) (p : K) : K := if n ≤ m then 0 else 2 * |p| ^ m / (1 - |p|) ^ 2

theorem poleEps_nonneg {n m : ℕ} {p : K} (hq : |p| < 1) : 0 ≤ poleEps n m p := by
  unfold poleEps
  by_cases h : n ≤ m
  · rw [if_pos h]
  · rw [if_neg h]
    have := abs_nonneg p
    positivity

theorem pow_ne_one_of_abs_lt {p : K} (hq : |p| < 1) {k : ℕ} (hk : k ≠ 0) : 1 - p ^ k ≠ 0 := by
  have h1 : |p ^ k| < 1 := by
    rw [abs_pow]; exact pow_lt_one₀ (abs_nonneg p) hq hk
  have := (abs_lt.mp h1).2
  intro h
  linarith

/-- The two conditions linking the ends of a cyclic line, up to an error. -/
theorem cyclic_ends {n m : ℕ} {p A : K} (hq : |p| < 1) (hn : 1 ≤ n) (hm : 1 ≤ m)
    {a : ℕ → K} (ha : ∀ i < n, |a i| ≤ A) :
    let d := causal p (causalInit .cyclic n m p a) a
    let c := poleFilter .cyclic n m p a
    (n ≤ m → d 0 = a 0 + p * d (n - 1) ∧ c (n - 1) = p * (c 0 - d (n - 1))) ∧
    (m < n → |d 0 - (a 0 + p * d (n - 1))| ≤ |p| ^ m * (A / (1 - |p|)) ∧
      |c (n - 1) - p * (c 0 - d (n - 1))| ≤ |p| ^ (m + 2) * (A / (1 - |p|) / (1 - |p|))) := by
  intro d c
  have h1 : (0 : K) < 1 - |p| := by linarith
  have hA : 0 ≤ A := le_trans (abs_nonneg _) (ha 0 (by omega))
  have hpd : p * d (n - 1) = p ^ n * d 0 + ∑ i ∈ Finset.range (n - 1), p ^ (i + 1) * a (n - 1 - i) := by
    have := causal_closed p (causalInit .cyclic n m p a) a (n - 1)
    change d (n - 1) = p ^ (n - 1) * d 0 + _ at this
    rw [this, mul_add, Finset.mul_sum]
    congr 1
    · rw [← mul_assoc, ← pow_succ', show n - 1 + 1 = n by omega]
    · exact Finset.sum_congr rfl fun i _ => by ring
  have hstep : ∀ i, i + 1 < n → c i = p * (c (i + 1) - d i) := fun i hi =>
    poleFilter_step .cyclic m p a hi
  have hc0 := anti_closed hstep (n - 1) (by omega)
  have hd0 : d 0 = causalInit .cyclic n m p a := rfl
  have he : c (n - 1) = anticausalInit .cyclic n m p d := poleFilter_last .cyclic m p a
  constructor
  · intro hnm
    have hne := pow_ne_one_of_abs_lt hq (show n ≠ 0 by omega)
    have hd0' : d 0 * (1 - p ^ n)
        = a 0 + ∑ i ∈ Finset.range (n - 1), p ^ (i + 1) * a (n - 1 - i) := by
      rw [hd0]
      simp only [causalInit, Nat.min_eq_left hnm, listSum_range]
      rw [if_pos (show m ≥ n from hnm), div_mul_cancel₀ _ hne]
    have hv : c (n - 1) = -p * (d (n - 1) + p *
        ((∑ i ∈ Finset.range n, d i * p ^ i) / (1 - p ^ n))) := by
      rw [he]
      simp only [anticausalInit, Nat.min_eq_right hnm, listSum_range]
      rw [if_pos (show m ≥ n from hnm)]
    refine ⟨by linear_combination hd0' - hpd, ?_⟩
    generalize hV : (∑ i ∈ Finset.range n, d i * p ^ i) / (1 - p ^ n) = V at hv
    have hV' : ∑ i ∈ Finset.range n, d i * p ^ i = V * (1 - p ^ n) := by
      rw [← hV, div_mul_cancel₀ _ hne]
    obtain ⟨k, rfl⟩ : ∃ k, n = k + 1 := ⟨n - 1, by omega⟩
    simp only [Nat.add_sub_cancel] at *
    rw [Finset.sum_range_succ] at hV'
    have hs : ∑ i ∈ Finset.range k, p ^ (i + 1) * d i = p * ∑ i ∈ Finset.range k, d i * p ^ i := by
      rw [Finset.mul_sum]; exact Finset.sum_congr rfl fun i _ => by ring
    rw [hs] at hc0
    have : c 0 = -p * V := by
      rw [hc0, hv]
      linear_combination (-p) * hV'
    rw [hv, this]; ring
  · intro hnm
    have hd0' : d 0 = a 0 + ∑ i ∈ Finset.range (m - 1), p ^ (i + 1) * a (n - 1 - i) := by
      rw [hd0]
      simp only [causalInit, Nat.min_eq_right hnm.le, listSum_range]
      rw [if_neg (by omega)]
    have hd0b : |d 0| ≤ A / (1 - |p|) := by
      have e : d 0 = ∑ k ∈ Finset.range m, p ^ k * (if k = 0 then a 0 else a (n - k)) := by
        rw [hd0']
        obtain ⟨m', rfl⟩ : ∃ m', m = m' + 1 := ⟨m - 1, by omega⟩
        rw [Finset.sum_range_succ', Nat.add_sub_cancel]
        simp only [if_true, pow_zero, one_mul, Nat.add_one_ne_zero, if_false]
        rw [add_comm]
        congr 1
        exact Finset.sum_congr rfl fun i _ => by rw [show n - 1 - i = n - (i + 1) by omega]
      rw [e]
      refine geom_sum_le hq hA fun k hk => ?_
      by_cases h0 : k = 0
      · rw [if_pos h0]; exact ha 0 (by omega)
      · rw [if_neg h0]; exact ha _ (by omega)
    have hdb : ∀ i < n, |d i| ≤ A / (1 - |p|) := fun i hi => causal_le hq ha hd0b i hi
    constructor
    · have e : d 0 - (a 0 + p * d (n - 1))
          = -(p * (∑ i ∈ Finset.Ico (m - 1) (n - 1), p ^ i * a (n - 1 - i)) + p ^ n * d 0) := by
        rw [hpd, Finset.mul_sum]
        have := Finset.sum_range_add_sum_Ico (fun i => p ^ (i + 1) * a (n - 1 - i))
          (show m - 1 ≤ n - 1 by omega)
        have e2 : ∑ i ∈ Finset.Ico (m - 1) (n - 1), p * (p ^ i * a (n - 1 - i))
            = ∑ i ∈ Finset.Ico (m - 1) (n - 1), p ^ (i + 1) * a (n - 1 - i) :=
          Finset.sum_congr rfl fun i _ => by ring
        rw [e2]
        linear_combination hd0' + this
      rw [e, abs_neg]
      have t := geom_tail hq (show m - 1 ≤ n - 1 by omega) (x := fun i => a (n - 1 - i)) (X := A)
        fun k _ _ => ha _ (by omega)
      have h2 := abs_add_le (p * ∑ i ∈ Finset.Ico (m - 1) (n - 1), p ^ i * a (n - 1 - i))
        (p ^ n * d 0)
      rw [abs_mul, abs_mul, abs_pow] at h2
      have h3 := mul_le_mul_of_nonneg_left t (abs_nonneg p)
      have h4 := mul_le_mul_of_nonneg_left hd0b (pow_nonneg (abs_nonneg p) n)
      have e3 : |p| * (|p| ^ (n - 1) * (A / (1 - |p|))) = |p| ^ n * (A / (1 - |p|)) := by
        rw [← mul_assoc, ← pow_succ', show n - 1 + 1 = n by omega]
      have e4 : |p| * (|p| ^ (m - 1) * (A / (1 - |p|))) = |p| ^ m * (A / (1 - |p|)) := by
        rw [← mul_assoc, ← pow_succ', show m - 1 + 1 = m by omega]
      rw [mul_add, e3, e4] at h3
      linarith
    · have hv : c (n - 1) = -p * (d (n - 1) + p * ∑ i ∈ Finset.range m, p ^ i * d i) := by
        rw [he]
        simp only [anticausalInit, Nat.min_eq_left hnm.le, listSum_range]
        rw [if_neg (by omega)]
        congr 3
        exact Finset.sum_congr rfl fun i _ => by ring
      have hDn : 0 ≤ A / (1 - |p|) := div_nonneg hA h1.le
      have hvb := geom_sum_le hq hDn (N := m) (x := d) fun k hk => hdb k (by omega)
      have hcb : |c (n - 1)| ≤ |p| * (A / (1 - |p|) / (1 - |p|)) := by
        rw [hv, abs_mul, abs_neg]
        refine mul_le_mul_of_nonneg_left ?_ (abs_nonneg p)
        have h2 := abs_add_le (d (n - 1)) (p * ∑ i ∈ Finset.range m, p ^ i * d i)
        rw [abs_mul] at h2
        have h3 := mul_le_mul_of_nonneg_left hvb (abs_nonneg p)
        have h4 := hdb (n - 1) (by omega)
        have : A / (1 - |p|) + |p| * (A / (1 - |p|) / (1 - |p|)) = A / (1 - |p|) / (1 - |p|) := by
          field_simp; ring
        linarith
      have e : c (n - 1) - p * (c 0 - d (n - 1))
          = p ^ 2 * (∑ i ∈ Finset.Ico m (n - 1), p ^ i * d i) - p ^ n * c (n - 1) := by
        have hs : ∑ i ∈ Finset.range (n - 1), p ^ (i + 1) * d i
            = p * ∑ i ∈ Finset.range (n - 1), p ^ i * d i := by
          rw [Finset.mul_sum]; exact Finset.sum_congr rfl fun i _ => by ring
        have hsp := Finset.sum_range_add_sum_Ico (fun i => p ^ i * d i) (show m ≤ n - 1 by omega)
        have hpn : p ^ n = p * p ^ (n - 1) := by rw [← pow_succ', show n - 1 + 1 = n by omega]
        rw [hs] at hc0
        rw [hpn]
        linear_combination hv - p * hc0 - p ^ 2 * hsp
      rw [e]
      have t := geom_tail hq (show m ≤ n - 1 by omega) (x := d) (X := A / (1 - |p|))
        fun k _ hk => hdb k (by omega)
      have h2 := abs_sub (p ^ 2 * ∑ i ∈ Finset.Ico m (n - 1), p ^ i * d i) (p ^ n * c (n - 1))
      rw [abs_mul, abs_mul, abs_pow, abs_pow] at h2
      have h3 := mul_le_mul_of_nonneg_left t (pow_nonneg (abs_nonneg p) 2)
      have h4 := mul_le_mul_of_nonneg_left hcb (pow_nonneg (abs_nonneg p) n)
      have e3 : |p| ^ 2 * (|p| ^ (n - 1) * (A / (1 - |p|) / (1 - |p|)))
          = |p| ^ n * (|p| * (A / (1 - |p|) / (1 - |p|))) := by
        rw [show |p| ^ n = |p| * |p| ^ (n - 1) by rw [← pow_succ', show n - 1 + 1 = n by omega]]
        ring
      rw [mul_add, e3] at h3
      have e4 : |p| ^ 2 * (|p| ^ m * (A / (1 - |p|) / (1 - |p|)))
          = |p| ^ (m + 2) * (A / (1 - |p|) / (1 - |p|)) := by rw [pow_add]; ring
      linarith

/-- At the last point of a mirrored line the filter is inverted exactly. -/
theorem mirror_last {n m : ℕ} {p : K} (hp : p ≠ 0) (hq : |p| < 1) (hn : 2 ≤ n) (a : ℕ → K) :
    let c := poleFilter .mirror n m p a
    2 * c (n - 2) - (p + 1 / p) * c (n - 1) = a (n - 1) := by
  intro c
  obtain ⟨k, rfl⟩ : ∃ k, n = k + 2 := ⟨n - 2, by omega⟩
  have hl := poleFilter_last .mirror (n := k + 2) m p a
  have hs := poleFilter_step .mirror (n := k + 2) m p a (i := k) (by omega)
  simp only [anticausalInit, Nat.add_sub_cancel, show k + 2 - 1 = k + 1 by omega, causal] at hl hs ⊢
  change c (k + 1) = _ at hl
  change c k = p * (c (k + 1) - _) at hs
  generalize causal p (causalInit .mirror (k + 2) m p a) a k = D at hl hs
  have h2 : 1 - p ^ 2 ≠ 0 := pow_ne_one_of_abs_lt hq (by norm_num)
  have hl' : (1 - p ^ 2) * c (k + 1) = -p * (a (k + 1) + p * D + p * D) := by
    rw [hl]; field_simp
  have : p * (2 * c k - (p + 1 / p) * c (k + 1)) = p * a (k + 1) := by
    have e : p * (2 * c k - (p + 1 / p) * c (k + 1)) = 2 * p * c k - (p ^ 2 + 1) * c (k + 1) := by
      field_simp
    rw [e]
    linear_combination (2 * p) * hs - hl'
  exact mul_left_cancel₀ hp this

/-- The first point of a mirrored line, up to an error. -/
theorem mirror_first {n m : ℕ} {p A : K} (hp : p ≠ 0) (hq : |p| < 1) (hn : 2 ≤ n) (hm : 1 ≤ m)
    {a : ℕ → K} (ha : ∀ i < n, |a i| ≤ A) :
    let c := poleFilter .mirror n m p a
    (n ≤ m → 2 * c 1 - (p + 1 / p) * c 0 = a 0) ∧
    (m < n → |2 * c 1 - (p + 1 / p) * c 0 - a 0| ≤ |p| ^ m * (A / (1 - |p|))) := by
  intro c
  have h1 : (0 : K) < 1 - |p| := by linarith
  have hA : 0 ≤ A := le_trans (abs_nonneg _) (ha 0 (by omega))
  set d := causal p (causalInit .mirror n m p a) a with hd
  have hstep : ∀ i, i + 1 < n → c i = p * (c (i + 1) - d i) := fun i hi =>
    poleFilter_step .mirror m p a hi
  have hdr : ∀ i, d (i + 1) = a (i + 1) + p * d i := fun i => rfl
  have hint : ∀ i, i + 2 < n → c i - (p + 1 / p) * c (i + 1) + c (i + 2) = a (i + 1) :=
    fun i hi => pole_interior hp hstep hdr hi
  have hlast : 2 * c (n - 2) - (p + 1 / p) * c (n - 1) = a (n - 1) := mirror_last hp hq hn a
  -- the reversed recursion
  have hu : ∀ j, j + 2 ≤ n → p * (c 0 - c 1 / p)
      = (∑ i ∈ Finset.range j, p ^ (i + 1) * a (i + 1)) + p ^ (j + 1) * (c j - c (j + 1) / p) := by
    intro j hj
    induction j with
    | zero => simp
    | succ j ih =>
      rw [ih (by omega), Finset.sum_range_succ]
      have h := hint j (by omega)
      have e : (p + 1 / p) * c (j + 1) = p * c (j + 1) + c (j + 1) / p := by ring
      rw [e] at h
      have e2 : p ^ (j + 1 + 1) * (c (j + 1) - c (j + 1 + 1) / p)
          = p ^ (j + 1) * (p * c (j + 1) - c (j + 2)) := by
        rw [pow_succ]; field_simp
      rw [e2]
      linear_combination p ^ (j + 1) * h
  have hun : c (n - 2) - c (n - 1) / p = d (n - 1) := by
    have h := hstep (n - 2) (by omega)
    have h' := hdr (n - 2)
    rw [show n - 2 + 1 = n - 1 by omega] at h h'
    have e : (p + 1 / p) * c (n - 1) = p * c (n - 1) + c (n - 1) / p := by ring
    rw [e] at hlast
    linear_combination hlast - h - h'
  have hu' := hu (n - 2) (by omega)
  rw [show n - 2 + 1 = n - 1 by omega, hun] at hu'
  have hd0 : d 0 = causalInit .mirror n m p a := rfl
  have e0 : 2 * c 1 - (p + 1 / p) * c 0 = d 0 - p * (c 0 - c 1 / p) := by
    have h := hstep 0 (by omega)
    have e : c 0 / p = c 1 - d 0 := by rw [h]; field_simp
    have e2 : p * (c 1 / p) = c 1 := by field_simp
    have e3 : (p + 1 / p) * c 0 = p * c 0 + c 0 / p := by ring
    rw [e3, e, mul_sub, e2]
    ring
  rw [e0, hu']
  have hdc := causal_closed p (causalInit .mirror n m p a) a (n - 1)
  change d (n - 1) = p ^ (n - 1) * d 0 + _ at hdc
  constructor
  · intro hnm
    have hne := pow_ne_one_of_abs_lt hq (show n + (n - 2) ≠ 0 by omega)
    have hd0' : d 0 * (1 - p ^ (n + (n - 2)))
        = a 0 + ∑ i ∈ Finset.range (n - 1), p ^ (i + 1) * a (i + 1)
          + ∑ i ∈ Finset.range (n - 2), p ^ (n + i) * a (n - 2 - i) := by
      rw [hd0]
      simp only [causalInit, Nat.min_eq_right hnm, listSum_range]
      rw [if_pos (show m ≥ n from hnm), div_mul_cancel₀ _ hne]
    obtain ⟨k, rfl⟩ : ∃ k, n = k + 2 := ⟨n - 2, by omega⟩
    simp only [Nat.add_sub_cancel, show k + 2 - 1 = k + 1 by omega] at *
    rw [Finset.sum_range_succ] at hd0'
    rw [Finset.sum_range_succ'] at hdc
    simp only [pow_zero, one_mul, Nat.sub_zero, Nat.add_sub_add_right] at hdc
    have e : ∑ i ∈ Finset.range k, p ^ (k + 2 + i) * a (k - i)
        = p ^ (k + 1) * ∑ i ∈ Finset.range k, p ^ (i + 1) * a (k - i) := by
      rw [Finset.mul_sum]
      exact Finset.sum_congr rfl fun i _ => by rw [← mul_assoc, ← pow_add]; congr 2; omega
    rw [e] at hd0'
    have hpp : p ^ (k + 2 + k) = p ^ (k + 1) * p ^ (k + 1) := by rw [← pow_add]; congr 1; omega
    rw [hpp] at hd0'
    rw [hdc]
    linear_combination hd0'
  · intro hnm
    have hd0' : d 0 = a 0 + ∑ i ∈ Finset.range (m - 1), p ^ (i + 1) * a (i + 1) := by
      rw [hd0]
      simp only [causalInit, Nat.min_eq_left hnm.le, listSum_range]
      rw [if_neg (by omega)]
    have hd0b : |d 0| ≤ A / (1 - |p|) := by
      have e : d 0 = ∑ k ∈ Finset.range m, p ^ k * a k := by
        rw [hd0']
        obtain ⟨m', rfl⟩ : ∃ m', m = m' + 1 := ⟨m - 1, by omega⟩
        rw [Finset.sum_range_succ', Nat.add_sub_cancel, pow_zero, one_mul, add_comm]
      rw [e]
      exact geom_sum_le hq hA fun k hk => ha k (by omega)
    have hdb : |d (n - 1)| ≤ A / (1 - |p|) := causal_le hq ha hd0b _ (by omega)
    have e : d 0 - ((∑ i ∈ Finset.range (n - 2), p ^ (i + 1) * a (i + 1))
          + p ^ (n - 1) * d (n - 1)) - a 0
        = -(p * (∑ i ∈ Finset.Ico (m - 1) (n - 2), p ^ i * a (i + 1)) + p ^ (n - 1) * d (n - 1)) := by
      have := Finset.sum_range_add_sum_Ico (fun i => p ^ (i + 1) * a (i + 1))
        (show m - 1 ≤ n - 2 by omega)
      have e2 : p * ∑ i ∈ Finset.Ico (m - 1) (n - 2), p ^ i * a (i + 1)
          = ∑ i ∈ Finset.Ico (m - 1) (n - 2), p ^ (i + 1) * a (i + 1) := by
        rw [Finset.mul_sum]
        exact Finset.sum_congr rfl fun i _ => by ring
      rw [e2]
      linear_combination hd0' + this
    rw [e, abs_neg]
    have t := geom_tail hq (show m - 1 ≤ n - 2 by omega) (x := fun i => a (i + 1)) (X := A)
      fun k _ _ => ha _ (by omega)
    have h2 := abs_add_le (p * ∑ i ∈ Finset.Ico (m - 1) (n - 2), p ^ i * a (i + 1))
      (p ^ (n - 1) * d (n - 1))
    rw [abs_mul, abs_mul, abs_pow] at h2
    have h3 := mul_le_mul_of_nonneg_left t (abs_nonneg p)
    have h4 := mul_le_mul_of_nonneg_left hdb (pow_nonneg (abs_nonneg p) (n - 1))
    have e3 : |p| * (|p| ^ (n - 2) * (A / (1 - |p|))) = |p| ^ (n - 1) * (A / (1 - |p|)) := by
      rw [← mul_assoc, ← pow_succ', show n - 2 + 1 = n - 1 by omega]
    have e4 : |p| * (|p| ^ (m - 1) * (A / (1 - |p|))) = |p| ^ m * (A / (1 - |p|)) := by
      rw [← mul_assoc, ← pow_succ', show m - 1 + 1 = m by omega]
    rw [mul_add, e3, e4] at h3
    linarith

/-! ## The filter inverts the sampling of the spline -/

/-- The three-point stencil a pole inverts. -/
def stencil (p : K) (f : ℤ → K) (i : ℤ) : K := f (i - 1) - (p + 1 / p) * f i + f (i + 1)

theorem pole_grid {b : Border} {n m : ℕ} (hb : b = .cyclic ∨ b = .mirror) (hok : BorderOK b n)
    {p A : K} (hp : p ≠ 0) (hq : |p| < 1) (hm : 1 ≤ m) {a : ℕ → K} (ha : ∀ i < n, |a i| ≤ A)
    (i : ℕ) (hi : i < n) :
    |stencil p (extend b n (poleFilter b n m p a)) i - a i| ≤ poleEps n m p * A := by
  have h1 : (0 : K) < 1 - |p| := by linarith
  have hA : 0 ≤ A := le_trans (abs_nonneg _) (ha 0 (by omega))
  have hE : 0 ≤ poleEps n m p * A := mul_nonneg (poleEps_nonneg hq) hA
  have hself : mapBorder b n i = i := mapBorder_inside b (by omega) (by omega)
  have habs := abs_nonneg p
  by_cases hin : 1 ≤ i ∧ i + 1 < n
  · -- interior
    obtain ⟨k, rfl⟩ : ∃ k, i = k + 1 := ⟨i - 1, by omega⟩
    have h := pole_interior (n := n) hp (a := a) (c := poleFilter b n m p a)
      (d := causal p (causalInit b n m p a) a) (fun i hi => poleFilter_step b m p a hi)
      (fun i => rfl) (i := k) (by omega)
    have e1 : mapBorder b n (((k + 1 : ℕ) : ℤ) - 1) = k := by
      rw [mapBorder_inside] <;> push_cast <;> omega
    have e2 : mapBorder b n (((k + 1 : ℕ) : ℤ) + 1) = (k + 2 : ℕ) := by
      rw [mapBorder_inside] <;> push_cast <;> omega
    unfold stencil extend
    rw [hself, e1, e2]
    simp only [Int.toNat_natCast]
    rw [h, sub_self, abs_zero]
    exact hE
  · rcases hb with rfl | rfl
    · have hends := cyclic_ends hq hok.2.1 hm ha
      simp only at hends
      set c := poleFilter .cyclic n m p a with hc
      set d := causal p (causalInit .cyclic n m p a) a with hd
      -- the residuals at the two ends
      have key : |stencil p (extend .cyclic n c) i - a i|
          ≤ |d 0 - (a 0 + p * d (n - 1))|
            + (1 + 1 / |p|) * |c (n - 1) - p * (c 0 - d (n - 1))| := by
        have hstep : ∀ i, i + 1 < n → c i = p * (c (i + 1) - d i) := fun i hi =>
          poleFilter_step .cyclic m p a hi
        have hdr : ∀ i, d (i + 1) = a (i + 1) + p * d i := fun i => rfl
        have hmul : (1 + 1 / |p|) * |c (n - 1) - p * (c 0 - d (n - 1))|
            = |c (n - 1) - p * (c 0 - d (n - 1))| + |(c (n - 1) - p * (c 0 - d (n - 1))) / p| := by
          rw [abs_div]; ring
        rw [hmul]
        unfold stencil extend
        rw [hself]
        by_cases h0 : i = 0
        · subst h0
          have e1 : mapBorder .cyclic n (((0 : ℕ) : ℤ) - 1) = (n - 1 : ℕ) := by
            rw [mapBorder_cyclic hok.2.1, show (((0 : ℕ) : ℤ) - 1) % n = (n - 1 : ℤ) % n by
              rw [show ((n : ℤ) - 1) = (((0 : ℕ) : ℤ) - 1) + n by push_cast; ring,
                Int.add_emod_right], Int.emod_eq_of_lt] <;> omega
          rw [e1]
          simp only [Int.toNat_natCast]
          by_cases hn1 : n = 1
          · subst hn1
            have e2 : mapBorder .cyclic 1 (((0 : ℕ) : ℤ) + 1) = (0 : ℕ) := by decide
            rw [e2]
            simp only [Int.toNat_natCast, Nat.sub_self]
            have e : c 0 - (p + 1 / p) * c 0 + c 0 - a 0
                = (d 0 - (a 0 + p * d 0)) + ((c 0 - p * (c 0 - d 0)) + -((c 0 - p * (c 0 - d 0)) / p)) := by
              field_simp; ring
            rw [e]
            refine le_trans (abs_add_le _ _) ?_
            have := abs_add_le (c 0 - p * (c 0 - d 0)) (-((c 0 - p * (c 0 - d 0)) / p))
            rw [abs_neg] at this
            linarith
          · have e2 : mapBorder .cyclic n (((0 : ℕ) : ℤ) + 1) = (1 : ℕ) := by
              rw [mapBorder_inside] <;> have := hok.2.1 <;> push_cast <;> omega
            rw [e2]
            simp only [Int.toNat_natCast]
            have h := hstep 0 (by have := hok.2.1; omega)
            have e : c (n - 1) - (p + 1 / p) * c 0 + c 1 - a 0
                = (d 0 - (a 0 + p * d (n - 1))) + (c (n - 1) - p * (c 0 - d (n - 1))) := by
              have e3 : (p + 1 / p) * c 0 = p * c 0 + c 0 / p := by ring
              have e4 : c 0 / p = c 1 - d 0 := by rw [h]; field_simp
              rw [e3, e4]; ring
            rw [e]
            have := abs_add_le (d 0 - (a 0 + p * d (n - 1))) (c (n - 1) - p * (c 0 - d (n - 1)))
            have h' := abs_nonneg ((c (n - 1) - p * (c 0 - d (n - 1))) / p)
            linarith
        · -- the last point, `n ≥ 2`
          have hil : i = n - 1 := by omega
          have hn2 : 2 ≤ n := by omega
          obtain ⟨k, rfl⟩ : ∃ k, n = k + 2 := ⟨n - 2, by omega⟩
          subst hil
          have e1 : mapBorder .cyclic (k + 2) (((k + 2 - 1 : ℕ) : ℤ) - 1) = (k : ℕ) := by
            rw [mapBorder_inside] <;> push_cast <;> omega
          have e2 : mapBorder .cyclic (k + 2) (((k + 2 - 1 : ℕ) : ℤ) + 1) = (0 : ℕ) := by
            rw [mapBorder_cyclic hok.2.1, show ((k + 2 - 1 : ℕ) : ℤ) + 1 = ((k + 2 : ℕ) : ℤ) by
              push_cast; omega, Int.emod_self]; rfl
          rw [e1, e2]
          simp only [Int.toNat_natCast, show k + 2 - 1 = k + 1 by omega]
          have h := hstep k (by omega)
          have h' := hdr k
          have e : c k - (p + 1 / p) * c (k + 1) + c 0 - a (k + 1)
              = -((c (k + 1) - p * (c 0 - d (k + 1))) / p) := by
            have e3 : (p + 1 / p) * c (k + 1) = p * c (k + 1) + c (k + 1) / p := by ring
            have e4 : (c (k + 1) - p * (c 0 - d (k + 1))) / p = c (k + 1) / p - (c 0 - d (k + 1)) := by
              field_simp
            rw [e3, e4]
            linear_combination h + h'
          rw [e, abs_neg]
          have := abs_nonneg (d 0 - (a 0 + p * d (k + 1)))
          have := abs_nonneg (c (k + 1) - p * (c 0 - d (k + 1)))
          linarith
      refine le_trans key ?_
      by_cases hnm : n ≤ m
      · obtain ⟨h2, h3⟩ := hends.1 hnm
        rw [show d 0 - (a 0 + p * d (n - 1)) = 0 by rw [h2]; ring,
          show c (n - 1) - p * (c 0 - d (n - 1)) = 0 by rw [h3]; ring, abs_zero, mul_zero, add_zero]
        exact hE
      · obtain ⟨h2, h3⟩ := hends.2 (by omega)
        have hpp : 0 < |p| := abs_pos.mpr hp
        have h4 := mul_le_mul_of_nonneg_left h3 (show (0 : K) ≤ 1 + 1 / |p| by positivity)
        refine le_trans (add_le_add h2 h4) ?_
        unfold poleEps
        rw [if_neg hnm]
        have e1 : |p| ^ m * (A / (1 - |p|)) + (1 + 1 / |p|) * (|p| ^ (m + 2) * (A / (1 - |p|) / (1 - |p|)))
            = |p| ^ m * A / (1 - |p|) ^ 2 * ((1 - |p|) + (|p| ^ 2 + |p|)) := by
          rw [pow_add]; field_simp
        have e2 : 2 * |p| ^ m / (1 - |p|) ^ 2 * A = |p| ^ m * A / (1 - |p|) ^ 2 * 2 := by ring
        rw [e1, e2]
        refine mul_le_mul_of_nonneg_left ?_ (by positivity)
        nlinarith
    · have hn := hok.2.2 rfl
      by_cases h0 : i = 0
      · subst h0
        have e2 : mapBorder .mirror n (((0 : ℕ) : ℤ) + 1) = (1 : ℕ) := by
          rw [mapBorder_inside] <;> push_cast <;> omega
        have e1 : mapBorder .mirror n (((0 : ℕ) : ℤ) - 1) = (1 : ℕ) := by
          rw [show ((0 : ℕ) : ℤ) - 1 = -1 by simp, mirror_neg hn]; rfl
        unfold stencil extend
        rw [hself, e1, e2]
        simp only [Int.toNat_natCast]
        have hf := mirror_first hp hq hn hm ha
        simp only at hf
        have e : ∀ x y : K, x - (p + 1 / p) * y + x - a 0 = 2 * x - (p + 1 / p) * y - a 0 := by
          intro x y; ring
        rw [e]
        by_cases hnm : n ≤ m
        · rw [hf.1 hnm, sub_self, abs_zero]; exact hE
        · refine le_trans (hf.2 (by omega)) ?_
          unfold poleEps
          rw [if_neg hnm]
          have e1 : |p| ^ m * (A / (1 - |p|)) = |p| ^ m * A / (1 - |p|) ^ 2 * (1 - |p|) := by
            field_simp
          have e2 : 2 * |p| ^ m / (1 - |p|) ^ 2 * A = |p| ^ m * A / (1 - |p|) ^ 2 * 2 := by ring
          rw [e1, e2]
          refine mul_le_mul_of_nonneg_left (by linarith) (by positivity)
      · have hil : i = n - 1 := by omega
        subst hil
        have e1 : mapBorder .mirror n (((n - 1 : ℕ) : ℤ) - 1) = (n - 2 : ℕ) := by
          rw [mapBorder_inside] <;> omega
        have e2 : mapBorder .mirror n (((n - 1 : ℕ) : ℤ) + 1) = (n - 2 : ℕ) := by
          rw [mirror_high hn] <;> omega
        unfold stencil extend
        rw [hself, e1, e2]
        simp only [Int.toNat_natCast]
        have hl := mirror_last (m := m) hp hq hn a
        simp only at hl
        have e : ∀ x y : K, x - (p + 1 / p) * y + x = 2 * x - (p + 1 / p) * y := by
          intro x y; ring
        rw [e, hl, sub_self, abs_zero]
        exact hE

/-- One pole of the filter inverts its stencil everywhere, up to the error of the cut sums. -/
theorem pole_resid {b : Border} {n m : ℕ} (hb : b = .cyclic ∨ b = .mirror) (hok : BorderOK b n)
    {p A : K} (hp : p ≠ 0) (hq : |p| < 1) (hm : 1 ≤ m) {a : ℕ → K} (ha : ∀ i < n, |a i| ≤ A)
    (i : ℤ) :
    |stencil p (extend b n (poleFilter b n m p a)) i - extend b n a i| ≤ poleEps n m p * A := by
  have hr := mapBorder_range hok i
  have hg := pole_grid hb hok hp hq hm ha (mapBorder b n i).toNat (by omega)
  have hcast : (((mapBorder b n i).toNat : ℕ) : ℤ) = mapBorder b n i := by omega
  rw [hcast] at hg
  have hself : mapBorder b n (mapBorder b n i) = mapBorder b n i := mapBorder_inside b hr.1 hr.2
  have : stencil p (extend b n (poleFilter b n m p a)) i
      = stencil p (extend b n (poleFilter b n m p a)) (mapBorder b n i) := by
    unfold stencil extend
    rcases border_neighbours hb hok i with ⟨h1, h2⟩ | ⟨h1, h2⟩
    · rw [h1, h2, hself]
    · rw [h1, h2, hself]; ring
  rw [this]
  exact hg

end Pixell
