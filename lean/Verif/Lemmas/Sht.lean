import Mathlib.Tactic.Linarith
import Mathlib.Tactic.FieldSimp
import Mathlib.Tactic.LinearCombination
import Verif.Model.Sht

/-
Lemmas for Props/Sht.
-/
namespace Pixell

/-- Consecutive segments with given lengths split an interval: each position is in exactly one. -/
theorem exists_unique_segment (l : List Nat) (p : Nat) (hp : p < l.sum) :
    ∃! i, i < l.length ∧ (l.take i).sum ≤ p ∧ p < (l.take (i + 1)).sum := by
  induction l generalizing p with
  | nil => simp at hp
  | cons a l ih =>
    rw [List.sum_cons] at hp
    by_cases h : p < a
    · refine ⟨0, ⟨by simp, by simp, by simpa using h⟩, ?_⟩
      rintro (_ | i) ⟨h1, h2, h3⟩
      · rfl
      · rw [List.take_succ_cons, List.sum_cons] at h2
        omega
    · obtain ⟨i, ⟨h1, h2, h3⟩, hu⟩ := ih (p - a) (by omega)
      refine ⟨i + 1, ⟨by simpa using h1, ?_, ?_⟩, ?_⟩
      · rw [List.take_succ_cons, List.sum_cons]; omega
      · rw [List.take_succ_cons, List.sum_cons]; omega
      · rintro (_ | j) ⟨g1, g2, g3⟩
        · simp at g3; omega
        · rw [List.take_succ_cons, List.sum_cons] at g2 g3
          rw [hu j ⟨by simpa using g1, by omega, by omega⟩]

/-- Pixel count of a ring, in closed form. -/
theorem ringNphi_eq (N r : Nat) (hr : r < 4 * N - 1) :
    (ringNphi N r).toNat = 4 * min (min (r + 1) N) (4 * N - 1 - r) := by
  simp only [ringNphi, northRing]
  split_ifs <;> omega

theorem sum_rings_low (N k : Nat) (hk : k + 1 ≤ N) :
    ((List.range k).map fun r => 4 * min (min (r + 1) N) (4 * N - 1 - r)).sum = 2 * k * (k + 1) := by
  induction k with
  | zero => simp
  | succ k ih =>
    rw [List.range_succ, List.map_append, List.sum_append, ih (by omega)]
    have : min (min (k + 1) N) (4 * N - 1 - k) = k + 1 := by omega
    simp only [List.map_cons, List.map_nil, List.sum_cons, List.sum_nil, this]
    ring

theorem sum_rings_mid (N k : Nat) (h1 : N ≤ k + 1) (h2 : k ≤ 3 * N) (hN : 0 < N) :
    ((List.range k).map fun r => 4 * min (min (r + 1) N) (4 * N - 1 - r)).sum + 2 * N * N = 2 * N + 4 * N * k := by
  induction k with
  | zero =>
    obtain rfl : N = 1 := by omega
    simp
  | succ k ih =>
    by_cases hk : N ≤ k + 1
    · rw [List.range_succ, List.map_append, List.sum_append]
      have := ih hk (by omega)
      have e : min (min (k + 1) N) (4 * N - 1 - k) = N := by omega
      simp only [List.map_cons, List.map_nil, List.sum_cons, List.sum_nil, e]
      linarith
    · obtain rfl : N = k + 2 := by omega
      have e := sum_rings_low (k + 2) (k + 1) (by omega)
      rw [e]
      ring

theorem sum_rings_high (N j : Nat) (hj : j + 1 ≤ N) :
    ((List.range (3 * N + j)).map fun r => 4 * min (min (r + 1) N) (4 * N - 1 - r)).sum + 2 * N * N + 2 * j * (j + 1) =
      2 * N + 12 * N * N + 4 * j * N := by
  induction j with
  | zero =>
    have := sum_rings_mid N (3 * N) (by omega) (by omega) (by omega)
    simp only [Nat.add_zero]
    linarith
  | succ j ih =>
    rw [← Nat.add_assoc, List.range_succ, List.map_append, List.sum_append]
    have := ih (by omega)
    obtain ⟨d, rfl⟩ : ∃ d, N = j + 2 + d := ⟨N - (j + 2), by omega⟩
    have e : min (min (3 * (j + 2 + d) + j + 1) (j + 2 + d)) (4 * (j + 2 + d) - 1 - (3 * (j + 2 + d) + j)) = d + 1 := by
      omega
    simp only [List.map_cons, List.map_nil, List.sum_cons, List.sum_nil, e]
    linarith

/-- The rings hold all pixels of the sphere. -/
theorem sum_rings (N : Nat) :
    ((List.range (4 * N - 1)).map fun r => 4 * min (min (r + 1) N) (4 * N - 1 - r)).sum = 12 * N ^ 2 := by
  rcases Nat.eq_zero_or_pos N with rfl | hN
  · rfl
  · obtain ⟨j, rfl⟩ : ∃ j, N = j + 1 := ⟨N - 1, by omega⟩
    have := sum_rings_high (j + 1) j (by omega)
    have e : List.range (4 * (j + 1) - 1) = List.range (3 * (j + 1) + j) := congrArg _ (by omega)
    rw [e]
    nlinarith

/-- cos θ times `3 nside²`, the HEALPix definition of the rings with one-based ring number `i`: a polar cap, the
equatorial belt, the other cap. -/
def ringZ (N i : ℤ) : ℤ :=
  if i < N then 3 * N ^ 2 - i ^ 2 else if i ≤ 3 * N then 4 * N ^ 2 - 2 * N * i else (4 * N - i) ^ 2 - 3 * N ^ 2

theorem ringZ_anti (N i j : ℤ) (hi : 1 ≤ i) (hij : i < j) (hj : j ≤ 4 * N - 1) : ringZ N j < ringZ N i := by
  unfold ringZ
  split_ifs <;> first | omega | nlinarith

theorem ringTheta_mem (N r : Nat) (hr : r < 4 * N - 1) :
    ringTheta N r ∈ Set.Icc 0 Real.pi := by
  simp only [ringTheta]
  have hn : (0:ℝ) ≤ ((northRing N r : ℤ) : ℝ) := by
    have : 0 ≤ northRing N r := by simp only [northRing]; split_ifs <;> omega
    exact_mod_cast this
  generalize northRing N r = n at *
  have key : (if n < (N:ℤ) then 2 * Real.arcsin (n / (Real.sqrt 6 * (N:ℤ)))
      else Real.arccos ((2 * ((N:ℤ):ℝ) - n) * (8 * ((N:ℤ):ℝ) / (12 * ((N:ℤ):ℝ) ^ 2)))) ∈ Set.Icc 0 Real.pi := by
    split_ifs with h
    · constructor
      · have : 0 ≤ Real.arcsin ((n:ℝ) / (Real.sqrt 6 * ((N:ℤ):ℝ))) := by
          apply Real.arcsin_nonneg.2
          positivity
        linarith
      · have := Real.arcsin_le_pi_div_two ((n:ℝ) / (Real.sqrt 6 * ((N:ℤ):ℝ)))
        linarith
    · exact ⟨Real.arccos_nonneg _, Real.arccos_le_pi _⟩
  obtain ⟨h0, h1⟩ := key
  split_ifs at h0 h1 ⊢ <;> constructor <;> linarith

theorem cos_ringTheta (N r : Nat) (hr : r < 4 * N - 1) :
    Real.cos (ringTheta N r) = (ringZ N (r + 1) : ℝ) / (3 * N ^ 2) := by
  have hN : (0:ℝ) < N := by
    have : 0 < N := by omega
    exact_mod_cast this
  have key : ∀ n : ℤ, 1 ≤ n → n ≤ 2 * N →
      Real.cos (if n < (N:ℤ) then 2 * Real.arcsin (n / (Real.sqrt 6 * (N:ℤ)))
        else Real.arccos ((2 * ((N:ℤ):ℝ) - n) * (8 * ((N:ℤ):ℝ) / (12 * ((N:ℤ):ℝ) ^ 2)))) =
      ((if n < N then 3 * N ^ 2 - n ^ 2 else 4 * N ^ 2 - 2 * N * n : ℤ) : ℝ) / (3 * N ^ 2) := by
    intro n h1 h2
    have h1' : (1:ℝ) ≤ n := by exact_mod_cast h1
    have h2' : (n:ℝ) ≤ 2 * N := by exact_mod_cast h2
    split_ifs with h
    · have h' : (n:ℝ) < N := by exact_mod_cast h
      have hs : (0:ℝ) < Real.sqrt 6 := by positivity
      have hs1 : (1:ℝ) ≤ Real.sqrt 6 := by
        rw [show (1:ℝ) = Real.sqrt 1 by simp]
        exact Real.sqrt_le_sqrt (by norm_num)
      have hle : (n:ℝ) / (Real.sqrt 6 * ((N:ℤ):ℝ)) ≤ 1 := by
        rw [div_le_one (by push_cast; positivity)]
        push_cast
        nlinarith
      have hge : -1 ≤ (n:ℝ) / (Real.sqrt 6 * ((N:ℤ):ℝ)) := by
        have : 0 ≤ (n:ℝ) / (Real.sqrt 6 * ((N:ℤ):ℝ)) := by
          apply div_nonneg <;> push_cast <;> positivity
        linarith
      rw [Real.cos_two_mul, Real.cos_sq', Real.sin_arcsin hge hle, div_pow, mul_pow, Real.sq_sqrt (by norm_num)]
      push_cast
      field_simp
      ring
    · have h' : (N:ℝ) ≤ n := by
        have : (N:ℤ) ≤ n := by omega
        exact_mod_cast this
      have e : (2 * ((N:ℤ):ℝ) - n) * (8 * ((N:ℤ):ℝ) / (12 * ((N:ℤ):ℝ) ^ 2)) = (2 * N - n) * 2 / (3 * N) := by
        push_cast
        field_simp
        ring
      rw [e, Real.cos_arccos]
      · push_cast
        field_simp
        ring
      · have : 0 ≤ (2 * (N:ℝ) - n) * 2 / (3 * N) := by
          apply div_nonneg <;> nlinarith
        linarith
      · rw [div_le_one (by positivity)]
        linarith
  simp only [ringTheta]
  by_cases h : ((r:ℤ) + 1 > 2 * N)
  · have hn : northRing N r = 4 * N - (r + 1) := by simp only [northRing, if_pos h]
    rw [hn, if_pos (by omega), Real.cos_pi_sub, key _ (by omega) (by omega), ← neg_div]
    congr 1
    rw [← Int.cast_neg]
    congr 1
    unfold ringZ
    split_ifs <;> first | omega | ring
  · have hn : northRing N r = r + 1 := by simp only [northRing, if_neg h]
    rw [hn, if_neg (by simp), key _ (by omega) (by omega)]
    congr 2
    unfold ringZ
    split_ifs <;> first | omega | ring

end Pixell
