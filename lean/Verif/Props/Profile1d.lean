import Verif.Model.Profile1d
import Verif.Lemmas.Legendre
import Mathlib.Analysis.SpecialFunctions.Trigonometric.Basic
import Mathlib.Analysis.SpecialFunctions.Integrals.Basic

/-! Properties of radial profiles and their harmonics: C156. -/

namespace Pixell

open Real Polynomial

/-- What `get_gridweights("CC", N)` of ducc0 promises: Clenshaw-Curtis quadrature at the angles `i*pi/(N-1)` integrates polynomials in the cosine of degree below `N` exactly over the sphere. -/
def CCRule (N : ℕ) (w : ℕ → ℝ) : Prop :=
  ∀ p : ℝ[X], p.natDegree ≤ N - 1 → ∑ i ∈ Finset.range N, w i * p.eval (cos (i * (π / ((N : ℝ) - 1)))) = 2 * π * ∫ x in (-1 : ℝ)..1, p.eval x

theorem ylm0_scale (l : ℕ) (t : ℝ) : ylm0 l t * sqrt (4 * π / (2 * l + 1)) = legendreP l (cos t) := by
  unfold ylm0
  have h1 : (0 : ℝ) ≤ (2 * l + 1) / (4 * π) := by positivity
  have h2 : sqrt ((2 * l + 1) / (4 * π)) * sqrt (4 * π / (2 * l + 1)) = 1 := by
    rw [← sqrt_mul h1, div_mul_div_comm, mul_comm, div_self (by positivity), sqrt_one]
  linear_combination (legendreP l (cos t)) * h2

/-- C156, synthesis: harm2profile gives the sum of `(2l+1)/(4 pi) bl[l] P_l(cos r)`, which is what powspec.spec2corr computes from the spectrum bl at the same angle; at the centre this is the sum of `(2l+1)/(4 pi) bl[l]`. -/
theorem C156_synthesis (nl : ℕ) (bl : ℕ → ℝ) (r : ℝ) :
    harm2profile nl bl r = corrRow nl bl (cos r) ∧ harm2profile nl bl 0 = ∑ l ∈ Finset.range nl, (2 * l + 1) / (4 * π) * bl l := by
  have key : ∀ r, harm2profile nl bl r = corrRow nl bl (cos r) := by
    intro r
    unfold harm2profile corrRow
    apply Finset.sum_congr rfl
    intro l _
    unfold ylm0
    have h1 : (0 : ℝ) ≤ (2 * l + 1) / (4 * π) := by positivity
    linear_combination (bl l * legendreP l (cos r)) * mul_self_sqrt h1
  refine ⟨key r, ?_⟩
  rw [key 0, cos_zero]
  unfold corrRow
  apply Finset.sum_congr rfl
  intro l _
  rw [← legPoly_eval, legPoly_one, mul_one]

example (r : ℝ) : harm2profile 2 (fun l => if l = 1 then 4 * π else 0) r = 3 * cos r := by
  rw [(C156_synthesis _ _ r).1]
  simp only [corrRow, Finset.sum_range_succ, Finset.sum_range_zero, legendreP]
  have : π ≠ 0 := pi_ne_zero
  norm_num

/-! ### The grid of profile2harm -/

theorem rintR_nat (k : ℕ) : rintR (k : ℝ) = k := by
  unfold rintR
  simp

theorem interp_grid (n : ℕ) (d : ℝ) (hd : 0 < d) (br : ℕ → ℝ) (left right : Option ℝ) (i : ℕ) (hi : i < n) :
    npInterp n (fun i => i * d) br left right (i * d) = br i := by
  classical
  have hle : ∀ j k : ℕ, ((j : ℝ) * d ≤ k * d) ↔ j ≤ k := fun j k => by rw [mul_le_mul_iff_left₀ hd]; exact_mod_cast Iff.rfl
  have hlt : ∀ j k : ℕ, ((j : ℝ) * d < k * d) ↔ j < k := fun j k => by rw [mul_lt_mul_iff_left₀ hd]; exact_mod_cast Iff.rfl
  have hfg : Nat.findGreatest (fun j : ℕ => (j : ℝ) * d ≤ i * d) (n - 1) = i := by
    rw [Nat.findGreatest_eq_iff]
    refine ⟨by omega, fun _ => le_refl _, fun m h1 _ h => ?_⟩
    have := (hle m i).1 h
    omega
  unfold npInterp
  rw [if_neg (by rw [hlt]; omega), if_neg (by rw [hlt]; omega)]
  simp only
  rw [hfg]
  split
  · rfl
  · rw [sub_self, mul_zero, add_zero]

/-- C156, between samples: the profile is interpolated linearly between the two radii around the point. Outside the radii it has
the given values, by default those at the ends. -/
theorem C156_interp (n : ℕ) (hn : 0 < n) (xp fp : ℕ → ℝ) (hx : ∀ i j, i < j → j < n → xp i < xp j) (left right : Option ℝ) (x : ℝ) :
    (∀ j, j + 1 < n → ∀ t, 0 ≤ t → t < 1 → x = xp j + t * (xp (j + 1) - xp j) → npInterp n xp fp left right x = (1 - t) * fp j + t * fp (j + 1)) ∧
    (x < xp 0 → npInterp n xp fp left right x = match left with | some v => v | none => fp 0) ∧
    (xp (n - 1) < x → npInterp n xp fp left right x = match right with | some v => v | none => fp (n - 1)) := by
  classical
  have hmono : ∀ i j, i ≤ j → j < n → xp i ≤ xp j := by
    intro i j hij hj
    rcases Nat.lt_or_eq_of_le hij with h | rfl
    · exact (hx i j h hj).le
    · exact le_rfl
  refine ⟨?_, ?_, ?_⟩
  · intro j hj t ht0 ht1 hxt
    have hd : 0 < xp (j + 1) - xp j := sub_pos.2 (hx j (j + 1) (by omega) hj)
    have h1 : xp j ≤ x := by rw [hxt]; nlinarith
    have h2 : x < xp (j + 1) := by rw [hxt]; nlinarith
    have hfg : Nat.findGreatest (fun j => xp j ≤ x) (n - 1) = j := by
      rw [Nat.findGreatest_eq_iff]
      refine ⟨by omega, fun _ => h1, fun m hm1 hm2 h => ?_⟩
      have := hmono (j + 1) m (by omega) (by omega)
      linarith
    unfold npInterp
    rw [if_neg (by have := hmono 0 j (by omega) (by omega); linarith), if_neg (by have := hmono (j + 1) (n - 1) (by omega) (by omega); linarith)]
    simp only
    rw [hfg, if_neg (by omega), hxt]
    field_simp
    ring
  · intro h
    unfold npInterp
    rw [if_pos h]
    cases left <;> rfl
  · intro h
    have := hmono 0 (n - 1) (by omega) (by omega)
    unfold npInterp
    rw [if_neg (by linarith), if_pos h]
    cases right <;> rfl

example : npInterp 3 (fun i => (i : ℝ) ^ 2) (fun i => (i : ℝ)) none (some 7) (5 / 2) = 3 / 2 ∧
    npInterp 3 (fun i => (i : ℝ) ^ 2) (fun i => (i : ℝ)) none (some 7) 5 = 7 := by
  have hx : ∀ i j : ℕ, i < j → j < 3 → (i : ℝ) ^ 2 < (j : ℝ) ^ 2 := by
    intro i j h _
    have : (i : ℝ) < j := by exact_mod_cast h
    gcongr
  constructor
  · rw [(C156_interp 3 (by decide) _ _ hx none (some 7) _).1 1 (by decide) (1 / 2) (by norm_num) (by norm_num) (by norm_num)]
    norm_num
  · rw [(C156_interp 3 (by decide) _ _ hx none (some 7) _).2.2 (by norm_num)]

/-- C156, analysis on the grid: for `n` of the `N` radii `i*pi/(N-1)`, starting at zero, profile2harm is the weighted sum of the profile times `P_l` over all the radii but the last. -/
theorem C156_grid (cc : ℤ → ℕ → ℝ) (N n : ℕ) (hn : 2 ≤ n) (hN : n ≤ N) (br : ℕ → ℝ) (left right : Option ℝ) (l : ℕ) :
    profile2harm cc n br (fun i => i * (π / ((N : ℝ) - 1))) left right l =
      some (∑ i ∈ Finset.range (n - 1), cc N i * br i * legendreP l (cos (i * (π / ((N : ℝ) - 1))))) := by
  have hN1 : (0 : ℝ) < (N : ℝ) - 1 := by
    have : (2 : ℝ) ≤ N := by exact_mod_cast hn.trans hN
    linarith
  have hn1 : (0 : ℝ) < (n : ℝ) - 1 := by
    have : (2 : ℝ) ≤ n := by exact_mod_cast hn
    linarith
  have hd : 0 < π / ((N : ℝ) - 1) := div_pos pi_pos hN1
  have hcast : ((n - 1 : ℕ) : ℝ) = (n : ℝ) - 1 := by rw [Nat.cast_sub (by omega)]; simp
  have hcast' : ((N - 1 : ℕ) : ℝ) = (N : ℝ) - 1 := by rw [Nat.cast_sub (by omega)]; simp
  have hfull : profNfull n (fun i : ℕ => (i : ℝ) * (π / ((N : ℝ) - 1))) = N := by
    unfold profNfull
    simp only
    rw [hcast, Nat.cast_zero, zero_mul, sub_zero, mul_div_assoc, mul_comm, div_mul_cancel₀ _ hn1.ne', div_div_cancel₀ pi_ne_zero, ← hcast', rintR_nat]
    omega
  have hcut : profNcut n (fun i : ℕ => (i : ℝ) * (π / ((N : ℝ) - 1))) = ((n - 1 : ℕ) : ℤ) := by
    unfold profNcut
    rw [hfull]
    simp only [Int.cast_natCast]
    rw [mul_div_assoc, div_self hd.ne', mul_one, Int.ceil_natCast]
  unfold profile2harm
  simp only
  rw [hfull, hcut, if_neg (by omega)]
  congr 1
  rw [Int.toNat_natCast, Finset.sum_mul]
  apply Finset.sum_congr rfl
  intro i hi
  rw [Int.cast_natCast, interp_grid n _ hd br left right i (by have := Finset.mem_range.1 hi; omega)]
  linear_combination (br i * cc N i) * ylm0_scale l (i * (π / ((N : ℝ) - 1)))

theorem polyInt_sum {ι : Type} (s : Finset ι) (f : ι → ℝ[X]) : polyInt (∑ i ∈ s, f i) = ∑ i ∈ s, polyInt (f i) := by
  classical
  induction s using Finset.induction_on with
  | empty => simp [polyInt]
  | insert a s ha ih => rw [Finset.sum_insert ha, Finset.sum_insert ha, polyInt_add, ih]

/-- The sum over all the rings recovers the coefficients. -/
theorem full_sum (w : ℕ → ℝ) (N nl l : ℕ) (hw : CCRule N w) (h1 : 1 ≤ nl) (hl : nl - 1 + l ≤ N - 1) (bl : ℕ → ℝ) :
    ∑ i ∈ Finset.range N, w i * harm2profile nl bl (i * (π / ((N : ℝ) - 1))) * legendreP l (cos (i * (π / ((N : ℝ) - 1)))) = if l < nl then bl l else 0 := by
  have hp := hw (∑ k ∈ Finset.range nl, C ((2 * k + 1) / (4 * π) * bl k) * (legPoly k * legPoly l)) (by
    apply natDegree_sum_le_of_forall_le
    intro k hk
    have := Finset.mem_range.1 hk
    refine (natDegree_C_mul_le _ _).trans (natDegree_mul_le.trans ?_)
    have h1 := legPoly_degree k
    have h2 := legPoly_degree l
    omega)
  have hL : ∀ x : ℝ, (∑ k ∈ Finset.range nl, C ((2 * k + 1) / (4 * π) * bl k) * (legPoly k * legPoly l)).eval x = corrRow nl bl x * legendreP l x := by
    intro x
    rw [eval_finsetSum, corrRow, Finset.sum_mul]
    apply Finset.sum_congr rfl
    intro k _
    rw [eval_mul, eval_mul, eval_C, legPoly_eval, legPoly_eval]
    ring
  change _ = 2 * π * polyInt _ at hp
  rw [polyInt_sum] at hp
  calc _ = ∑ i ∈ Finset.range N, w i * (∑ k ∈ Finset.range nl, C ((2 * k + 1) / (4 * π) * bl k) * (legPoly k * legPoly l)).eval (cos (i * (π / ((N : ℝ) - 1)))) := by
        apply Finset.sum_congr rfl
        intro i _
        rw [hL, (C156_synthesis nl bl _).1]
        ring
    _ = _ := hp
    _ = _ := by
        rw [Finset.mul_sum]
        have : ∀ k ∈ Finset.range nl, 2 * π * polyInt (C ((2 * k + 1) / (4 * π) * bl k) * (legPoly k * legPoly l)) = if k = l then bl l else 0 := by
          intro k _
          rw [polyInt_C, legPoly_inner]
          split
          · rename_i h
            subst h
            have : π ≠ 0 := pi_ne_zero
            have h3 : (2 * (k : ℝ) + 1) ≠ 0 := by positivity
            field_simp
            norm_num
          · ring
        rw [Finset.sum_congr rfl this, Finset.sum_ite_eq']
        simp

/-- C156, round trip, for a profile that is zero at the last of the given radii and beyond: if its coefficients end at `nl-1` and `nl-1+l < N`, then profile2harm finds each coefficient `l` (zero for those beyond the end)
exactly, from the samples of harm2profile at `n` of the `N` radii `i*pi/(N-1)`. All coefficients up to the default lmax of profile2harm are in this range when the profile has none above it. -/
theorem C156_round_partial (cc : ℤ → ℕ → ℝ) (N n nl l : ℕ) (hn : 2 ≤ n) (hN : n ≤ N) (hw : CCRule N (cc N)) (h1 : 1 ≤ nl) (hl : nl - 1 + l ≤ N - 1) (bl : ℕ → ℝ) (left right : Option ℝ)
    (hz : ∀ i, n - 1 ≤ i → i < N → harm2profile nl bl (i * (π / ((N : ℝ) - 1))) = 0) :
    profile2harm cc n (fun i => harm2profile nl bl (i * (π / ((N : ℝ) - 1)))) (fun i => i * (π / ((N : ℝ) - 1))) left right l = some (if l < nl then bl l else 0) := by
  rw [C156_grid cc N n hn hN, ← full_sum (cc N) N nl l hw h1 hl bl]
  congr 1
  apply Finset.sum_subset
  · intro i hi
    have := Finset.mem_range.1 hi
    exact Finset.mem_range.2 (by omega)
  · intro i hi hi'
    rw [hz i (by simpa using hi') (Finset.mem_range.1 hi)]
    ring

/-- The default lmax is in the range of the round trip. -/
theorem C156_lmax (N n : ℕ) (hn : 2 ≤ n) (hN : n ≤ N) : profLmax n (fun i => i * (π / ((N : ℝ) - 1))) + profLmax n (fun i => i * (π / ((N : ℝ) - 1))) ≤ (N : ℤ) - 2 := by
  have hN1 : (0 : ℝ) < (N : ℝ) - 1 := by
    have : (2 : ℝ) ≤ N := by exact_mod_cast hn.trans hN
    linarith
  have hn1 : (0 : ℝ) < (n : ℝ) - 1 := by
    have : (2 : ℝ) ≤ n := by exact_mod_cast hn
    linarith
  have hcast : ((n - 1 : ℕ) : ℝ) = (n : ℝ) - 1 := by rw [Nat.cast_sub (by omega)]; simp
  have hcast' : ((N - 1 : ℕ) : ℝ) = (N : ℝ) - 1 := by rw [Nat.cast_sub (by omega)]; simp
  have hfull : profNfull n (fun i : ℕ => (i : ℝ) * (π / ((N : ℝ) - 1))) = N := by
    unfold profNfull
    simp only
    rw [hcast, Nat.cast_zero, zero_mul, sub_zero, mul_div_assoc, mul_comm, div_mul_cancel₀ _ hn1.ne', div_div_cancel₀ pi_ne_zero, ← hcast', rintR_nat]
    omega
  unfold profLmax
  rw [hfull, Int.fdiv_eq_ediv_of_nonneg _ (by norm_num)]
  omega

/-- C156, round trip, fails on the whole sphere: profile2harm leaves out the last radius, the other pole, and coefficient `l` is off by the weight of the pole times the profile there times `(-1)^l`. -/
theorem C156_round_refuted (cc : ℤ → ℕ → ℝ) (N nl l : ℕ) (hN : 2 ≤ N) (hw : CCRule N (cc N)) (h1 : 1 ≤ nl) (hl : nl - 1 + l ≤ N - 1) (bl : ℕ → ℝ) (left right : Option ℝ)
    (hpole : cc N (N - 1) ≠ 0) (hz : harm2profile nl bl π ≠ 0) :
    ∃ v, profile2harm cc N (fun i => harm2profile nl bl (i * (π / ((N : ℝ) - 1)))) (fun i => i * (π / ((N : ℝ) - 1))) left right l = some v ∧
      v = (if l < nl then bl l else 0) - cc N (N - 1) * harm2profile nl bl π * (-1) ^ l ∧ v ≠ if l < nl then bl l else 0 := by
  have hN1 : (N : ℝ) - 1 ≠ 0 := by
    have : (2 : ℝ) ≤ N := by exact_mod_cast hN
    linarith
  have hs := full_sum (cc N) N nl l hw h1 hl bl
  have hlast : ((N - 1 : ℕ) : ℝ) * (π / ((N : ℝ) - 1)) = π := by
    rw [Nat.cast_sub (by omega), Nat.cast_one, mul_div_assoc', mul_comm, mul_div_cancel_right₀ _ hN1]
  obtain ⟨M, rfl⟩ : ∃ M, N = M + 1 := ⟨N - 1, by omega⟩
  rw [Finset.sum_range_succ] at hs
  rw [show M + 1 - 1 = M by omega] at hlast hpole ⊢
  rw [hlast, cos_pi, ← legPoly_eval l (-1), legPoly_neg_one] at hs
  refine ⟨_, C156_grid cc (M + 1) (M + 1) hN (le_refl _) _ left right l, ?_, ?_⟩
  · rw [show M + 1 - 1 = M by omega]
    linarith
  · rw [show M + 1 - 1 = M by omega]
    have : cc (M + 1 : ℕ) M * harm2profile nl bl π * (-1) ^ l ≠ 0 := mul_ne_zero (mul_ne_zero hpole hz) (pow_ne_zero _ (by norm_num))
    intro e
    apply this
    linarith

/-- C156, the last sample, is never used on such a grid: profiles that differ only there have the same harmonics. -/
theorem C156_last_refuted (cc : ℤ → ℕ → ℝ) (N n : ℕ) (hn : 2 ≤ n) (hN : n ≤ N) (br br' : ℕ → ℝ) (h : ∀ i < n - 1, br i = br' i) (left right : Option ℝ) (l : ℕ) :
    profile2harm cc n br (fun i => i * (π / ((N : ℝ) - 1))) left right l = profile2harm cc n br' (fun i => i * (π / ((N : ℝ) - 1))) left right l := by
  rw [C156_grid cc N n hn hN, C156_grid cc N n hn hN]
  congr 1
  apply Finset.sum_congr rfl
  intro i hi
  rw [h i (Finset.mem_range.1 hi)]

/-- The weights for three rings: Simpson's rule. The constant profile 1 has the coefficient 4 pi at l=0, but only 5/6 of it is found. -/
example : CCRule 3 (fun i => 2 * π * if i = 1 then 4 / 3 else 1 / 3) ∧
    profile2harm (fun _ i => 2 * π * if i = 1 then 4 / 3 else 1 / 3) 3 (fun _ => 1) (fun i => i * (π / (((3 : ℕ) : ℝ) - 1))) none none 0 = some (5 / 6 * (4 * π)) := by
  constructor
  · intro p hp
    have hq : p = C (p.coeff 2) * X ^ 2 + C (p.coeff 1) * X + C (p.coeff 0) := by
      have := p.as_sum_range_C_mul_X_pow' (n := 3) (by omega)
      rw [Finset.sum_range_succ, Finset.sum_range_succ, Finset.sum_range_one] at this
      rw [pow_one, pow_zero, mul_one] at this
      linear_combination this
    generalize p.coeff 2 = a at hq
    generalize p.coeff 1 = b at hq
    generalize p.coeff 0 = c at hq
    subst hq
    have hi : ∫ x in (-1 : ℝ)..1, (C a * X ^ 2 + C b * X + C c).eval x = 2 * a / 3 + 2 * c := by
      have h := polyInt_deriv (C (a / 3) * X ^ 3 + C (b / 2) * X ^ 2 + C c * X)
      rw [show derivative (C (a / 3) * X ^ 3 + C (b / 2) * X ^ 2 + C c * X) = C a * X ^ 2 + C b * X + C c by
        simp only [derivative_add, derivative_mul, derivative_C, derivative_X_pow, derivative_X, zero_mul, zero_add, mul_one]
        rw [← mul_assoc, ← mul_assoc, ← C_mul, ← C_mul]
        norm_num] at h
      unfold polyInt at h
      rw [h]
      simp only [eval_add, eval_mul, eval_C, eval_pow, eval_X]
      ring
    rw [hi]
    simp only [Finset.sum_range_succ, Finset.sum_range_zero, eval_add, eval_mul, eval_C, eval_pow, eval_X]
    norm_num [show 2 * (π / 2) = π by ring]
    ring
  · rw [C156_grid _ 3 3 (by norm_num) (le_refl _)]
    congr 1
    simp [Finset.sum_range_succ, legendreP]
    ring

end Pixell
