import Verif.Model.Nufft
import Verif.Lemmas.FlatFourier
import Verif.Props.Solvers
import Mathlib.LinearAlgebra.Complex.FiniteDimensional

/-! Sums over grids of any dimension, and conjugate gradients for the normal equations. -/
namespace Pixell
open Complex
open scoped ComplexConjugate

variable {d m : ℕ}

theorem cis_sum_univ {ι : Type} (s : Finset ι) (g : ι → ℝ) : cis (∑ i ∈ s, g i) = ∏ i ∈ s, cis (g i) := by
  classical
  induction s using Finset.induction_on with
  | empty => simp [cis_zero]
  | insert a s ha ih => rw [Finset.sum_insert ha, Finset.prod_insert ha, cis_add, ih]

theorem sum_ngrid (N : Fin d → ℕ) (f : (i : Fin d) → Fin (N i) → ℂ) :
    ∑ k : NGrid N, ∏ i, f i (k i) = ∏ i, ∑ k, f i k := by
  rw [Finset.prod_univ_sum]
  rw [Fintype.piFinset_univ]

theorem grid_orth (N : Fin d → ℕ) (hN : ∀ i, 0 < N i) (D : Fin d → ℤ) :
    ∑ k : NGrid N, cis (∑ i, ((k i : ℕ) : ℝ) * ((D i : ℝ) / N i)) = if ∀ i, (N i : ℤ) ∣ D i then nuNorm N else 0 := by
  have e : ∀ k : NGrid N, cis (∑ i, ((k i : ℕ) : ℝ) * ((D i : ℝ) / N i)) =
      ∏ i, (fun (i : Fin d) (q : Fin (N i)) => cis (((q : ℕ) : ℝ) * ((D i : ℝ) / N i))) i (k i) := fun k => cis_sum_univ _ _
  rw [Finset.sum_congr rfl fun k _ => e k, sum_ngrid N (fun (i : Fin d) (q : Fin (N i)) => cis (((q : ℕ) : ℝ) * ((D i : ℝ) / N i)))]
  have e2 : ∀ i, ∑ q : Fin (N i), cis (((q : ℕ) : ℝ) * ((D i : ℝ) / N i)) = if (N i : ℤ) ∣ D i then (N i : ℂ) else 0 := by
    intro i
    rw [Fin.sum_univ_eq_sum_range (fun k : ℕ => cis ((k : ℝ) * ((D i : ℝ) / N i))), cis_sum _ (hN i)]
  rw [Finset.prod_congr rfl fun i _ => e2 i]
  unfold nuNorm
  by_cases h : ∀ i, (N i : ℤ) ∣ D i
  · rw [if_pos h]
    exact Finset.prod_congr rfl fun i _ => if_pos (h i)
  · rw [if_neg h]
    push Not at h
    obtain ⟨i, hi⟩ := h
    exact Finset.prod_eq_zero (Finset.mem_univ i) (if_neg hi)

theorem nuFreq_mod (n k : ℕ) : ∃ z : ℤ, nuFreq n k = k + n * z := by
  unfold nuFreq
  split
  · exact ⟨0, by ring⟩
  · exact ⟨-1, by ring⟩

theorem nuNorm_ne (N : Fin d → ℕ) (hN : ∀ i, 0 < N i) : nuNorm N ≠ 0 := by
  unfold nuNorm
  exact Finset.prod_ne_zero_iff.2 fun i _ => by exact_mod_cast (hN i).ne'

/-- At points with whole-number coordinates the frequencies may be replaced by the indices. -/
theorem cis_phase_int (N : Fin d → ℕ) (hN : ∀ i, 0 < N i) (k : NGrid N) (X : Fin d → ℤ) :
    cis (nuPhase N N k fun i => X i) = cis (∑ i, ((k i : ℕ) : ℝ) * ((X i : ℝ) / N i)) := by
  unfold nuPhase
  rw [cis_sum_univ, cis_sum_univ]
  apply Finset.prod_congr rfl
  intro i _
  obtain ⟨z, hz⟩ := nuFreq_mod (N i) (k i)
  have hn : (N i : ℝ) ≠ 0 := by exact_mod_cast (hN i).ne'
  have : (nuFreq (N i) (k i) : ℝ) * (X i : ℝ) / N i = ((k i : ℕ) : ℝ) * ((X i : ℝ) / N i) + ((z * X i : ℤ) : ℝ) := by
    rw [hz]; push_cast; field_simp
  rw [this, cis_add_int]

/-- The signal at whole-number positions is the data, times the number of samples. -/
theorem u2nu_fftN (N : Fin d → ℕ) (hN : ∀ i, 0 < N i) (a : NGrid N → ℂ) (l : NGrid N) (z : Fin d → ℤ) :
    duccU2nu false N N (fftN N a) (fun i => ((l i : ℕ) : ℝ) + N i * z i) = nuNorm N * a l := by
  unfold duccU2nu fftN nuSign
  simp only [Bool.false_eq_true, if_false, one_mul]
  have hX : (fun i => ((l i : ℕ) : ℝ) + N i * z i) = fun i => (((l i : ℕ) + N i * z i : ℤ) : ℝ) := by funext i; push_cast; rfl
  rw [hX]
  have e : ∀ k : NGrid N, (∑ l' : NGrid N, a l' * cis (-∑ i, ((k i : ℕ) : ℝ) * ((l' i : ℕ) : ℝ) / N i)) *
      cis (nuPhase N N k fun i => (((l i : ℕ) + N i * z i : ℤ) : ℝ)) =
      ∑ l' : NGrid N, a l' * cis (∑ i, ((k i : ℕ) : ℝ) * (((((l i : ℕ) + N i * z i - (l' i : ℕ) : ℤ)) : ℝ) / N i)) := by
    intro k
    rw [cis_phase_int N hN, Finset.sum_mul]
    apply Finset.sum_congr rfl
    intro l' _
    rw [mul_assoc, ← cis_add]
    congr 2
    rw [← Finset.sum_neg_distrib, ← Finset.sum_add_distrib]
    apply Finset.sum_congr rfl
    intro i _
    push_cast; ring
  rw [Finset.sum_congr rfl fun k _ => e k, Finset.sum_comm]
  simp_rw [← Finset.mul_sum]
  rw [Finset.sum_eq_single l]
  · rw [grid_orth N hN (fun i => (l i : ℕ) + N i * z i - (l i : ℕ)), if_pos, mul_comm]
    intro i; exact ⟨z i, by ring⟩
  · intro l' _ hne
    rw [grid_orth N hN (fun i => (l i : ℕ) + N i * z i - (l' i : ℕ)), if_neg, mul_zero]
    intro h
    apply hne
    funext i
    have h1 : (N i : ℤ) ∣ ((l i : ℕ) : ℤ) - (l' i : ℕ) := by
      have h2 := h i
      have h3 : ((l i : ℕ) : ℤ) + N i * z i - (l' i : ℕ) = (((l i : ℕ) : ℤ) - (l' i : ℕ)) + N i * z i := by ring
      rw [h3] at h2
      exact (Int.dvd_add_left (Dvd.intro _ rfl)).1 h2
    exact Fin.ext ((dvd_sub_nat (l i).2 (l' i).2).1 h1)
  · intro h; exact absurd (Finset.mem_univ l) h

/-- The fft of the samples of a trigonometric polynomial. -/
theorem fftN_trig (N : Fin d → ℕ) (hN : ∀ i, 0 < N i) (c : NGrid N → ℂ) (k : NGrid N) :
    fftN N (fun l => ∑ q, c q * cis (nuPhase N N q fun i => ((l i : ℕ) : ℝ))) k = nuNorm N * c k := by
  unfold fftN
  have e : ∀ l : NGrid N, (∑ q, c q * cis (nuPhase N N q fun i => ((l i : ℕ) : ℝ))) *
      cis (-∑ i, ((k i : ℕ) : ℝ) * ((l i : ℕ) : ℝ) / N i) =
      ∑ q, c q * cis (∑ i, ((l i : ℕ) : ℝ) * (((((q i : ℕ) - (k i : ℕ) : ℤ)) : ℝ) / N i)) := by
    intro l
    rw [Finset.sum_mul]
    apply Finset.sum_congr rfl
    intro q _
    have h := cis_phase_int N hN q (fun i => ((l i : ℕ) : ℤ))
    simp only [Int.cast_natCast] at h
    rw [h, mul_assoc, ← cis_add]
    congr 2
    rw [← Finset.sum_neg_distrib, ← Finset.sum_add_distrib]
    apply Finset.sum_congr rfl
    intro i _
    push_cast; ring
  rw [Finset.sum_congr rfl fun l _ => e l, Finset.sum_comm]
  simp_rw [← Finset.mul_sum]
  rw [Finset.sum_eq_single k]
  · rw [grid_orth N hN (fun i => (k i : ℕ) - (k i : ℕ)), if_pos, mul_comm]
    intro i; simp
  · intro q _ hne
    rw [grid_orth N hN (fun i => (q i : ℕ) - (k i : ℕ)), if_neg, mul_zero]
    intro h
    exact hne (funext fun i => (Fin.ext ((dvd_sub_nat (q i).2 (k i).2).1 (h i))).symm)
  · intro h; exact absurd (Finset.mem_univ k) h

theorem cis_sign (forward : Bool) (t : ℝ) : cis (nuSign (!forward) * t) = conj (cis (nuSign forward * t)) := by
  rw [← cis_neg]
  unfold nuSign
  cases forward <;> simp

theorem ducc_adjoint (forward : Bool) (N P : Fin d → ℕ) (u : NGrid N → ℂ) (v : Fin m → ℂ) (xs : Fin m → Fin d → ℝ) :
    ∑ j, duccU2nu forward N P u (xs j) * conj (v j) = ∑ k, u k * conj (duccNu2u (!forward) N P v xs k) := by
  unfold duccU2nu duccNu2u
  simp_rw [map_sum, Finset.sum_mul, Finset.mul_sum]
  rw [Finset.sum_comm]
  refine Finset.sum_congr rfl fun k _ => Finset.sum_congr rfl fun j _ => ?_
  rw [map_mul, cis_sign, Complex.conj_conj]; ring

/-! ### The normal equations -/

theorem nuDot_re {ι : Type} [Fintype ι] (u v : ι → ℂ) : nuDot u v = (∑ k, u k * conj (v k)).re := by
  unfold nuDot
  rw [Complex.re_sum]
  refine Finset.sum_congr rfl fun k _ => ?_
  simp

/-- The product as a bilinear form over the real numbers. -/
noncomputable def nuForm (ι : Type) [Fintype ι] : LinearMap.BilinForm ℝ (ι → ℂ) :=
  LinearMap.mk₂ ℝ nuDot
    (fun u u' v => by
      unfold nuDot; rw [← Finset.sum_add_distrib]; refine Finset.sum_congr rfl fun k _ => ?_; simp; ring)
    (fun c u v => by
      unfold nuDot; rw [smul_eq_mul, Finset.mul_sum]; refine Finset.sum_congr rfl fun k _ => ?_; simp; ring)
    (fun u v v' => by
      unfold nuDot; rw [← Finset.sum_add_distrib]; refine Finset.sum_congr rfl fun k _ => ?_; simp; ring)
    (fun c u v => by
      unfold nuDot; rw [smul_eq_mul, Finset.mul_sum]; refine Finset.sum_congr rfl fun k _ => ?_; simp; ring)

theorem nuForm_apply {ι : Type} [Fintype ι] (u v : ι → ℂ) : nuForm ι u v = nuDot u v := rfl

theorem nuDot_comm {ι : Type} [Fintype ι] (u v : ι → ℂ) : nuDot u v = nuDot v u := by
  unfold nuDot; exact Finset.sum_congr rfl fun k _ => by ring

theorem nuDot_self_nonneg {ι : Type} [Fintype ι] (u : ι → ℂ) : 0 ≤ nuDot u u :=
  Finset.sum_nonneg fun _ _ => add_nonneg (mul_self_nonneg _) (mul_self_nonneg _)

theorem nuDot_self_eq {ι : Type} [Fintype ι] (u : ι → ℂ) (h : nuDot u u = 0) : u = 0 := by
  unfold nuDot at h
  rw [Finset.sum_eq_zero_iff_of_nonneg fun k _ => add_nonneg (mul_self_nonneg _) (mul_self_nonneg _)] at h
  funext k
  have hk := h k (Finset.mem_univ k)
  have h1 : (u k).re = 0 := by nlinarith [mul_self_nonneg (u k).re, mul_self_nonneg (u k).im]
  have h2 : (u k).im = 0 := by nlinarith [mul_self_nonneg (u k).re, mul_self_nonneg (u k).im]
  exact Complex.ext h1 h2

/-- u2nu as a linear map. -/
noncomputable def u2nuLin (forward : Bool) (N P : Fin d → ℕ) (xs : Fin m → Fin d → ℝ) : (NGrid N → ℂ) →ₗ[ℝ] (Fin m → ℂ) where
  toFun u j := duccU2nu forward N P u (xs j)
  map_add' u v := by
    funext j; simp only [duccU2nu, Pi.add_apply]; rw [← Finset.sum_add_distrib]
    exact Finset.sum_congr rfl fun k _ => by ring
  map_smul' c u := by
    funext j; simp only [duccU2nu, Pi.smul_apply, RingHom.id_apply]; rw [Finset.smul_sum]
    exact Finset.sum_congr rfl fun k _ => by rw [smul_mul_assoc]

/-- nu2u as a linear map. -/
noncomputable def nu2uLin (forward : Bool) (N P : Fin d → ℕ) (xs : Fin m → Fin d → ℝ) : (Fin m → ℂ) →ₗ[ℝ] (NGrid N → ℂ) where
  toFun v := duccNu2u forward N P v xs
  map_add' u v := by
    funext j; simp only [duccNu2u, Pi.add_apply]; rw [← Finset.sum_add_distrib]
    exact Finset.sum_congr rfl fun k _ => by ring
  map_smul' c u := by
    funext j; simp only [duccNu2u, Pi.smul_apply, RingHom.id_apply]; rw [Finset.smul_sum]
    exact Finset.sum_congr rfl fun k _ => by rw [smul_mul_assoc]

theorem nuDot_adjoint (forward : Bool) (N P : Fin d → ℕ) (xs : Fin m → Fin d → ℝ) (u : NGrid N → ℂ) (v : Fin m → ℂ) :
    nuDot (u2nuLin forward N P xs u) v = nuDot u (nu2uLin (!forward) N P xs v) := by
  rw [nuDot_re, nuDot_re]
  exact congrArg Complex.re (ducc_adjoint forward N P u v xs)

/-- The matrix of the normal equations. -/
noncomputable def nuNormalLin (forward : Bool) (N P : Fin d → ℕ) (xs : Fin m → Fin d → ℝ) : (NGrid N → ℂ) →ₗ[ℝ] (NGrid N → ℂ) :=
  (nu2uLin (!forward) N P xs).comp (u2nuLin forward N P xs)

theorem nuNormalLin_apply (forward : Bool) (N P : Fin d → ℕ) (xs : Fin m → Fin d → ℝ) (u : NGrid N → ℂ) :
    nuNormalLin forward N P xs u = nuNormal forward N P xs u := rfl

theorem nuNormal_dot (forward : Bool) (N P : Fin d → ℕ) (xs : Fin m → Fin d → ℝ) (u v : NGrid N → ℂ) :
    nuDot u (nuNormal forward N P xs v) = nuDot (u2nuLin forward N P xs u) (u2nuLin forward N P xs v) := by
  rw [nuDot_adjoint]; rfl

theorem nuNormal_selfAdj (forward : Bool) (N P : Fin d → ℕ) (xs : Fin m → Fin d → ℝ) :
    SelfAdj (nuForm (NGrid N)) (nuNormalLin forward N P xs) := by
  intro u v
  rw [nuForm_apply, nuForm_apply, nuNormalLin_apply, nuNormalLin_apply, nuNormal_dot, nuDot_comm, nuNormal_dot, nuDot_comm]

theorem finrank_grid (N : Fin d → ℕ) : Module.finrank ℝ (NGrid N → ℂ) = 2 * ∏ i, N i := by
  rw [Module.finrank_pi_fintype]
  simp [Complex.finrank_real_complex, mul_comm]

/-! ### The loop -/

variable {V : Type} [AddCommGroup V] [Module ℝ V]

theorem cgUntil_value (A : V → V) (dot : V → V → ℝ) (eps : ℝ) (s0 : CGState ℝ V) :
    ∀ (fuel n : ℕ) (x : V), cgUntil A dot eps fuel (cgRun A id dot s0 n) = .value x →
      ∃ q, n ≤ q ∧ x = (cgRun A id dot s0 q).x ∧ ∃ e, (cgRun A id dot s0 q).err = some e ∧ e ≤ eps
  | 0, n, x, h => by simp [cgUntil] at h
  | fuel + 1, n, x, h => by
    unfold cgUntil at h
    split at h
    · rename_i he
      injection h with h
      refine ⟨n, le_refl _, h.symm, ?_⟩
      cases hq : (cgRun A id dot s0 n).err with
      | none => rw [hq] at he; simp at he
      | some e => rw [hq] at he; exact ⟨e, rfl, by simpa using he⟩
    · split at h
      · cases h
      · obtain ⟨q, h1, h2⟩ := cgUntil_value A dot eps s0 fuel (n + 1) x h
        exact ⟨q, by omega, h2⟩

theorem cgUntil_stops (A : V → V) (dot : V → V → ℝ) (eps : ℝ) (s0 : CGState ℝ V) :
    ∀ (t n fuel : ℕ), t < fuel →
      (∀ j, n ≤ j → j < n + t → (cgRun A id dot s0 j).rz ≠ 0 ∧ (cgRun A id dot s0 j).rz0 ≠ 0 ∧
        dot (cgRun A id dot s0 j).p (A (cgRun A id dot s0 j).p) ≠ 0) →
      (∃ e, (cgRun A id dot s0 (n + t)).err = some e ∧ e ≤ eps) →
      ∃ x, cgUntil A dot eps fuel (cgRun A id dot s0 n) = .value x
  | t, n, 0, h, _, _ => by omega
  | 0, n, fuel + 1, _, _, ⟨e, he, hle⟩ => by
    refine ⟨(cgRun A id dot s0 n).x, ?_⟩
    unfold cgUntil
    rw [if_pos]
    rw [Nat.add_zero] at he
    rw [he]; simpa using hle
  | t + 1, n, fuel + 1, hf, hne, he => by
    unfold cgUntil
    split
    · exact ⟨_, rfl⟩
    · obtain ⟨h1, h2, h3⟩ := hne n (le_refl _) (by omega)
      rw [if_neg (by push Not; exact ⟨h3, h1, h2⟩)]
      exact cgUntil_stops A dot eps s0 t (n + 1) fuel (by omega) (fun j a b => hne j (by omega) (by omega))
        (by rw [show n + 1 + t = n + (t + 1) by omega]; exact he)

end Pixell
