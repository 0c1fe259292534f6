import Verif.Lemmas.Nufft
import Mathlib.Algebra.BigOperators.Field

/-
C180: Fourier interpolation and the non-uniform transforms of pixell/fft.py. Interpolation reproduces the samples and every
band-limited signal; nufft_adjoint is the adjoint of inufft; nufft solves the least-squares problem and undoes inufft.
-/
namespace Pixell
open Complex
open scoped ComplexConjugate

variable {d m : ℕ}

/-- **C180_samples.** Fourier interpolation of an array of any dimension at its own samples, moved by any whole number of
periods along each axis, gives the samples; or their real parts if a real result is asked for. -/
theorem C180_samples (cplx : Bool) (N : Fin d → ℕ) (a : NGrid N → ℂ) (xs : Fin m → Fin d → ℝ) (j : Fin m) (l : NGrid N)
    (z : Fin d → ℤ) (hx : ∀ i, xs j i = ((l i : ℕ) : ℝ) + N i * z i) :
    interpolNufft true false cplx N none a xs j = if cplx then a l else ((a l).re : ℂ) := by
  have hN : ∀ i, 0 < N i := fun i => lt_of_le_of_lt (Nat.zero_le _) (l i).2
  have hn := nuNorm_ne N hN
  have hre : nuNorm N = (((∏ i, (N i : ℝ)) : ℝ) : ℂ) := by unfold nuNorm; push_cast; rfl
  have h := u2nu_fftN N hN a l z
  rw [← funext hx] at h
  unfold interpolNufft u2nu nuPeriod
  simp only [Bool.false_eq_true, if_false, if_true, Option.getD_none, h]
  cases cplx
  · simp only [Bool.false_eq_true, if_false]
    rw [hre, Complex.re_ofReal_mul, Complex.ofReal_mul, ← hre]
    field_simp
  · simp only [if_true]
    field_simp

/-- **C180_exact.** A signal made of the frequencies representable with the samples — along each axis from -⌊n/2⌋ to
⌈n/2⌉-1 — is interpolated exactly at every position. -/
theorem C180_exact (N : Fin d → ℕ) (hN : ∀ i, 0 < N i) (c : NGrid N → ℂ) (xs : Fin m → Fin d → ℝ) (j : Fin m)
    (T : (Fin d → ℝ) → ℂ) (hT : ∀ x, T x = ∑ k, c k * cis (∑ i, (nuFreq (N i) (k i) : ℝ) * x i / N i)) :
    interpolNufft true false true N none (fun l => T fun i => ((l i : ℕ) : ℝ)) xs j = T (xs j) := by
  have hn := nuNorm_ne N hN
  have e : (fun l : NGrid N => T fun i => ((l i : ℕ) : ℝ)) = fun l => ∑ q, c q * cis (nuPhase N N q fun i => ((l i : ℕ) : ℝ)) := by
    funext l; rw [hT]; rfl
  rw [e]
  unfold interpolNufft u2nu nuPeriod
  simp only [Bool.false_eq_true, if_false, if_true, Option.getD_none]
  rw [hT, div_eq_iff hn]
  unfold duccU2nu
  rw [Finset.sum_mul]
  refine Finset.sum_congr rfl fun k _ => ?_
  rw [fftN_trig N hN]
  unfold nuSign nuPhase
  simp only [Bool.false_eq_true, if_false, one_mul]
  ring

/-- Every frequency in that range occurs, once: the range of `nuFreq`. -/
theorem nuFreq_range (n : ℕ) (f : ℤ) : (∃ k, k < n ∧ nuFreq n k = f) ↔ (-(n / 2 : ℕ) ≤ f ∧ f < ((n + 1) / 2 : ℕ)) := by
  unfold nuFreq
  constructor
  · rintro ⟨k, hk, rfl⟩
    split <;> omega
  · rintro ⟨h1, h2⟩
    by_cases h : 0 ≤ f
    · exact ⟨f.toNat, by omega, by rw [if_pos (by omega)]; omega⟩
    · exact ⟨(f + n).toNat, by omega, by rw [if_neg (by omega)]; omega⟩

/-- **C180_precompute.** An interpolator gives the same values whatever it keeps from the preparation. -/
theorem C180_precompute (pre : FourierPre) (cplx : Bool) (N : Fin d → ℕ) (a : NGrid N → ℂ) (xs : Fin m → Fin d → ℝ) :
    fourierInterp pre cplx N a xs = interpolNufft true false cplx N none a xs := by
  funext j
  cases pre <;> simp [fourierInterp, interpolNufft, u2nu, nuPeriod]

/-- **C180_periodic.** The signal evaluated by inufft has the given periodicity. -/
theorem C180_periodic (forward normalize cplx : Bool) (N P : Fin d → ℕ) (hP : ∀ i, 0 < P i) (u : NGrid N → ℂ)
    (xs ys : Fin m → Fin d → ℝ) (j : Fin m) (z : Fin d → ℤ) (h : ∀ i, ys j i = xs j i + P i * z i) :
    u2nu forward normalize cplx N (some P) u ys j = u2nu forward normalize cplx N (some P) u xs j := by
  have key : duccU2nu forward N P u (ys j) = duccU2nu forward N P u (xs j) := by
    unfold duccU2nu
    refine Finset.sum_congr rfl fun k _ => ?_
    congr 1
    have e : nuPhase N P k (ys j) = nuPhase N P k (xs j) + ((∑ i, nuFreq (N i) (k i) * z i : ℤ) : ℝ) := by
      unfold nuPhase
      push_cast
      rw [← Finset.sum_add_distrib]
      refine Finset.sum_congr rfl fun i _ => ?_
      have hp : (P i : ℝ) ≠ 0 := by exact_mod_cast (hP i).ne'
      rw [h]; field_simp
    rw [e]
    unfold nuSign
    cases forward
    · simp only [Bool.false_eq_true, if_false, one_mul]; rw [cis_add_int]
    · simp only [if_true, mul_add]
      rw [show (-1 : ℝ) * ((∑ i, nuFreq (N i) (k i) * z i : ℤ) : ℝ) = ((-(∑ i, nuFreq (N i) (k i) * z i) : ℤ) : ℝ) by push_cast; ring,
        cis_add_int]
  unfold u2nu nuPeriod
  simp only [Option.getD_some, key]

/-- **C180_adjoint.** nufft_adjoint (nu2u with the other sign) is the adjoint of inufft, with or without normalization. -/
theorem C180_adjoint (flip normalize : Bool) (N : Fin d → ℕ) (periodicity : Option (Fin d → ℕ)) (u : NGrid N → ℂ) (v : Fin m → ℂ)
    (xs : Fin m → Fin d → ℝ) :
    ∑ j, u2nu flip normalize true N periodicity u xs j * conj (v j) =
      ∑ k, u k * conj (nu2u (!flip) normalize N periodicity v xs k) := by
  have h := ducc_adjoint flip N (nuPeriod N periodicity) u v xs
  have hc : conj (nuNorm N) = nuNorm N := by unfold nuNorm; rw [map_prod]; simp
  unfold u2nu nu2u
  cases normalize
  · simpa using h
  · simp only [if_true]
    have e1 : ∀ j, duccU2nu flip N (nuPeriod N periodicity) u (xs j) / nuNorm N * conj (v j) =
        duccU2nu flip N (nuPeriod N periodicity) u (xs j) * conj (v j) / nuNorm N := fun j => by ring
    have e2 : ∀ k, u k * conj (duccNu2u (!flip) N (nuPeriod N periodicity) v xs k / nuNorm N) =
        u k * conj (duccNu2u (!flip) N (nuPeriod N periodicity) v xs k) / nuNorm N := fun k => by rw [map_div₀, hc]; ring
    simp_rw [e1, e2, ← Finset.sum_div, h]

/-- The Fourier coefficients can be told apart by the signal at the given points. -/
def Determined (forward : Bool) (N P : Fin d → ℕ) (xs : Fin m → Fin d → ℝ) : Prop :=
  ∀ u : NGrid N → ℂ, (∀ j, duccU2nu forward N P u (xs j) = 0) → u = 0

/-- The square of the length of a vector of complex numbers. -/
noncomputable def normSqSum {ι : Type} [Fintype ι] (v : ι → ℂ) : ℝ := ∑ j, ((v j).re ^ 2 + (v j).im ^ 2)

theorem nuDot_normSq {ι : Type} [Fintype ι] (v : ι → ℂ) : nuDot v v = normSqSum v := by
  unfold nuDot normSqSum; exact Finset.sum_congr rfl fun _ _ => by ring

theorem iu2nu_value {fuel : ℕ} {forward : Bool} {N : Fin d → ℕ} {periodicity : Option (Fin d → ℕ)} {eps : ℝ} {a : Fin m → ℂ}
    {xs : Fin m → Fin d → ℝ} {x : NGrid N → ℂ} (h : iu2nu fuel forward false N periodicity eps a xs = .value x) :
    normSqSum (duccNu2u (!forward) N (nuPeriod N periodicity)
        (fun j => a j - duccU2nu forward N (nuPeriod N periodicity) x (xs j)) xs) ≤
      eps * normSqSum (duccNu2u (!forward) N (nuPeriod N periodicity) a xs) ∨
    duccNu2u (!forward) N (nuPeriod N periodicity) a xs = 0 := by
  set P := nuPeriod N periodicity
  unfold iu2nu at h
  simp only [Bool.false_eq_true, if_false] at h
  set b := duccNu2u (!forward) N P a xs with hb
  split at h
  · rename_i y hy
    injection h with h
    subst h
    obtain ⟨q, hq, hx, e, he, hle⟩ := cgUntil_value (nuNormal forward N P xs) nuDot eps
      (cgInit (nuNormal forward N P xs) id nuDot b none) fuel 0 y hy
    obtain ⟨h1, h2, h3, h4, h5⟩ := C40_residual (nuNormalLin forward N P xs) id nuDot b none q
    have hq0 : 0 < q := by
      rcases Nat.eq_zero_or_pos q with h0 | h0
      · subst h0; simp [cgRun, cgInit] at he
      · exact h0
    have h6 := h5 hq0
    change (cgRun (nuNormal forward N P xs) id nuDot (cgInit (nuNormal forward N P xs) id nuDot b none) q).err = _ at h6
    rw [he] at h6
    injection h6 with h6
    by_cases hz : b = 0
    · exact Or.inr hz
    left
    have hpos : 0 < nuDot b b := lt_of_le_of_ne (nuDot_self_nonneg b) fun h0 => hz (nuDot_self_eq b h0.symm)
    have hrz0 : (cgRun (nuNormalLin forward N P xs) id nuDot (cgInit (nuNormalLin forward N P xs) id nuDot b none) q).rz0 =
        nuDot b b := h3
    rw [h6, h2, hrz0, div_le_iff₀ hpos, h1] at hle
    have hr : b - nuNormalLin forward N P xs
        (cgRun (nuNormalLin forward N P xs) id nuDot (cgInit (nuNormalLin forward N P xs) id nuDot b none) q).x =
        duccNu2u (!forward) N P (fun j => a j - duccU2nu forward N P y (xs j)) xs := by
      change _ = nu2uLin (!forward) N P xs (a - u2nuLin forward N P xs y)
      rw [map_sub, hx]; rfl
    rw [id, hr, nuDot_normSq, nuDot_normSq] at hle
    exact hle
  · cases h
  · cases h

/-- **C180_nufft.** If the points determine the coefficients and the transform of the samples is not zero, nufft ends after
at most twice as many steps as there are coefficients. The gradient of the squared error of its result, as a vector, is shorter
than that at zero by √epsilon. -/
theorem C180_nufft (flip : Bool) (N : Fin d → ℕ) (periodicity : Option (Fin d → ℕ)) (eps : ℝ) (heps : 0 ≤ eps) (a : Fin m → ℂ)
    (xs : Fin m → Fin d → ℝ) (hdet : Determined flip N (nuPeriod N periodicity) xs)
    (hb : nu2u (!flip) false N periodicity a xs ≠ 0) (fuel : ℕ) (hf : 2 * ∏ i, N i < fuel) :
    ∃ x, iu2nu fuel flip false N periodicity eps a xs = .value x ∧
      normSqSum (nu2u (!flip) false N periodicity (fun j => a j - u2nu flip false true N periodicity x xs j) xs) ≤
        eps * normSqSum (nu2u (!flip) false N periodicity a xs) := by
  have eb : nu2u (!flip) false N periodicity a xs = duccNu2u (!flip) N (nuPeriod N periodicity) a xs := rfl
  rw [eb] at hb ⊢
  have hex : ∃ x, iu2nu fuel flip false N periodicity eps a xs = .value x := by
    unfold iu2nu
    set P := nuPeriod N periodicity
    set b := duccNu2u (!flip) N P a xs
    have hsym : ∀ u v, nuForm (NGrid N) u v = nuForm (NGrid N) v u := fun u v => nuDot_comm u v
    have hAd : ∀ v, nuForm (NGrid N) v (nuNormalLin flip N P xs v) = 0 → v = 0 := by
      intro v hv
      rw [nuForm_apply, nuNormalLin_apply, nuNormal_dot] at hv
      have := nuDot_self_eq _ hv
      exact hdet v fun j => congrFun this j
    obtain ⟨k, hk, hsol, hne⟩ := C40_terminates (nuNormalLin flip N P xs) LinearMap.id (nuForm (NGrid N)) hsym
      (nuNormal_selfAdj flip N P xs) (fun _ _ => rfl) hAd (fun v hv => nuDot_self_eq v hv) b none _ rfl
    rw [finrank_grid] at hk
    set s0 := cgInit (nuNormal flip N P xs) id nuDot b none
    have hs : ∀ j, cgRun (nuNormalLin flip N P xs) (LinearMap.id (R := ℝ)) (fun u v => nuForm (NGrid N) u v)
        (cgInit (nuNormalLin flip N P xs) (LinearMap.id (R := ℝ)) (fun u v => nuForm (NGrid N) u v) b none) j =
        cgRun (nuNormal flip N P xs) id nuDot s0 j := fun j => rfl
    have hrz0 : ∀ j, (cgRun (nuNormal flip N P xs) id nuDot s0 j).rz0 ≠ 0 := by
      intro j
      have h3 : (cgRun (nuNormal flip N P xs) id nuDot s0 j).rz0 = nuDot b b :=
        (C40_residual (nuNormalLin flip N P xs) id nuDot b none j).2.2.1
      rw [h3]
      exact fun h0 => hb (nuDot_self_eq b h0)
    have hk0 : 0 < k := by
      rcases Nat.eq_zero_or_pos k with h0 | h0
      · subst h0
        exfalso; apply hb
        rw [← hsol, hs]
        exact map_zero (nuNormalLin flip N P xs)
      · exact h0
    have herr : ∃ e, (cgRun (nuNormal flip N P xs) id nuDot s0 (0 + k)).err = some e ∧ e ≤ eps := by
      obtain ⟨h1, h2, h3, h4, h5⟩ := C40_residual (nuNormalLin flip N P xs) id nuDot b none k
      have hr : (cgRun (nuNormalLin flip N P xs) id nuDot (cgInit (nuNormalLin flip N P xs) id nuDot b none) k).r = 0 := by
        rw [h1]
        exact sub_eq_zero.2 hsol.symm
      refine ⟨_, by rw [Nat.zero_add]; exact h5 hk0, ?_⟩
      rw [h2, hr]
      simpa [nuDot] using heps
    obtain ⟨x, hx⟩ := cgUntil_stops (nuNormal flip N P xs) nuDot eps s0 k 0 fuel (by omega)
      (fun j _ hj => ⟨(hne j (by omega)).1, hrz0 j, (hne j (by omega)).2⟩) herr
    refine ⟨x, ?_⟩
    have hx' : cgUntil (nuNormal flip N P xs) nuDot eps fuel (cgInit (nuNormal flip N P xs) id nuDot b none) = .value x := hx
    change (match cgUntil (nuNormal flip N P xs) nuDot eps fuel (cgInit (nuNormal flip N P xs) id nuDot b none) with
      | .value x => CgResult.value fun k => if false = true then x k * nuNorm N else x k
      | .nan => .nan
      | .running => .running) = _
    rw [hx']
    simp only [Bool.false_eq_true, if_false]
  obtain ⟨x, hx⟩ := hex
  refine ⟨x, hx, ?_⟩
  rcases iu2nu_value hx with h | h
  · exact h
  · exact absurd h hb

/-- **C180_least_squares.** With an exact solution (epsilon = 0), no coefficients come closer to the samples than those of
nufft, for any points and samples for which it gives a result. -/
theorem C180_least_squares (fuel : ℕ) (flip : Bool) (N : Fin d → ℕ) (periodicity : Option (Fin d → ℕ)) (a : Fin m → ℂ)
    (xs : Fin m → Fin d → ℝ) (x : NGrid N → ℂ) (h : iu2nu fuel flip false N periodicity 0 a xs = .value x)
    (hb : nu2u (!flip) false N periodicity a xs ≠ 0) (t : NGrid N → ℂ) :
    normSqSum (fun j => a j - u2nu flip false true N periodicity x xs j) ≤
      normSqSum fun j => a j - u2nu flip false true N periodicity t xs j := by
  have e : ∀ y : NGrid N → ℂ, (fun j => a j - u2nu flip false true N periodicity y xs j) =
      a - u2nuLin flip N (nuPeriod N periodicity) xs y := fun y => rfl
  rw [e, e]
  set P := nuPeriod N periodicity
  have h0 : nu2uLin (!flip) N P xs (a - u2nuLin flip N P xs x) = 0 := by
    rcases iu2nu_value h with h1 | h1
    · rw [zero_mul, ← nuDot_normSq] at h1
      exact nuDot_self_eq _ (le_antisymm h1 (nuDot_self_nonneg _))
    · exact absurd h1 hb
  set r := a - u2nuLin flip N P xs x
  have e2 : a - u2nuLin flip N P xs t = r + u2nuLin flip N P xs (x - t) := by rw [map_sub]; simp [r]
  have e3 : nuDot (u2nuLin flip N P xs (x - t)) r = 0 := by
    rw [nuDot_adjoint, h0]; unfold nuDot; simp
  rw [e2, ← nuDot_normSq, ← nuDot_normSq, ← nuForm_apply (r + _)]
  simp only [map_add, LinearMap.add_apply, nuForm_apply]
  rw [nuDot_comm r (u2nuLin flip N P xs (x - t)), e3]
  have := nuDot_self_nonneg (u2nuLin flip N P xs (x - t))
  linarith

theorem iu2nu_scale (fuel : ℕ) (forward normalize : Bool) (N : Fin d → ℕ) (periodicity : Option (Fin d → ℕ)) (eps : ℝ)
    (a : Fin m → ℂ) (xs : Fin m → Fin d → ℝ) :
    iu2nu fuel forward normalize N periodicity eps a xs = match iu2nu fuel forward false N periodicity eps a xs with
      | .value x => .value fun k => if normalize then x k * nuNorm N else x k
      | .nan => .nan
      | .running => .running := by
  unfold iu2nu
  dsimp only
  generalize cgUntil (nuNormal forward N (nuPeriod N periodicity) xs) nuDot eps fuel _ = c
  cases c <;> simp

/-- **C180_roundtrip.** nufft undoes inufft, with or without normalization and with either sign, for coefficients that are
not all zero, if the points determine them and the equations are solved exactly. -/
theorem C180_roundtrip (flip normalize : Bool) (N : Fin d → ℕ) (hN : ∀ i, 0 < N i) (periodicity : Option (Fin d → ℕ))
    (u : NGrid N → ℂ) (hu : u ≠ 0) (xs : Fin m → Fin d → ℝ) (hdet : Determined flip N (nuPeriod N periodicity) xs) (fuel : ℕ)
    (hf : 2 * ∏ i, N i < fuel) :
    iu2nu fuel flip normalize N periodicity 0 (u2nu flip normalize true N periodicity u xs) xs = .value u := by
  have hn := nuNorm_ne N hN
  set P := nuPeriod N periodicity with hP
  set w : NGrid N → ℂ := fun k => if normalize then u k / nuNorm N else u k with hw
  have hwne : w ≠ 0 := by
    intro h0
    apply hu
    funext k
    have := congrFun h0 k
    simp only [hw] at this
    cases normalize
    · simpa using this
    · simp only [if_true, Pi.zero_apply, div_eq_zero_iff] at this
      exact this.resolve_right hn
  have ha : u2nu flip normalize true N periodicity u xs = u2nuLin flip N P xs w := by
    funext j
    change _ = duccU2nu flip N P w (xs j)
    unfold u2nu
    cases normalize
    · simp [hw, hP]
    · simp only [if_true, hw, duccU2nu, Finset.sum_div]
      refine Finset.sum_congr rfl fun k _ => ?_
      rw [← hP]; ring
  have hb : nu2u (!flip) false N periodicity (u2nuLin flip N P xs w) xs ≠ 0 := by
    intro h0
    change nuNormalLin flip N P xs w = 0 at h0
    have h1 : nuDot w (nuNormal flip N P xs w) = 0 := by rw [← nuNormalLin_apply, h0]; unfold nuDot; simp
    rw [nuNormal_dot] at h1
    exact hwne (hdet w fun j => congrFun (nuDot_self_eq _ h1) j)
  obtain ⟨x, hx, hle⟩ := C180_nufft flip N periodicity 0 (le_refl _) (u2nuLin flip N P xs w) xs hdet hb fuel hf
  rw [zero_mul, ← nuDot_normSq] at hle
  have h0 := nuDot_self_eq _ (le_antisymm hle (nuDot_self_nonneg _))
  have hxw : x = w := by
    have h1 : nu2uLin (!flip) N P xs (u2nuLin flip N P xs (w - x)) = 0 := by rw [map_sub]; exact h0
    have h2 : nuDot (w - x) (nuNormal flip N P xs (w - x)) = 0 := by
      rw [show nuNormal flip N P xs (w - x) = 0 from h1]; unfold nuDot; simp
    rw [nuNormal_dot] at h2
    exact (sub_eq_zero.1 (hdet _ fun j => congrFun (nuDot_self_eq _ h2) j)).symm
  rw [ha]
  rw [iu2nu_scale, hx, hxw]
  simp only
  congr 1
  funext k
  cases normalize
  · simp [hw]
  · simp only [hw, if_true]; field_simp

/-- A non-trivial case: a point between the samples. -/
example : Determined false (fun _ : Fin 1 => 1) (fun _ => 1) (fun (_ : Fin 1) _ => (1 / 2 : ℝ)) := by
  intro u h
  have h0 := h 0
  unfold duccU2nu at h0
  rw [Fintype.sum_unique] at h0
  funext k
  have hk : k = default := Subsingleton.elim _ _
  rw [hk]
  have hc : ∀ t : ℝ, cis t ≠ 0 := fun t => Complex.exp_ne_zero _
  exact (mul_eq_zero.1 h0).resolve_right (hc _)

/-- **C180_grid.** The whole-number points determine the coefficients, so nufft at these undoes the interpolation there. -/
theorem C180_grid (n : ℕ) : Determined false (fun _ : Fin 1 => n) (fun _ => n) (fun (j : Fin n) _ => ((j : ℕ) : ℝ)) := by
  intro u h
  have h1 := fftN_trig (fun _ : Fin 1 => n)
  funext k
  have hn : ∀ i : Fin 1, 0 < (fun _ : Fin 1 => n) i := fun i => lt_of_le_of_lt (Nat.zero_le _) (k i).2
  have h2 := h1 hn u k
  have h3 : (fun l : NGrid (fun _ : Fin 1 => n) => ∑ q, u q * cis (nuPhase (fun _ : Fin 1 => n) (fun _ => n) q fun i => ((l i : ℕ) : ℝ))) =
      fun _ => 0 := by
    funext l
    have := h (l 0)
    unfold duccU2nu nuSign at this
    simp only [Bool.false_eq_true, if_false, one_mul] at this
    rw [← this]
    refine Finset.sum_congr rfl fun q _ => ?_
    congr 3
    funext i
    rw [Subsingleton.elim i 0]
  rw [h3] at h2
  have h4 : fftN (fun _ : Fin 1 => n) (fun _ => 0) k = 0 := by unfold fftN; simp
  rw [h4] at h2
  exact (mul_eq_zero.1 h2.symm).resolve_left (nuNorm_ne _ hn)

/-! ### Refutations -/

/-- **C180_zero_refuted.** nufft of samples that are all zero is not zero but not-a-number, for all points and any epsilon: so
are the coefficients of each component that is zero. -/
theorem C180_zero_refuted (fuel : ℕ) (flip normalize : Bool) (N : Fin d → ℕ) (periodicity : Option (Fin d → ℕ)) (eps : ℝ)
    (xs : Fin m → Fin d → ℝ) : iu2nu (fuel + 1) flip normalize N periodicity eps (fun _ => 0) xs = .nan := by
  have hb : duccNu2u (!flip) N (nuPeriod N periodicity) (fun _ : Fin m => 0) xs = 0 := by
    funext k; simp [duccNu2u]
  unfold iu2nu
  simp only [hb]
  have : cgUntil (nuNormal flip N (nuPeriod N periodicity) xs) nuDot eps (fuel + 1)
      (cgInit (nuNormal flip N (nuPeriod N periodicity) xs) id nuDot 0 none) = .nan := by
    unfold cgUntil
    rw [if_neg (by simp [cgInit]), if_pos]
    right; left
    simp [cgInit, nuDot]
  rw [this]

/-- **C180_complex_refuted.** interpol_nufft with its default complex=False drops the imaginary part of a complex array. -/
theorem C180_complex_refuted : ∃ (N : Fin 1 → ℕ) (a : NGrid N → ℂ) (l : NGrid N),
    interpolNufft true false false N none a (fun (_ : Fin 1) i => ((l i : ℕ) : ℝ)) 0 ≠ a l := by
  refine ⟨fun _ => 1, fun _ => I, fun _ => 0, ?_⟩
  rw [C180_samples false (fun _ => 1) (fun _ => I) _ 0 (fun _ => 0) (fun _ => 0) (by intro i; simp)]
  simp only [Bool.false_eq_true, if_false, Complex.I_re, Complex.ofReal_zero]
  exact Complex.I_ne_zero.symm

/-- **C180_axes_refuted.** With the axes given in another order, the coordinates are not taken in that order: inds[0] is still
used along the first axis of the array. -/
theorem C180_axes_refuted : ∃ (σ : Equiv.Perm (Fin 2)) (N : Fin 2 → ℕ) (a : NGrid N → ℂ) (l : NGrid N) (x : Fin 2 → ℝ),
    (∀ i, x i = ((l (σ i) : ℕ) : ℝ)) ∧ interpolAxes σ N a (fun (_ : Fin 1) => x) 0 ≠ a l := by
  refine ⟨Equiv.swap 0 1, fun _ => 2, fun l => ((l 0 : ℕ) : ℂ), fun i => if i = 0 then 1 else 0, fun i => if i = 0 then 0 else 1, ?_, ?_⟩
  · intro i
    fin_cases i <;> simp
  · have h := C180_samples true (fun _ : Fin 2 => 2) (fun l => ((l 0 : ℕ) : ℂ)) (fun (_ : Fin 1) i => if i = 0 then (0 : ℝ) else 1) 0
      (fun i => if i = 0 then 0 else 1) (fun _ => 0) (by intro i; fin_cases i <;> simp)
    have e : interpolAxes (Equiv.swap 0 1) (fun _ : Fin 2 => 2) (fun l => ((l 0 : ℕ) : ℂ)) (fun (_ : Fin 1) i => if i = 0 then (0 : ℝ) else 1) =
        interpolNufft true false true (fun _ : Fin 2 => 2) none (fun l => ((l 0 : ℕ) : ℂ)) (fun (_ : Fin 1) i => if i = 0 then (0 : ℝ) else 1) := rfl
    rw [e, h]
    simp

/-- **C180_periodicity_refuted.** With a periodicity other than the lengths of the array, interpolation does not give the
samples back. -/
theorem C180_periodicity_refuted : ∃ (N P : Fin 1 → ℕ) (a : NGrid N → ℂ) (l : NGrid N),
    (∀ i, N i ≤ P i) ∧ interpolNufft true false true N (some P) a (fun (_ : Fin 1) i => ((l i : ℕ) : ℝ)) 0 ≠ a l := by
  refine ⟨fun _ => 2, fun _ => 4, fun l => ((l 0 : ℕ) : ℂ), fun _ => 1, fun _ => by norm_num, ?_⟩
  intro h
  have hc : cis (-(1 / 4)) = -I := by
    unfold cis
    rw [show (2 * (Real.pi : ℂ) * ((-(1 / 4) : ℝ) : ℂ) * I) = -(Real.pi / 2 * I) by push_cast; ring, Complex.exp_neg, Complex.exp_pi_div_two_mul_I]
    simp
  have hc2 : cis (-(1 / 2)) = -1 := by
    unfold cis
    rw [show (2 * (Real.pi : ℂ) * ((-(1 / 2) : ℝ) : ℂ) * I) = -(Real.pi * I) by push_cast; ring, Complex.exp_neg, Complex.exp_pi_mul_I]
    norm_num
  have hs : ∀ f : NGrid (fun _ : Fin 1 => 2) → ℂ, ∑ k, f k = f (fun _ => 0) + f (fun _ => 1) := by
    intro f
    have := (Equiv.funUnique (Fin 1) (Fin 2)).symm.sum_comp f
    rw [← this, Fin.sum_univ_two]
    rfl
  unfold interpolNufft u2nu nuPeriod duccU2nu at h
  simp only [Bool.false_eq_true, if_false, if_true, Option.getD_some] at h
  rw [hs] at h
  unfold fftN nuPhase nuFreq nuSign nuNorm at h
  simp only [hs] at h
  norm_num [cis_zero] at h
  rw [hc, hc2] at h
  have := congrArg Complex.im h
  norm_num at this

/-- **C180_precision_refuted.** The precision is not that of the data: double-precision coefficients evaluated at
single-precision positions are first rounded to single precision, and single-precision ones at double-precision positions
are handled in double precision. The data has no influence on the precision at all. -/
theorem C180_precision_refuted :
    nuRealType true (some .f64) none .f32 = some .f32 ∧ nuRealType true (some .f32) none .f64 = some .f64 ∧
    nuRealType false none (some .f64) .f32 = some .f32 ∧
    ∀ u u' nu inds, nuRealType true u nu inds = nuRealType true u' nu inds := by
  refine ⟨by decide, by decide, by decide, fun u u' nu inds => rfl⟩

/-- **C180_precision_partial.** The precision is always single or double; that of the output array is used if it is given
and has one of these, and otherwise that of the positions. What is missing: the precision of the data. -/
theorem C180_precision_partial (u nu : Option RealKind) (inds : RealKind) :
    (nuRealType true u nu inds = some .f32 ∨ nuRealType true u nu inds = some .f64) ∧
    (∀ t, t ≠ .other → nuRealType true u (some t) inds = some t ∧ nuRealType false (some t) nu inds = some t) ∧
    (inds ≠ .other → nuRealType true u none inds = some inds ∧ nuRealType false none nu inds = some inds) := by
  refine ⟨?_, ?_, ?_⟩
  · rcases nu with _ | nu
    · cases inds <;> simp [nuRealType]
    · cases nu <;> cases inds <;> simp [nuRealType]
  · intro t ht
    cases t <;> simp_all [nuRealType]
  · intro hi
    cases inds <;> simp_all [nuRealType]

/-- **C180_npre_partial.** An interpolator for an array with `npre` ≥ 0 leading axes transforms exactly the other axes. -/
theorem C180_npre_partial (ndim npre : ℕ) (h : npre < ndim) :
    ∃ axes, fourierAxes ndim npre = some axes ∧ ∀ i : ℕ, (i < ndim → ((i : ℤ) - ndim ∈ axes ↔ npre ≤ i)) := by
  refine ⟨(List.range (ndim - npre)).map fun (i : ℕ) => -(ndim : ℤ) + npre + i, ?_, ?_⟩
  · unfold fourierAxes
    have e : ((ndim : ℤ) - npre).toNat = ndim - npre := by omega
    rw [e, if_pos]
    rw [List.all_eq_true]
    intro x hx
    obtain ⟨i, -, rfl⟩ := List.mem_map.1 hx
    exact decide_eq_true (by omega)
  · intro i hi
    rw [List.mem_map]
    constructor
    · rintro ⟨k, -, hk⟩; omega
    · intro hle
      exact ⟨i - npre, List.mem_range.2 (by omega), by omega⟩

/-- **C180_npre_refuted.** A negative `npre` counts from the end in the class (`npre % arr.ndim`) and for splines, but Fourier
interpolation fails for every one. -/
theorem C180_npre_refuted (ndim : ℕ) (npre : ℤ) (h : npre < 0) : fourierAxes ndim npre = none := by
  unfold fourierAxes
  rw [if_neg]
  rw [Bool.not_eq_true, List.all_eq_false]
  refine ⟨-(ndim : ℤ) + npre, List.mem_map.2 ⟨0, List.mem_range.2 (by omega), by simp⟩, ?_⟩
  simp only [decide_eq_true_eq]; omega

end Pixell
