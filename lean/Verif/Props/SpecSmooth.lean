import Verif.Model.SpecSmooth
import Verif.Lemmas.FlatFourier
import Verif.Props.RandMap

/-!
C158: smoothing and expanding power spectra.
-/
namespace Pixell
open Complex Matrix
open scoped ComplexConjugate

/-! ### Specification -/

/-- A spectrum continued as an even function with the period 2(nl-1). -/
def evenSpec (nl : ℕ) (a : ℕ → ℝ) (j : ℤ) : ℝ :=
  let r := (j % (symLen nl : ℤ)).toNat
  if r < nl then a r else a (symLen nl - r)

/-! ### Lemmas -/

/-- Products of transforms are transforms of cyclic convolutions. -/
theorem dft_conv (n : ℕ) (a b : ℕ → ℂ) (l : ℕ) :
    idftRaw n (fun k => dftRaw n a k * dftRaw n b k) l = n * ∑ i ∈ Finset.range n, a i * b ((l + (n - i)) % n) := by
  rw [idft_filter_dft, Finset.mul_sum]
  refine Finset.sum_congr rfl fun i hi => ?_
  have hi := Finset.mem_range.1 hi
  have hn : (n : ℝ) ≠ 0 := by have : 0 < n := by omega
                              exact_mod_cast this.ne'
  have e : ∑ k ∈ Finset.range n, dftRaw n b k * cis ((k : ℝ) * (((l : ℤ) - i : ℤ) / n)) =
      idftRaw n (dftRaw n b) ((l + (n - i)) % n) := by
    unfold idftRaw
    refine Finset.sum_congr rfl fun k _ => ?_
    congr 1
    have hm := Nat.mod_add_div (l + (n - i)) n
    generalize (l + (n - i)) % n = r at hm ⊢
    generalize (l + (n - i)) / n = q at hm
    have h2 : (r : ℝ) = (l : ℝ) - i + n - n * (q : ℝ) := by
      have h3 : ((r + n * q : ℕ) : ℝ) = ((l + (n - i) : ℕ) : ℝ) := by rw [hm]
      rw [Nat.cast_add, Nat.cast_add, Nat.cast_mul, Nat.cast_sub hi.le] at h3
      linarith
    rw [h2]
    have : ((l : ℝ) - i + n - n * (q : ℝ)) * k / n =
        (k : ℝ) * (((l : ℤ) - i : ℤ) / n) + (((1 - (q : ℤ)) * k : ℤ) : ℝ) := by
      push_cast
      field_simp
      ring
    rw [this, cis_add_int]
  rw [e, idft_dft n b _ (Nat.mod_lt _ (by omega))]
  ring

theorem convSym_eq (nl : ℕ) (a b : ℕ → ℝ) (l : ℕ) (hl : l < nl) :
    convSym nl a b l = ∑ i ∈ Finset.range (symLen nl), symExt nl a i * symExt nl b ((l + (symLen nl - i)) % symLen nl) := by
  unfold convSym
  have hM : l < symLen nl := by unfold symLen; omega
  have hn : (symLen nl : ℂ) ≠ 0 := by have : 0 < symLen nl := by omega
                                      exact_mod_cast this.ne'
  simp only []
  rw [dft_conv, mul_div_cancel_left₀ _ hn]
  rw [re_sum]
  refine Finset.sum_congr rfl fun i _ => ?_
  rw [← ofReal_mul, ofReal_re]

theorem symExt_evenSpec (nl : ℕ) (a : ℕ → ℝ) (j : ℕ) (hj : j < symLen nl) : symExt nl a j = evenSpec nl a j := by
  unfold symExt evenSpec
  have h : ((j : ℤ) % (symLen nl : ℤ)).toNat = j := by
    rw [Int.emod_eq_of_lt (by omega) (by omega)]; rfl
  simp only [h]
  by_cases h1 : j < nl
  · rw [if_pos h1, if_pos h1]
  · rw [if_neg h1, if_neg h1]
    congr 1
    unfold symLen at hj ⊢
    omega

/-! ### Theorems -/

/-- C158: the sums behind the smoothing are convolutions of the evenly continued spectra. -/
theorem C158_conv (nl : ℕ) (a b : ℕ → ℝ) (l : ℕ) (hl : l < nl) :
    convSym nl a b l = ∑ i ∈ Finset.range (symLen nl), evenSpec nl a i * evenSpec nl b ((l : ℤ) - i) := by
  rw [convSym_eq nl a b l hl]
  refine Finset.sum_congr rfl fun i hi => ?_
  have hi := Finset.mem_range.1 hi
  rw [symExt_evenSpec nl a i hi, symExt_evenSpec nl b _ (Nat.mod_lt _ (by omega))]
  congr 1
  unfold evenSpec
  have : (((((l + (symLen nl - i)) % symLen nl : ℕ)) : ℤ) % (symLen nl : ℤ)) = ((l : ℤ) - i) % (symLen nl : ℤ) := by
    rw [Int.natCast_mod, Int.emod_emod, Nat.cast_add, Int.ofNat_sub hi.le]
    have : (l : ℤ) + ((symLen nl : ℤ) - i) = (l : ℤ) - i + symLen nl := by ring
    rw [this, Int.add_emod_right]
  simp only [this]

theorem symExt_const_mul (nl : ℕ) (c : ℝ) (a : ℕ → ℝ) (j : ℕ) : symExt nl (fun l => c * a l) j = c * symExt nl a j := by
  unfold symExt; split <;> rfl

theorem symExt_nonneg (nl : ℕ) (a : ℕ → ℝ) (ha : ∀ l, l < nl → 0 ≤ a l) (j : ℕ) (hj : j < symLen nl) : 0 ≤ symExt nl a j := by
  unfold symExt
  unfold symLen at hj
  split
  · exact ha _ (by assumption)
  · exact ha _ (by omega)

theorem convSym_mono (nl : ℕ) (a a' K : ℕ → ℝ) (hK : ∀ l, l < nl → 0 ≤ K l) (h : ∀ l, l < nl → a l ≤ a' l) (l : ℕ) (hl : l < nl) :
    convSym nl a K l ≤ convSym nl a' K l := by
  rw [convSym_eq nl a K l hl, convSym_eq nl a' K l hl]
  refine Finset.sum_le_sum fun i hi => ?_
  have hi := Finset.mem_range.1 hi
  refine mul_le_mul_of_nonneg_right ?_ (symExt_nonneg nl K hK _ (Nat.mod_lt _ (by omega)))
  unfold symExt
  unfold symLen at hi
  split
  · exact h _ (by assumption)
  · exact h _ (by omega)

theorem convSym_smul (nl : ℕ) (c : ℝ) (a K : ℕ → ℝ) (l : ℕ) (hl : l < nl) :
    convSym nl (fun l => c * a l) K l = c * convSym nl a K l := by
  rw [convSym_eq nl _ K l hl, convSym_eq nl a K l hl, Finset.mul_sum]
  refine Finset.sum_congr rfl fun i _ => ?_
  rw [symExt_const_mul]; ring

theorem convSym_add (nl : ℕ) (a a' K : ℕ → ℝ) (l : ℕ) (hl : l < nl) :
    convSym nl (fun l => a l + a' l) K l = convSym nl a K l + convSym nl a' K l := by
  rw [convSym_eq nl _ K l hl, convSym_eq nl a K l hl, convSym_eq nl a' K l hl, ← Finset.sum_add_distrib]
  refine Finset.sum_congr rfl fun i _ => ?_
  have : symExt nl (fun l => a l + a' l) i = symExt nl a i + symExt nl a' i := by unfold symExt; split <;> rfl
  rw [this]; ring

theorem convSym_nonneg (nl : ℕ) (a K : ℕ → ℝ) (hK : ∀ l, l < nl → 0 ≤ K l) (h : ∀ l, l < nl → 0 ≤ a l) (l : ℕ) (hl : l < nl) :
    0 ≤ convSym nl a K l := by
  rw [convSym_eq nl a K l hl]
  refine Finset.sum_nonneg fun i hi => ?_
  have hi := Finset.mem_range.1 hi
  exact mul_nonneg (symExt_nonneg nl a h i hi) (symExt_nonneg nl K hK _ (Nat.mod_lt _ (by omega)))

theorem convSym_pos (nl : ℕ) (a K : ℕ → ℝ) (hK : ∀ l, l < nl → 0 < K l) (h : ∀ l, l < nl → 0 ≤ a l) (l l0 : ℕ) (hl : l < nl)
    (h0 : l0 < nl) (hp : 0 < a l0) : 0 < convSym nl a K l := by
  rw [convSym_eq nl a K l hl]
  have hM : l0 < symLen nl := by unfold symLen; omega
  refine Finset.sum_pos' (fun i hi => ?_) ⟨l0, Finset.mem_range.2 hM, ?_⟩
  · have hi := Finset.mem_range.1 hi
    exact mul_nonneg (symExt_nonneg nl a h i hi) (symExt_nonneg nl K (fun l hl => (hK l hl).le) _ (Nat.mod_lt _ (by omega)))
  · refine mul_pos ?_ ?_
    · unfold symExt; rw [if_pos h0]; exact hp
    · have hj : (l + (symLen nl - l0)) % symLen nl < symLen nl := Nat.mod_lt _ (by omega)
      generalize (l + (symLen nl - l0)) % symLen nl = j at hj
      unfold symExt
      unfold symLen at hj
      split
      · exact hK _ (by assumption)
      · exact hK _ (by omega)

/-- C158: smoothing with weights and kernel that are not negative stays between the bounds of the spectrum. -/
theorem C158_bounds (nl : ℕ) (K W p : ℕ → ℝ) (lo hi : ℝ) (hK : ∀ l, l < nl → 0 ≤ K l) (hW : ∀ l, l < nl → 0 ≤ W l)
    (hp : ∀ l, l < nl → lo ≤ p l ∧ p l ≤ hi) (l : ℕ) (hl : l < nl) (r : ℝ) (hr : smoothAt nl K W p l = some r) : lo ≤ r ∧ r ≤ hi := by
  unfold smoothAt at hr
  simp only [] at hr
  by_cases h0 : convSym nl W K l = 0
  · rw [if_pos h0] at hr; exact absurd hr (by simp)
  · rw [if_neg h0] at hr
    have hr := Option.some.inj hr
    have hpos : 0 < convSym nl W K l := lt_of_le_of_ne (convSym_nonneg nl W K hK hW l hl) (Ne.symm h0)
    rw [← hr, le_div_iff₀ hpos, div_le_iff₀ hpos, ← convSym_smul nl lo W K l hl, ← convSym_smul nl hi W K l hl]
    exact ⟨convSym_mono nl _ _ K hK (fun l hl => mul_le_mul_of_nonneg_right (hp l hl).1 (hW l hl)) l hl,
      convSym_mono nl _ _ K hK (fun l hl => mul_le_mul_of_nonneg_right (hp l hl).2 (hW l hl)) l hl⟩

/-- C158: a constant spectrum is unchanged, with any kernel and weights for which the sum of weights is not zero. -/
theorem C158_const (nl : ℕ) (K W : ℕ → ℝ) (c : ℝ) (l : ℕ) (hl : l < nl) (r : ℝ) (hr : smoothAt nl K W (fun _ => c) l = some r) :
    r = c := by
  unfold smoothAt at hr
  simp only [] at hr
  by_cases h0 : convSym nl W K l = 0
  · rw [if_pos h0] at hr; exact absurd hr (by simp)
  · rw [if_neg h0, convSym_smul nl c W K l hl, mul_div_cancel_right₀ _ h0] at hr
    exact (Option.some.inj hr).symm

/-- C158: smoothing is linear in the spectrum. -/
theorem C158_linear (nl : ℕ) (K W p q : ℕ → ℝ) (c : ℝ) (l : ℕ) (hl : l < nl) (r s : ℝ) (hr : smoothAt nl K W p l = some r)
    (hs : smoothAt nl K W q l = some s) : smoothAt nl K W (fun l => p l + c * q l) l = some (r + c * s) := by
  unfold smoothAt at *
  simp only [] at *
  by_cases h0 : convSym nl W K l = 0
  · rw [if_pos h0] at hr; exact absurd hr (by simp)
  · rw [if_neg h0] at hr hs ⊢
    have hr := Option.some.inj hr
    have hs := Option.some.inj hs
    have e : (fun l => (p l + c * q l) * W l) = fun l => p l * W l + c * (q l * W l) := by funext l; ring
    rw [e, convSym_add nl _ _ K l hl, convSym_smul nl c (fun l => q l * W l) K l hl, ← hr, ← hs]
    congr 1; ring

theorem gauss_pos (width : ℝ) (l : ℕ) : 0 < smoothK .gauss width l := Real.exp_pos _

/-- C158: the gaussian kernel falls with the distance in multipoles, and at a distance of one width it has the value exp(-1/2). -/
theorem C158_kernel (width : ℝ) (hw : 0 < width) (l l' : ℕ) (h : l < l') : smoothK .gauss width l' < smoothK .gauss width l ∧
    ((l : ℝ) = width → smoothK .gauss width l = Real.exp (-1 / 2) * smoothK .gauss width 0) := by
  unfold smoothK
  constructor
  · apply Real.exp_lt_exp.2
    have h1 : ((l : ℝ) / width) ^ 2 < ((l' : ℝ) / width) ^ 2 := by
      have : (l : ℝ) < l' := by exact_mod_cast h
      gcongr
    linarith
  · intro e
    rw [e, div_self hw.ne']
    norm_num

example : smoothK .gauss 3 3 = Real.exp (-1 / 2) * smoothK .gauss 3 0 := (C158_kernel 3 (by norm_num) 3 4 (by decide)).2 (by norm_num)

/-- C158: with the gaussian kernel the smoothed spectrum is a number at every multipole, for uniform weights, and for the
weights by the number of modes if there is more than the monopole. -/
theorem C158_gauss (nl : ℕ) (width : ℝ) (p : ℕ → ℝ) (wt : SmoothWeight) (hw : wt = .uniform ∨ wt = .mode ∧ 2 ≤ nl) (l : ℕ) (hl : l < nl) :
    ∃ f r, smoothSpectrum nl .gauss wt width p = some f ∧ f l = some r := by
  rcases hw with h | ⟨h, h2⟩
  · subst h
    exact ⟨_, _, rfl, if_neg (convSym_pos nl _ _ (fun l _ => gauss_pos width l) (fun _ _ => zero_le_one) l l hl hl one_pos).ne'⟩
  · subst h
    exact ⟨_, _, rfl, if_neg (convSym_pos nl _ _ (fun l _ => gauss_pos width l) (fun _ _ => by positivity) l 1 hl (by omega) (by norm_num)).ne'⟩

/-- Weights given as an array of ones act as uniform weights. -/
def C158_weight_claim (nl : ℕ) (kern : SmoothKernel) (width : ℝ) (p : ℕ → ℝ) : Prop :=
  smoothSpectrum nl kern (.array (List.replicate nl 1)) width p = smoothSpectrum nl kern .uniform width p

/-- C158: weights given as an array are not used, and no entry of the result is a number, whatever the weights, the kernel and
the spectrum are. -/
theorem C158_weight_nan (nl : ℕ) (kern : SmoothKernel) (w : List ℝ) (hw : w.length = nl) (width : ℝ) (p : ℕ → ℝ) :
    ∃ f, smoothSpectrum nl kern (.array w) width p = some f ∧ ∀ l, l < nl → f l = none := by
  refine ⟨fun l => smoothAt nl (smoothK kern width) (fun _ => 0) p l, ?_, ?_⟩
  · have : smoothW nl (.array w) = some fun _ => 0 := if_pos hw
    unfold smoothSpectrum
    rw [this]; rfl
  · intro l hl
    have : convSym nl (fun _ => 0) (smoothK kern width) l = 0 := by
      have := convSym_smul nl 0 (fun _ => 0) (smoothK kern width) l hl
      simpa using this
    unfold smoothAt
    simp only []
    rw [if_pos this]

theorem C158_weight_refuted (nl : ℕ) (hn : 0 < nl) (width : ℝ) (p : ℕ → ℝ) : ¬ C158_weight_claim nl .gauss width p := by
  intro h
  obtain ⟨f, h1, h2⟩ := C158_weight_nan nl .gauss (List.replicate nl 1) (by simp) width p
  obtain ⟨f', r, h3, h4⟩ := C158_gauss nl width p .uniform (Or.inl rfl) 0 hn
  unfold C158_weight_claim at h
  rw [h1, h3] at h
  rw [← Option.some.inj h, h2 0 hn] at h4
  exact absurd h4 (by simp)

/-- Every kind of weights and every positive width give numbers. -/
def C158_defined_claim (nl : ℕ) (kern : SmoothKernel) (wt : SmoothWeight) (width : ℝ) (p : ℕ → ℝ) : Prop :=
  0 < width → ∀ l, l < nl → ∃ f r, smoothSpectrum nl kern wt width p = some f ∧ f l = some r

/-- C158: false with the default weights for the spectrum of only a monopole, and at the monopole for a step of width one. -/
theorem C158_defined_refuted (width : ℝ) (hw : 0 < width) (nl : ℕ) (hn : 0 < nl) (p : ℕ → ℝ) :
    ¬ C158_defined_claim 1 .gauss .mode width p ∧ ¬ C158_defined_claim nl .step .mode 1 p := by
  constructor
  · intro h
    obtain ⟨f, r, h1, h2⟩ := h hw 0 (by omega)
    have := Option.some.inj h1
    rw [← this] at h2
    have e : convSym 1 (fun l => (l : ℝ) ^ 2) (smoothK .gauss width) 0 = 0 := by
      rw [convSym_eq _ _ _ _ (by omega)]
      simp [symLen, symExt]
    unfold smoothAt at h2
    simp only [] at h2
    rw [if_pos e] at h2
    exact absurd h2 (by simp)
  · intro h
    obtain ⟨f, r, h1, h2⟩ := h one_pos 0 hn
    have := Option.some.inj h1
    rw [← this] at h2
    have e : convSym nl (fun l => (l : ℝ) ^ 2) (smoothK .step 1) 0 = 0 := by
      rw [convSym_eq _ _ _ _ hn]
      refine Finset.sum_eq_zero fun i hi => ?_
      have hi := Finset.mem_range.1 hi
      rcases Nat.eq_zero_or_pos i with h0 | h0
      · subst h0; simp [symExt, hn]
      · have : (0 + (symLen nl - i)) % symLen nl = symLen nl - i := by
          rw [Nat.zero_add, Nat.mod_eq_of_lt (by omega)]
        rw [this]
        have hk : ∀ j : ℕ, 0 < j → smoothK .step 1 j = 0 := by
          intro j hj
          unfold smoothK
          rw [if_pos zero_le_one, Int.floor_one, if_neg (by omega)]
        have : symExt nl (smoothK .step 1) (symLen nl - i) = 0 := by
          unfold symExt
          split
          · exact hk _ (by omega)
          · exact hk _ (by unfold symLen at *; omega)
        rw [this, mul_zero]
    unfold smoothAt at h2
    simp only [] at h2
    rw [if_pos e] at h2
    exact absurd h2 (by simp)

/-- C158: padding or cutting a covariance to the components of a map leaves a covariance. -/
theorem C158_massage {nc : ℕ} (n : ℕ) (cov : Matrix (Fin nc) (Fin nc) ℝ) (h : cov.PosSemidef) : (massageSpectrum n cov).PosSemidef := by
  let B : Matrix (Fin n) (Fin nc) ℝ := fun i j => if i.1 = j.1 then 1 else 0
  have e : massageSpectrum n cov = B * cov * Bᵀ := by
    ext i j
    have row : ∀ (i : Fin n) (v : Fin nc → ℝ), ∑ k, B i k * v k = if hi : i.1 < nc then v ⟨i.1, hi⟩ else 0 := by
      intro i v
      by_cases hi : i.1 < nc
      · rw [dif_pos hi, Finset.sum_eq_single ⟨i.1, hi⟩]
        · simp [B]
        · intro b _ hb
          have : i.1 ≠ b.1 := fun h => hb (Fin.ext h.symm)
          simp [B, this]
        · intro h'; exact absurd (Finset.mem_univ _) h'
      · rw [dif_neg hi]
        refine Finset.sum_eq_zero fun k _ => ?_
        have : i.1 ≠ k.1 := by have := k.2; omega
        simp [B, this]
    rw [Matrix.mul_assoc, Matrix.mul_apply, row]
    simp only [Matrix.mul_apply, Matrix.transpose_apply]
    have row2 : ∀ hi : i.1 < nc, ∑ k, cov ⟨i.1, hi⟩ k * B j k = if hj : j.1 < nc then cov ⟨i.1, hi⟩ ⟨j.1, hj⟩ else 0 := by
      intro hi
      have := row j (fun k => cov ⟨i.1, hi⟩ k)
      rw [← this]
      exact Finset.sum_congr rfl fun k _ => mul_comm _ _
    unfold massageSpectrum
    simp only []
    by_cases hi : i.1 < nc
    · rw [dif_pos hi, row2 hi]
      by_cases hj : j.1 < nc
      · rw [dif_pos hj, dif_pos ⟨lt_min hi i.2, lt_min hj j.2⟩]
      · rw [dif_neg hj, dif_neg (fun h' => hj (lt_of_lt_of_le h'.2 (min_le_left _ _)))]
    · rw [dif_neg hi, dif_neg (fun h' => hi (lt_of_lt_of_le h'.1 (min_le_left _ _)))]
  rw [e]
  have := h.mul_mul_conjTranspose_same B
  simpa [Matrix.conjTranspose_eq_transpose_of_trivial] using this

theorem linInterp_bounds (nl : ℕ) (f : ℕ → ℝ) (lo hi : ℝ) (hf : ∀ l, l < nl → lo ≤ f l ∧ f l ≤ hi) (x : ℝ) (h0 : 0 ≤ x)
    (h1 : x ≤ (nl : ℝ) - 1) : lo ≤ linInterpConst nl f x ∧ linInterpConst nl f x ≤ hi := by
  unfold linInterpConst
  rw [if_pos ⟨h0, h1⟩]
  have hfl := Nat.floor_le h0
  have hfu := Nat.lt_floor_add_one x
  generalize ⌊x⌋₊ = k at hfl hfu
  have hk : k < nl := by
    have : (k : ℝ) < nl := by linarith
    exact_mod_cast this
  have a := hf k hk
  by_cases hk' : k + 1 < nl
  · have b := hf (k + 1) hk'
    have hw : 0 ≤ x - k := by linarith
    have hw' : 0 ≤ 1 - (x - k) := by linarith
    constructor
    · nlinarith [mul_nonneg hw (sub_nonneg.2 b.1), mul_nonneg hw' (sub_nonneg.2 a.1)]
    · nlinarith [mul_nonneg hw (sub_nonneg.2 b.2), mul_nonneg hw' (sub_nonneg.2 a.2)]
  · have : (nl : ℝ) = k + 1 := by
      have : nl = k + 1 := by omega
      rw [this]; push_cast; ring
    have hx : x = k := by linarith
    rw [hx, sub_self, zero_mul, add_zero]
    exact a

theorem modL_nonneg (ny nx : ℕ) (sy sx : ℝ) (ky kx : ℕ) : 0 ≤ modL ny nx sy sx ky kx := Real.sqrt_nonneg _

/-- C158: a spectrum between two bounds expands to a map between the same bounds, in pixel units, up to the last multipole and
zero beyond it. A constant spectrum expands to that constant. -/
theorem C158_flat (nl ny nx : ℕ) (sy sx area : ℝ) (p : ℕ → ℝ) (lo hi : ℝ) (hn : 2 ≤ nl) (hy : 2 ≤ ny) (hx : 2 ≤ nx) (ha : 0 < area)
    (hp : ∀ l, l < nl → lo ≤ p l ∧ p l ≤ hi) :
    ∃ f, spec2flat nl ny nx sy sx area p = some f ∧ ∀ ky kx,
      (modL ny nx sy sx ky kx ≤ (nl : ℝ) - 1 → lo * (ny * nx / area) ≤ f ky kx ∧ f ky kx ≤ hi * (ny * nx / area)) ∧
      ((nl : ℝ) - 1 < modL ny nx sy sx ky kx → f ky kx = 0) := by
  unfold spec2flat
  rw [if_neg (by omega)]
  refine ⟨_, rfl, fun ky kx => ⟨fun h => ?_, fun h => ?_⟩⟩
  · refine linInterp_bounds nl _ _ _ (fun l hl => ?_) _ (modL_nonneg _ _ _ _ _ _) h
    have hc : 0 ≤ (ny : ℝ) * nx / area := by positivity
    by_cases hs : 0 < 1 / 2 * (modL ny nx sy sx 1 0 + modL ny nx sy sx 0 1) / (341 / 100)
    · simp only [if_pos hs]
      obtain ⟨f, r, h1, h2⟩ := C158_gauss nl (1 / 2 * (modL ny nx sy sx 1 0 + modL ny nx sy sx 0 1) / (341 / 100)) p .mode (Or.inr ⟨rfl, hn⟩) l hl
      rw [← Option.some.inj h1] at h2
      beta_reduce at h2
      rw [h2]
      have b := C158_bounds nl _ _ p lo hi (fun l _ => (gauss_pos _ l).le) (fun _ _ => by positivity) hp l hl r h2
      exact ⟨mul_le_mul_of_nonneg_right b.1 hc, mul_le_mul_of_nonneg_right b.2 hc⟩
    · simp only [if_neg hs]
      exact ⟨mul_le_mul_of_nonneg_right (hp l hl).1 hc, mul_le_mul_of_nonneg_right (hp l hl).2 hc⟩
  · unfold linInterpConst
    rw [if_neg (by rintro ⟨_, h'⟩; linarith)]

/-- Every spectrum expands to every map that is not empty. -/
def C158_flat_claim (nl ny nx : ℕ) (sy sx area : ℝ) (p : ℕ → ℝ) : Prop :=
  0 < ny → 0 < nx → ∃ f, spec2flat nl ny nx sy sx area p = some f

/-- C158: maps of one row or one column raise an IndexError, although their modes have lengths. -/
theorem C158_flat_refuted (nl : ℕ) (sy sx area : ℝ) (p : ℕ → ℝ) :
    ¬ C158_flat_claim nl 1 8 sy sx area p ∧ ¬ C158_flat_claim nl 8 1 sy sx area p := by
  constructor <;> intro h <;> obtain ⟨f, hf⟩ := h (by omega) (by omega) <;> simp [spec2flat] at hf

theorem rollHalf_eq (n i : ℕ) : rollHalf n i = (i + (n + 1) / 2) % n := by
  unfold rollHalf
  rw [Int.fdiv_eq_ediv_of_nonneg _ (by omega), Int.fmod_eq_emod_of_nonneg _ (by omega)]
  have : (i : ℤ) - -(n : ℤ) / 2 = ((i + (n + 1) / 2 : ℕ) : ℤ) := by push_cast; omega
  rw [this, ← Int.natCast_mod]
  rfl

/-- The transform of the rolled array. -/
theorem dft_roll (n : ℕ) (h : ℕ → ℂ) (k : ℕ) :
    dftRaw n (fun i => h (rollHalf n i)) k =
      ∑ j ∈ Finset.range n, h j * cis (-((((j : ℤ) - (n / 2 : ℕ) - (n % 2 : ℕ) : ℤ) : ℝ) * k / n)) := by
  unfold dftRaw
  refine Finset.sum_nbij' (fun i => rollHalf n i) (fun j => (j + n / 2) % n) ?_ ?_ ?_ ?_ ?_
  · intro i hi
    have := Finset.mem_range.1 hi
    rw [rollHalf_eq]
    exact Finset.mem_range.2 (Nat.mod_lt _ (by omega))
  · intro i hi
    have := Finset.mem_range.1 hi
    exact Finset.mem_range.2 (Nat.mod_lt _ (by omega))
  · intro i hi
    have hi := Finset.mem_range.1 hi
    rw [rollHalf_eq, Nat.mod_add_mod, show i + (n + 1) / 2 + n / 2 = i + n by omega, Nat.add_mod_right, Nat.mod_eq_of_lt hi]
  · intro j hj
    have hj := Finset.mem_range.1 hj
    rw [rollHalf_eq, Nat.mod_add_mod, show j + n / 2 + (n + 1) / 2 = j + n by omega, Nat.add_mod_right, Nat.mod_eq_of_lt hj]
  · intro i hi
    have hi := Finset.mem_range.1 hi
    congr 1
    have hn : (n : ℝ) ≠ 0 := by have : 0 < n := by omega
                                exact_mod_cast this.ne'
    have hm := Nat.mod_add_div (i + (n + 1) / 2) n
    rw [← rollHalf_eq] at hm
    generalize rollHalf n i = r at hm
    generalize (i + (n + 1) / 2) / n = q at hm
    have h2 : (((r : ℤ) - (n / 2 : ℕ) - (n % 2 : ℕ) : ℤ) : ℝ) = (i : ℝ) - n * q := by
      have h3 : (r : ℤ) + n * q = i + ((n + 1) / 2 : ℕ) := by exact_mod_cast hm
      have h4 : (r : ℤ) - (n / 2 : ℕ) - (n % 2 : ℕ) = (i : ℤ) - n * q := by
        generalize (n : ℤ) * q = t at *
        omega
      rw [h4]; push_cast; ring
    rw [h2]
    have : -(((i : ℝ) - n * q) * k / n) = -((i : ℝ) * k / n) + ((q * k : ℕ) : ℤ) := by
      push_cast
      field_simp
      ring
    rw [this, cis_add_int]

/-- What the code computes from a correlation function, for maps of every size: the offsets are off by one along each axis of
odd length. -/
theorem C158_corr (ny nx : ℕ) (corr : ℤ → ℤ → ℝ) (ky kx : ℕ) (hy : ky < ny) (hx : kx < nx) :
    corr2flat ny nx corr ky kx = ∑ y ∈ Finset.range ny, ∑ x ∈ Finset.range nx,
      corr ((y : ℤ) - (ny / 2 : ℕ)) ((x : ℤ) - (nx / 2 : ℕ)) *
        Real.cos (2 * Real.pi * ((ky : ℝ) * ((y : ℝ) - (ny / 2 : ℕ) - (ny % 2 : ℕ)) / ny + (kx : ℝ) * ((x : ℝ) - (nx / 2 : ℕ) - (nx % 2 : ℕ)) / nx)) := by
  unfold corr2flat enmapFft fft2
  simp only []
  have e1 := fun (y : ℕ) => dft_roll nx (fun x => ((corr ((y : ℤ) - (ny / 2 : ℕ)) ((x : ℤ) - (nx / 2 : ℕ)) : ℝ) : ℂ)) kx
  have e2 : (fun jy => dftRaw nx (fun x => ((corr ((rollHalf ny jy : ℤ) - (ny / 2 : ℕ)) ((rollHalf nx x : ℤ) - (nx / 2 : ℕ)) : ℝ) : ℂ)) kx) =
      fun jy => (fun (y : ℕ) => ∑ x ∈ Finset.range nx, ((corr ((y : ℤ) - (ny / 2 : ℕ)) ((x : ℤ) - (nx / 2 : ℕ)) : ℝ) : ℂ) *
        cis (-((((x : ℤ) - (nx / 2 : ℕ) - (nx % 2 : ℕ) : ℤ) : ℝ) * kx / nx))) (rollHalf ny jy) := by
    funext jy
    exact e1 (rollHalf ny jy)
  rw [e2, dft_roll ny (fun (y : ℕ) => ∑ x ∈ Finset.range nx, ((corr ((y : ℤ) - (ny / 2 : ℕ)) ((x : ℤ) - (nx / 2 : ℕ)) : ℝ) : ℂ) *
        cis (-((((x : ℤ) - (nx / 2 : ℕ) - (nx % 2 : ℕ) : ℤ) : ℝ) * kx / nx))) ky]
  have hn : (0 : ℝ) < (ny : ℝ) * nx := by
    have h1 : (0 : ℝ) < ny := by exact_mod_cast (by omega : 0 < ny)
    have h2 : (0 : ℝ) < nx := by exact_mod_cast (by omega : 0 < nx)
    positivity
  have hf : fftNorm .unit false ny nx 1 = 1 / Real.sqrt (ny * nx) := by simp [fftNorm]
  have hs : Real.sqrt ((ny : ℝ) * nx) ≠ 0 := (Real.sqrt_pos.2 hn).ne'
  rw [hf, mul_comm _ (((1 / Real.sqrt ((ny : ℝ) * nx) : ℝ)) : ℂ), re_ofReal_mul, mul_comm, ← mul_assoc, mul_one_div_cancel hs, one_mul, re_sum]
  refine Finset.sum_congr rfl fun y _ => ?_
  rw [Finset.sum_mul, re_sum]
  refine Finset.sum_congr rfl fun x _ => ?_
  rw [mul_assoc, re_ofReal_mul, ← cis_add, cis_re_cos]
  congr 1
  rw [← Real.cos_neg]
  congr 1
  generalize nx / 2 = a1
  generalize nx % 2 = a2
  generalize ny / 2 = a3
  generalize ny % 2 = a4
  push_cast
  ring

/-- The power spectrum of a correlation function is its cosine transform, the correlation at offset zero counting the same at
every mode. -/
def C158_corr_claim (ny nx : ℕ) (corr : ℤ → ℤ → ℝ) : Prop :=
  ∀ ky kx, ky < ny → kx < nx → corr2flat ny nx corr ky kx = ∑ y ∈ Finset.range ny, ∑ x ∈ Finset.range nx,
    corr ((y : ℤ) - (ny / 2 : ℕ)) ((x : ℤ) - (nx / 2 : ℕ)) *
      Real.cos (2 * Real.pi * ((ky : ℝ) * ((y : ℝ) - (ny / 2 : ℕ)) / ny + (kx : ℝ) * ((x : ℝ) - (nx / 2 : ℕ)) / nx))

/-- C158: true for maps with an even number of rows and columns. -/
theorem C158_corr_partial (ny nx : ℕ) (corr : ℤ → ℤ → ℝ) (h : ny % 2 = 0 ∧ nx % 2 = 0) : C158_corr_claim ny nx corr := by
  intro ky kx hy hx
  rw [C158_corr ny nx corr ky kx hy hx, h.1, h.2]
  simp only [Nat.cast_zero, sub_zero]

/-- C158: false for an odd number of columns: uncorrelated pixels get power -1/2 at the first mode of three. -/
theorem C158_corr_refuted : ¬ C158_corr_claim 2 3 (fun y x => if y = 0 ∧ x = 0 then 1 else 0) ∧
    corr2flat 2 3 (fun y x => if y = 0 ∧ x = 0 then 1 else 0) 0 1 = -(1 / 2) := by
  have hc : corr2flat 2 3 (fun y x => if y = 0 ∧ x = 0 then 1 else 0) 0 1 = -(1 / 2) := by
    rw [C158_corr 2 3 _ 0 1 (by omega) (by omega)]
    simp only [Finset.sum_range_succ, Finset.sum_range_zero]
    norm_num
    rw [show 2 * Real.pi * (1 / 3) = Real.pi - Real.pi / 3 by ring, Real.cos_pi_sub, Real.cos_pi_div_three]
  refine ⟨fun h => ?_, hc⟩
  have := h 0 1 (by omega) (by omega)
  rw [hc] at this
  simp only [Finset.sum_range_succ, Finset.sum_range_zero] at this
  norm_num at this

/-- Cases of the hypotheses. -/
example : ∃ r, smoothAt 3 (smoothK .gauss 1) (fun _ => 1) (fun l => (l : ℝ)) 1 = some r := by
  obtain ⟨f, r, h1, h2⟩ := C158_gauss 3 1 (fun l => (l : ℝ)) .uniform (Or.inl rfl) 1 (by omega)
  rw [← Option.some.inj h1] at h2
  exact ⟨r, h2⟩
example : (!![2, 1; 1, 2] : Matrix (Fin 2) (Fin 2) ℝ).PosSemidef := by
  have : (!![2, 1; 1, 2] : Matrix (Fin 2) (Fin 2) ℝ) =
      (!![1, 1; 1, 0; 0, 1] : Matrix (Fin 3) (Fin 2) ℝ)ᴴ * (!![1, 1; 1, 0; 0, 1] : Matrix (Fin 3) (Fin 2) ℝ) := by
    ext i j; fin_cases i <;> fin_cases j <;> simp [Matrix.mul_apply, Fin.sum_univ_three] <;> norm_num
  rw [this]
  exact Matrix.posSemidef_conjTranspose_mul_self _

end Pixell
