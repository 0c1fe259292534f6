import Verif.Model.Wavelets
import Verif.Props.Alm
import Mathlib.Algebra.BigOperators.Intervals
import Mathlib.Tactic.FieldSimp

/-
Lemmas about wavelet kernels.
-/
namespace Pixell

theorem rintR_le (x : ℝ) : x - 1/2 ≤ rintR x := by
  unfold rintR
  have h1 := Int.floor_le x
  have h2 := Int.lt_floor_add_one x
  by_cases a : x - ⌊x⌋ < 1/2
  · simp only [if_pos a]; linarith
  · by_cases b : 1/2 < x - (⌊x⌋ : ℝ)
    · simp only [if_neg a, if_pos b]; push_cast; linarith
    · simp only [if_neg a, if_neg b]
      by_cases c : ⌊x⌋ % 2 = 0
      · rw [if_pos c]; linarith
      · rw [if_neg c]; push_cast; linarith

section Kernel
variable {step shape lmin : ℝ}

theorem wave_scale_pos (hs : 1 < step) (hl : 0 < lmin) (i : Nat) : 0 < lmin * step ^ ((i : ℝ) + 0.5) :=
  mul_pos hl (Real.rpow_pos_of_pos (by linarith) _)

theorem wave_exp_pos (hs : 1 < step) (hsh : 0 < shape) : 0 < shape / Real.log step := div_pos hsh (Real.log_pos hs)

theorem butter_pow_nonneg (hs : 1 < step) (hl : 0 < lmin) (i : Nat) {l : ℝ} (h : 0 ≤ l) :
    0 ≤ (l / (lmin * step ^ ((i : ℝ) + 0.5))) ^ (shape / Real.log step) :=
  Real.rpow_nonneg (div_nonneg h (wave_scale_pos hs hl i).le) _

theorem butter_pos (hs : 1 < step) (hl : 0 < lmin) (i : Nat) {l : ℝ} (h : 0 ≤ l) : 0 < butterKernel step shape lmin i l := by
  unfold butterKernel
  have := butter_pow_nonneg (shape := shape) hs hl i h
  positivity

theorem butter_le_one (hs : 1 < step) (hl : 0 < lmin) (i : Nat) {l : ℝ} (h : 0 ≤ l) : butterKernel step shape lmin i l ≤ 1 := by
  unfold butterKernel
  have := butter_pow_nonneg (shape := shape) hs hl i h
  rw [div_le_one (by linarith)]
  linarith

theorem butter_mono (hs : 1 < step) (hsh : 0 < shape) (hl : 0 < lmin) (i : Nat) {l : ℝ} (h : 0 ≤ l) :
    butterKernel step shape lmin i l ≤ butterKernel step shape lmin (i + 1) l := by
  unfold butterKernel
  have h1 := butter_pow_nonneg (shape := shape) hs hl (i + 1) h
  apply one_div_le_one_div_of_le (by linarith)
  have : (l / (lmin * step ^ (((i + 1 : ℕ) : ℝ) + 0.5))) ^ (shape / Real.log step) ≤
      (l / (lmin * step ^ ((i : ℝ) + 0.5))) ^ (shape / Real.log step) := by
    apply Real.rpow_le_rpow (div_nonneg h (wave_scale_pos hs hl _).le) _ (wave_exp_pos hs hsh).le
    apply div_le_div_of_nonneg_left h (wave_scale_pos hs hl i)
    apply mul_le_mul_of_nonneg_left _ hl.le
    apply Real.rpow_le_rpow_of_exponent_le hs.le
    push_cast; linarith
  linarith

/-- Beyond the multipole at which the power equals c. -/
theorem butter_cut (hs : 1 < step) (hsh : 0 < shape) (hl : 0 < lmin) (i : Nat) {c l : ℝ} (hc : 0 ≤ c) :
    (lmin * c ^ (Real.log step / shape) * step ^ ((i : ℝ) + 0.5) ≤ l →
      c ≤ (l / (lmin * step ^ ((i : ℝ) + 0.5))) ^ (shape / Real.log step)) ∧
    (lmin * c ^ (Real.log step / shape) * step ^ ((i : ℝ) + 0.5) < l →
      c < (l / (lmin * step ^ ((i : ℝ) + 0.5))) ^ (shape / Real.log step)) := by
  have hp := wave_scale_pos hs hl i
  have ha := wave_exp_pos hs hsh
  have hlog := Real.log_pos hs
  have hcc : (c ^ (Real.log step / shape)) ^ (shape / Real.log step) = c := by
    rw [← Real.rpow_mul hc]
    have : Real.log step / shape * (shape / Real.log step) = 1 := by field_simp
    rw [this, Real.rpow_one]
  have e : lmin * c ^ (Real.log step / shape) * step ^ ((i : ℝ) + 0.5) =
      c ^ (Real.log step / shape) * (lmin * step ^ ((i : ℝ) + 0.5)) := by ring
  have h0 : 0 ≤ c ^ (Real.log step / shape) := Real.rpow_nonneg hc _
  rw [e]
  constructor
  · intro h
    calc c = (c ^ (Real.log step / shape)) ^ (shape / Real.log step) := hcc.symm
      _ ≤ _ := Real.rpow_le_rpow h0 ((le_div_iff₀ hp).2 h) ha.le
  · intro h
    calc c = (c ^ (Real.log step / shape)) ^ (shape / Real.log step) := hcc.symm
      _ < _ := Real.rpow_lt_rpow h0 ((lt_div_iff₀ hp).2 h) ha

theorem butter_lt_tol (hs : 1 < step) (hsh : 0 < shape) (hl : 0 < lmin) {tol : ℝ} (ht : 0 < tol) (ht1 : tol ≤ 1) (i : Nat) {l : ℝ}
    (h : butterCut step shape tol lmin i < l) : butterKernel step shape lmin i l < tol := by
  have hc : 0 ≤ 1 / tol - 1 := by
    rw [sub_nonneg, le_div_iff₀ ht]; linarith
  have := (butter_cut hs hsh hl i (l := l) hc).2 h
  unfold butterKernel
  rw [div_lt_iff₀ (by linarith)]
  have e : tol * (1 / tol) = 1 := by field_simp
  nlinarith

theorem trimmed_zero (hs : 1 < step) (hsh : 0 < shape) (hl : 0 < lmin) {trim : ℝ} (ht : 0 < trim) (i : Nat) {l : ℝ}
    (h : trimCut step shape trim lmin i ≤ l) : trimmedKernel step shape trim lmin i l = 0 := by
  have hc : 0 ≤ (1 + 2 * trim) / trim - 1 := by
    rw [sub_nonneg, le_div_iff₀ ht]; linarith
  have := (butter_cut hs hsh hl i (l := l) hc).1 h
  have hb : butterKernel step shape lmin i l * (1 + 2 * trim) - trim ≤ 0 := by
    unfold butterKernel
    rw [sub_nonpos, div_mul_eq_mul_div, div_le_iff₀ (by linarith)]
    have e : trim * ((1 + 2 * trim) / trim) = 1 + 2 * trim := by field_simp
    nlinarith
  unfold trimmedKernel trimKernel
  rw [max_eq_right hb]; simp

theorem trimKernel_mono {a b tol : ℝ} (ht : 0 ≤ tol) (h : a ≤ b) : trimKernel a tol ≤ trimKernel b tol := by
  unfold trimKernel
  apply min_le_min_right
  apply max_le_max_right
  nlinarith

theorem trimKernel_range (a tol : ℝ) : 0 ≤ trimKernel a tol ∧ trimKernel a tol ≤ 1 := by
  unfold trimKernel
  exact ⟨le_min (le_max_right _ _) zero_le_one, min_le_right _ _⟩

end Kernel

/-- Kernels rising from scale to scale between 0 and 1. -/
def RisingKernels (kern : Nat → ℝ → ℝ) (l : ℝ) : Prop :=
  (∀ i, 0 ≤ kern i l) ∧ (∀ i, kern i l ≤ 1) ∧ ∀ i, kern i l ≤ kern (i + 1) l

theorem butter_rising {step shape lmin l : ℝ} (hs : 1 < step) (hsh : 0 < shape) (hl : 0 < lmin) (h : 0 ≤ l) :
    RisingKernels (butterKernel step shape lmin) l :=
  ⟨fun i => (butter_pos hs hl i h).le, fun i => butter_le_one hs hl i h, fun i => butter_mono hs hsh hl i h⟩

theorem trimmed_rising {step shape trim lmin l : ℝ} (hs : 1 < step) (hsh : 0 < shape) (hl : 0 < lmin) (ht : 0 ≤ trim) (h : 0 ≤ l) :
    RisingKernels (trimmedKernel step shape trim lmin) l :=
  ⟨fun _ => (trimKernel_range _ _).1, fun _ => (trimKernel_range _ _).2, fun i => trimKernel_mono ht (butter_mono hs hsh hl i h)⟩

theorem bandProfile_nonneg {kern : Nat → ℝ → ℝ} {l : ℝ} (h : RisingKernels kern l) (n i : Nat) : 0 ≤ bandProfile kern n i l := by
  obtain ⟨h0, h1, h2⟩ := h
  unfold bandProfile
  by_cases a : i + 1 = n
  · by_cases b : 0 < i
    · simp only [if_pos a, if_pos b]; linarith [h1 (i - 1)]
    · simp only [if_pos a, if_neg b]; norm_num
  · by_cases b : 0 < i
    · simp only [if_neg a, if_pos b]
      have := h2 (i - 1)
      rw [show i - 1 + 1 = i by omega] at this
      linarith
    · simp only [if_neg a, if_neg b]; exact h0 i

theorem bandFilter_sq {kern : Nat → ℝ → ℝ} {l : ℝ} (h : RisingKernels kern l) (n i : Nat) :
    bandFilter kern n i l ^ 2 = bandProfile kern n i l := Real.sq_sqrt (bandProfile_nonneg h n i)

/-- The profiles of the first k scales add up to the k-th kernel. -/
theorem bandProfile_sum (kern : Nat → ℝ → ℝ) (l : ℝ) (n : Nat) :
    (∀ k, k + 1 < n → ∑ i ∈ Finset.range (k + 1), bandProfile kern n i l = kern k l) ∧
    (0 < n → ∑ i ∈ Finset.range n, bandProfile kern n i l = 1) := by
  have key : ∀ k, k + 1 < n → ∑ i ∈ Finset.range (k + 1), bandProfile kern n i l = kern k l := by
    intro k
    induction k with
    | zero =>
      intro h
      rw [Finset.sum_range_one]
      unfold bandProfile
      simp only [Nat.lt_irrefl, if_false]
      rw [if_neg (by omega)]
    | succ k ih =>
      intro h
      rw [Finset.sum_range_succ, ih (by omega)]
      unfold bandProfile
      simp only [Nat.succ_pos, if_true, Nat.add_sub_cancel]
      rw [if_neg (by omega)]
      ring
  refine ⟨key, fun hn => ?_⟩
  obtain ⟨k, rfl⟩ : ∃ k, n = k + 1 := ⟨n - 1, by omega⟩
  rw [Finset.sum_range_succ]
  cases k with
  | zero => simp [bandProfile]
  | succ k =>
    rw [key k (by omega)]
    unfold bandProfile
    simp only [Nat.succ_pos, if_true, Nat.add_sub_cancel]
    ring

theorem setLast_some {a b : List ℤ} {v : ℤ} (h : setLast a v = some b) :
    b.length = a.length ∧ 0 < b.length ∧ (∀ i, i + 1 < a.length → b.getD i 0 = a.getD i 0) ∧ b.getD (b.length - 1) 0 = v := by
  unfold setLast at h
  by_cases ha : a = []
  · rw [if_pos ha] at h; cases h
  · rw [if_neg ha] at h
    cases h
    have hpos : 0 < a.length := List.length_pos_iff.2 ha
    have hlen : (a.dropLast ++ [v]).length = a.length := by simp; omega
    refine ⟨hlen, by omega, fun i hi => ?_, ?_⟩
    · rw [List.getD_eq_getElem?_getD, List.getD_eq_getElem?_getD, List.getElem?_append_left (by simp; omega), List.getElem?_dropLast,
        if_pos (by omega)]
    · rw [hlen, List.getD_eq_getElem?_getD, List.getElem?_append_right (by simp)]
      simp

theorem setLast_none {a : List ℤ} {v : ℤ} : setLast a v = none ↔ a = [] := by
  unfold setLast
  by_cases ha : a = [] <;> simp [ha]

end Pixell
