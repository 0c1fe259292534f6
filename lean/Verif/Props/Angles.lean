import Verif.Lemmas.Angles
/-
C18, C19: rewinding and unwinding angles.
-/
namespace Pixell

/-! ## C18 -/

/-- Specification: `x` is the representative of `a` modulo `period` in
`[ref - period/2, ref + period/2)`. -/
def IsRewound (a ref period x : ℚ) : Prop :=
  ref - period/2 ≤ x ∧ x < ref + period/2 ∧ ∃ k : ℤ, x = a + k * period

/-- `rewind` returns the representative, for every angle, reference and positive period ... -/
theorem C18_rewind (a ref : ℚ) {period : ℚ} (hp : 0 < period) :
    IsRewound a ref period (rewind a ref period) := by
  have h1 := pmod_nonneg (a - ref + period / 2) hp
  have h2 := pmod_lt (a - ref + period / 2) hp
  refine ⟨by unfold rewind; linarith, by unfold rewind; linarith,
    -⌊(a - ref + period / 2) / period⌋, ?_⟩
  unfold rewind pmod
  push_cast; ring

/-- ... which is unique. -/
theorem C18_unique (a ref : ℚ) {period x : ℚ} (hp : 0 < period) (hx : IsRewound a ref period x) :
    x = rewind a ref period := by
  obtain ⟨h1, h2, k, rfl⟩ := hx
  obtain ⟨h3, h4, m, e⟩ := C18_rewind a ref hp
  rw [e] at h3 h4 ⊢
  have h5 : ((k - m : ℤ) : ℚ) * period < 1 * period := by push_cast; linarith
  have h6 : (-1) * period < ((k - m : ℤ) : ℚ) * period := by push_cast; linarith
  have h7 := lt_of_mul_lt_mul_right h5 hp.le
  have h8 := lt_of_mul_lt_mul_right h6 hp.le
  have h9 : k - m < 1 := by exact_mod_cast h7
  have h10 : -1 < k - m := by exact_mod_cast h8
  have : k = m := by omega
  rw [this]

theorem C18_idempotent (a ref : ℚ) {period : ℚ} (hp : 0 < period) :
    rewind (rewind a ref period) ref period = rewind a ref period := by
  obtain ⟨h1, h2, _⟩ := C18_rewind a ref hp
  exact (C18_unique _ _ hp ⟨h1, h2, 0, by simp⟩).symm

/-- Two angles are rewound to the same value exactly when they agree modulo the period. -/
theorem C18_congruent (a b ref : ℚ) {period : ℚ} (hp : 0 < period) :
    rewind a ref period = rewind b ref period ↔ ∃ k : ℤ, b = a + k * period := by
  obtain ⟨h1, h2, k, hk⟩ := C18_rewind a ref hp
  obtain ⟨h3, h4, m, hm⟩ := C18_rewind b ref hp
  constructor
  · intro h
    refine ⟨k - m, ?_⟩
    rw [hk, hm] at h
    push_cast; linarith
  · rintro ⟨j, rfl⟩
    apply C18_unique _ _ hp ⟨h1, h2, k - j, ?_⟩
    rw [hk]; push_cast; ring

example : rewind 350 0 360 = -10 ∧ rewind 180 0 360 = -180 := by
  constructor
  · exact (C18_unique 350 0 (by norm_num) ⟨by norm_num, by norm_num, -1, by norm_num⟩).symm
  · exact (C18_unique 180 0 (by norm_num) ⟨by norm_num, by norm_num, -1, by norm_num⟩).symm

/-! ## C19 -/

theorem unwind_length (a : List ℚ) (period ref : ℚ) (middle : Bool) :
    (unwind a period ref middle).length = a.length := by
  unfold unwind; split <;> simp [unwindMiddle_length, unwindLeft_length]

/-- Both reference modes: every element is moved by a whole number of periods ... -/
theorem C19_congruent (a : List ℚ) {period : ℚ} (ref : ℚ) (middle : Bool) (hp : 0 < period)
    (i : Nat) (h : i < a.length) :
    ∃ k : ℤ, (unwind a period ref middle)[i]'(by rw [unwind_length]; exact h) = a[i] + k * period := by
  obtain ⟨_, _, k, hk⟩ := C18_rewind a[i] ref hp
  obtain ⟨k2, hk2⟩ := sum_take_isInt period (a.map fun x => rewind x ref period) i
  cases middle with
  | false =>
    refine ⟨k - k2, ?_⟩
    simp only [unwind, Bool.false_eq_true, if_false]
    rw [unwindLeft_getElem _ _ _ (by simpa using h)]
    rw [hk2, List.getElem_map, hk]; push_cast; ring
  | true =>
    obtain ⟨k3, hk3⟩ := sum_take_isInt period (a.map fun x => rewind x ref period)
      ((a.map fun x => rewind x ref period).length / 2)
    refine ⟨k - k2 + k3, ?_⟩
    simp only [unwind, if_true]
    rw [unwindMiddle_getElem _ _ _ (by simpa using h)]
    rw [hk2, hk3, List.getElem_map, hk]; push_cast; ring

theorem step_bound (d : ℚ) {period : ℚ} (hp : 0 < period) :
    |d - rint (d / period) * period| ≤ period / 2 := by
  have h := rint_dist (d / period)
  have e : d - rint (d / period) * period = (d / period - rint (d / period)) * period := by
    rw [sub_mul, div_mul_cancel₀ _ hp.ne']
  rw [e, abs_mul, abs_of_pos hp]
  have := mul_le_mul_of_nonneg_right h hp.le
  linarith

/-- ... and afterwards neighbours never differ by more than half a period, in both modes. -/
theorem C19_continuous (a : List ℚ) {period : ℚ} (ref : ℚ) (middle : Bool) (hp : 0 < period)
    (i : Nat) (h : i + 1 < a.length) :
    |(unwind a period ref middle)[i+1]'(by rw [unwind_length]; exact h) -
      (unwind a period ref middle)[i]'(by rw [unwind_length]; omega)| ≤ period / 2 := by
  have key := step_bound (rewind a[i+1] ref period - rewind a[i] ref period) hp
  have hs : ((stepsOf period (a.map fun x => rewind x ref period)).take (i+1)).sum =
      ((stepsOf period (a.map fun x => rewind x ref period)).take i).sum +
      rint ((rewind a[i+1] ref period - rewind a[i] ref period) / period) := by
    rw [List.take_succ_eq_append_getElem (by rw [stepsOf_length]; simp; omega), List.sum_append,
      stepsOf_getElem _ _ _ (by simpa using h)]
    simp
  cases middle with
  | false =>
    simp only [unwind, Bool.false_eq_true, if_false]
    rw [unwindLeft_getElem _ _ _ (by simpa using h), unwindLeft_getElem _ _ _ (by simp; omega), hs]
    simp only [List.getElem_map]
    refine le_trans (le_of_eq ?_) key
    congr 1; ring
  | true =>
    simp only [unwind, if_true]
    rw [unwindMiddle_getElem _ _ _ (by simpa using h), unwindMiddle_getElem _ _ _ (by simp; omega), hs]
    simp only [List.getElem_map]
    refine le_trans (le_of_eq ?_) key
    congr 1; ring

/-- The reference element (first, or middle) is put in the reference period. -/
theorem C19_reference (a : List ℚ) {period : ℚ} (ref : ℚ) (middle : Bool)
    (h : 0 < a.length) (i : Nat) (hi : i = if middle then a.length / 2 else 0) :
    (unwind a period ref middle)[i]'(by rw [unwind_length]; split at hi <;> omega) =
      rewind (a[i]'(by split at hi <;> omega)) ref period := by
  subst hi
  cases middle with
  | false =>
    simp only [unwind, Bool.false_eq_true, if_false]
    rw [unwindLeft_getElem _ _ _ (by simpa using h)]
    simp
  | true =>
    simp only [unwind, if_true]
    rw [unwindMiddle_getElem _ _ _ (by simp; omega)]
    simp

/-- A sequence that starts in the reference period and whose neighbours differ by less than half a
period is left unchanged. -/
theorem C19_unchanged (a : List ℚ) {period : ℚ} (ref : ℚ) (hp : 0 < period)
    (h0 : ∀ h : 0 < a.length, ref - period/2 ≤ a[0] ∧ a[0] < ref + period/2)
    (hd : ∀ i (h : i + 1 < a.length), |a[i+1] - a[i]| < period / 2) :
    unwind a period ref = a := by
  have key : ∀ i (h : i < a.length),
      (unwind a period ref)[i]'(by rw [unwind_length]; exact h) = a[i] := by
    intro i
    induction i with
    | zero =>
      intro h
      rw [C19_reference a ref false h 0 rfl]
      exact (C18_unique _ _ hp ⟨(h0 h).1, (h0 h).2, 0, by simp⟩).symm
    | succ i ih =>
      intro h
      have ih := ih (by omega)
      have hc := C19_continuous a ref false hp i h
      obtain ⟨k, hk⟩ := C19_congruent a ref false hp (i+1) h
      rw [ih, hk] at hc
      rw [hk]
      have hd := hd i h
      rw [abs_le] at hc
      rw [abs_lt] at hd
      have h5 : ((k : ℤ) : ℚ) * period < 1 * period := by linarith
      have h6 : (-1) * period < ((k : ℤ) : ℚ) * period := by linarith
      have h7 := lt_of_mul_lt_mul_right h5 hp.le
      have h8 := lt_of_mul_lt_mul_right h6 hp.le
      have h9 : k < 1 := by exact_mod_cast h7
      have h10 : -1 < k := by exact_mod_cast h8
      have : k = 0 := by omega
      simp [this]
  exact List.ext_getElem (unwind_length _ _ _ _) fun i _ h2 => key i h2

/-- Non-vacuity: a jump by almost a full turn is removed; in middle mode the middle stays. -/
example : unwind [350, 355, 2, 7] 360 0 = [-10, -5, 2, 7] ∧
    unwind [10, 170, 190, 200] 360 0 true = [-350, -190, -170, -160] := by
  decide +kernel

end Pixell
