import Verif.Lemmas.Num
import Mathlib.Algebra.BigOperators.Group.List.Basic
import Verif.Model.Angles
/-
Elementwise form of the unwinding loops.
-/
namespace Pixell

theorem npCumsum_length (a : ℚ) (l : List ℚ) : (npCumsum a l).length = l.length := by
  induction l generalizing a with
  | nil => rfl
  | cons x xs ih => simp [npCumsum, ih]

theorem npCumsum_getElem (a : ℚ) (l : List ℚ) (i : Nat) (h : i < (npCumsum a l).length) :
    (npCumsum a l)[i] = a + (l.take (i + 1)).sum := by
  induction l generalizing a i with
  | nil => simp [npCumsum] at h
  | cons x xs ih =>
    cases i with
    | zero => simp [npCumsum]
    | succ i => simp [npCumsum, ih]; ring

theorem diffs_length (l : List ℚ) : (diffs l).length = l.length - 1 := by
  match l with
  | [] => rfl
  | [_] => rfl
  | x :: y :: r => simp [diffs, diffs_length (y :: r)]

theorem diffs_getElem (l : List ℚ) (i : Nat) (h : i < (diffs l).length) :
    (diffs l)[i] = l[i+1]'(by rw [diffs_length] at h; omega) - l[i]'(by rw [diffs_length] at h; omega) := by
  match l, i with
  | [], _ => simp [diffs] at h
  | [_], _ => simp [diffs] at h
  | x :: y :: r, 0 => simp [diffs]
  | x :: y :: r, i+1 =>
    simp only [diffs, List.getElem_cons_succ]
    rw [diffs_getElem (y :: r) i]
    rfl

/-- The rounded steps, in periods. -/
def stepsOf (period : ℚ) (l : List ℚ) : List ℚ :=
  (diffs l).map fun d => ((rint (d / period) : ℤ) : ℚ)

theorem stepsOf_length (p : ℚ) (l : List ℚ) : (stepsOf p l).length = l.length - 1 := by
  simp [stepsOf, diffs_length]

theorem stepsOf_getElem (p : ℚ) (l : List ℚ) (i : Nat) (h : i + 1 < l.length) :
    (stepsOf p l)[i]'(by rw [stepsOf_length]; omega) = ((rint ((l[i+1] - l[i]) / p) : ℤ) : ℚ) := by
  simp [stepsOf, diffs_getElem]

theorem unwindLeft_length (p : ℚ) (l : List ℚ) : (unwindLeft p l).length = l.length := by
  cases l with
  | nil => rfl
  | cons x r => simp [unwindLeft, npCumsum_length, diffs_length]

theorem unwindLeft_getElem (p : ℚ) (l : List ℚ) (i : Nat) (h : i < l.length) :
    (unwindLeft p l)[i]'(by rw [unwindLeft_length]; exact h) =
      l[i] - ((stepsOf p l).take i).sum * p := by
  cases l with
  | nil => simp at h
  | cons x r =>
    cases i with
    | zero => simp [unwindLeft]
    | succ i =>
      simp only [unwindLeft, List.getElem_cons_succ, List.getElem_zipWith]
      rw [npCumsum_getElem, zero_add]
      rfl

theorem sum_take_isInt (p : ℚ) (l : List ℚ) (i : Nat) :
    ∃ k : ℤ, ((stepsOf p l).take i).sum = k := by
  unfold stepsOf
  rw [← List.map_take]
  generalize (diffs l).take i = m
  induction m with
  | nil => exact ⟨0, by simp⟩
  | cons x xs ih =>
    obtain ⟨k, hk⟩ := ih
    exact ⟨rint (x / p) + k, by simp [hk]⟩

theorem unwindMiddle_length (p : ℚ) (l : List ℚ) : (unwindMiddle p l).length = l.length := by
  simp only [unwindMiddle, List.length_append, List.length_zipWith, List.length_map,
    List.length_reverse, npCumsum_length, List.length_take, List.length_drop, diffs_length]
  omega

/-- Unwinding from the middle differs from unwinding from the left by a constant number of
periods. -/
theorem unwindMiddle_getElem (p : ℚ) (l : List ℚ) (i : Nat) (h : i < l.length) :
    (unwindMiddle p l)[i]'(by rw [unwindMiddle_length]; exact h) =
      l[i] - ((stepsOf p l).take i).sum * p + ((stepsOf p l).take (l.length / 2)).sum * p := by
  have hl : (stepsOf p l).length = l.length - 1 := stepsOf_length p l
  change (List.zipWith (· - ·) (l.take (l.length / 2))
      (((npCumsum 0 ((stepsOf p l).take (l.length / 2)).reverse).reverse).map fun c => -c * p) ++
      (l.drop (l.length / 2)).take 1 ++
      List.zipWith (· - ·) (l.drop (l.length / 2 + 1))
        ((npCumsum 0 ((stepsOf p l).drop (l.length / 2))).map fun c => c * p))[i]'_ = _
  obtain ⟨m, hm⟩ : ∃ m, m = l.length / 2 := ⟨_, rfl⟩
  simp only [← hm]
  have hm' : m < l.length := by omega
  rcases Nat.lt_trichotomy i m with hi | hi | hi
  · rw [List.getElem_append_left (by simp [npCumsum_length]; omega),
      List.getElem_append_left (by simp [npCumsum_length]; omega)]
    simp only [List.getElem_zipWith, List.getElem_map, List.getElem_take, List.getElem_reverse,
      npCumsum_getElem, npCumsum_length, List.length_reverse, List.length_take, zero_add]
    rw [List.take_reverse, List.sum_reverse]
    have e : (List.take m (stepsOf p l)).length - (min m (stepsOf p l).length - 1 - i + 1) = i := by
      simp; omega
    rw [e]
    have e2 : ((stepsOf p l).take m).sum = ((stepsOf p l).take i).sum + (((stepsOf p l).take m).drop i).sum := by
      conv_lhs => rw [← List.take_append_drop i ((stepsOf p l).take m)]
      rw [List.sum_append, List.take_take, Nat.min_eq_left (by omega)]
    rw [e2]; ring
  · subst hi
    rw [List.getElem_append_left (by simp [npCumsum_length]; omega),
      List.getElem_append_right (by simp [npCumsum_length])]
    simp [npCumsum_length]
    congr 1
    omega
  · rw [List.getElem_append_right (by simp [npCumsum_length]; omega)]
    simp only [List.getElem_zipWith, List.getElem_map, List.getElem_drop, npCumsum_getElem,
      List.length_append, List.length_zipWith, List.length_map, List.length_reverse,
      npCumsum_length, List.length_take, List.length_drop, zero_add]
    have e : min (min m l.length) (min m (stepsOf p l).length) + min 1 (l.length - m) = m + 1 := by omega
    simp only [e]
    have e3 : m + 1 + (i - (m + 1)) = i := by omega
    simp only [e3]
    have e4 : i - (m + 1) + 1 = i - m := by omega
    rw [e4]
    have e2 : ((stepsOf p l).take i).sum = ((stepsOf p l).take m).sum + (((stepsOf p l).drop m).take (i - m)).sum := by
      conv_lhs => rw [show i = m + (i - m) by omega, List.take_add]
      rw [List.sum_append]
    rw [e2]; ring

end Pixell
