import Mathlib.Tactic.Ring
import Mathlib.Tactic.Linarith
import Mathlib.Tactic.LinearCombination
import Mathlib.Algebra.Order.Ring.Int
import Mathlib.Data.List.Nodup
import Mathlib.Data.List.Flatten
import Verif.Lemmas.PySeq
import Verif.Lemmas.ListExtra
import Verif.Model.SBox
/-
Index sets of slice boxes.
-/
namespace Pixell
open PySpec

/-- The indices a box stands for: Python's `range(start, end, step)`. -/
def SBox.idx (b : SBox) : List Int := range b.start b.stop b.step

theorem rangeLen_pos {a b s : Int} (hs : 0 < s) : (rangeLen a b s : Int) = max ((b - a - 1) / s + 1) 0 := by
  unfold rangeLen
  rw [if_pos hs]
  have : b - a + s - 1 = (b - a - 1) + 1 * s := by omega
  rw [this, Int.add_mul_ediv_right _ _ (by omega)]
  omega

theorem rangeLen_neg_step (a b s : Int) : rangeLen a b s = rangeLen (-a) (-b) (-s) := by
  unfold rangeLen
  rcases Int.lt_trichotomy s 0 with h | rfl | h
  · rw [if_neg (by omega), if_pos h, if_pos (by omega)]
    congr 2; omega
  · simp
  · rw [if_pos h, if_neg (by omega), if_pos (by omega)]
    congr 2 <;> omega

theorem sboxSize_toNat (b : SBox) (hs : b.step ≠ 0) :
    (sboxSize b).toNat = rangeLen b.start b.stop b.step := by
  unfold sboxSize
  simp only
  rcases Int.lt_or_gt_of_ne hs with h | h
  · rw [Int.sign_eq_neg_one_of_neg h, rangeLen_neg_step]
    have e := @rangeLen_pos (-b.start) (-b.stop) (-b.step) (by omega)
    rw [Int.fdiv_eq_ediv_of_nonneg _ (by omega)]
    have e2 : b.stop * -1 - b.start * -1 - 1 = -b.stop - -b.start - 1 := by omega
    rw [e2, show b.step * -1 = -b.step by omega]
    omega
  · rw [Int.sign_eq_one_of_pos h]
    have e := @rangeLen_pos b.start b.stop b.step h
    rw [Int.fdiv_eq_ediv_of_nonneg _ (by omega)]
    simp only [Int.mul_one]
    omega

theorem rangeLen_mul (a n s : Int) (hs : s ≠ 0) : rangeLen a (a + n * s) s = n.toNat := by
  have key : ∀ k : Nat, k < rangeLen a (a + n * s) s ↔ k < n.toNat := by
    intro k
    rw [lt_rangeLen_iff]
    rcases Int.lt_or_gt_of_ne hs with h | h
    · have : ¬ 0 < s := by omega
      simp only [this, false_and, false_or, h, true_and]
      constructor
      · intro hk
        have : n * s < k * s := by omega
        have := lt_of_mul_lt_mul_of_nonpos_right this (by omega)
        omega
      · intro hk
        have : (k:Int) < n := by omega
        have := mul_lt_mul_of_neg_right this h
        omega
    · have h' : ¬ s < 0 := by omega
      simp only [h', false_and, or_false, show 0 < s from h, true_and]
      constructor
      · intro hk
        have : k * s < n * s := by omega
        have := lt_of_mul_lt_mul_of_nonneg_right this (by omega)
        omega
      · intro hk
        have : (k:Int) < n := by omega
        have := mul_lt_mul_of_pos_right this h
        omega
  have h1 := key n.toNat
  have h2 := key (rangeLen a (a + n * s) s)
  omega

theorem range_congr {a b b' s : Int} (h : rangeLen a b s = rangeLen a b' s) : range a b s = range a b' s := by
  unfold range; rw [h]

theorem idx_sboxFix (b : SBox) (hs : b.step ≠ 0) : (sboxFix b).idx = b.idx := by
  apply range_congr
  show rangeLen b.start (b.start + sboxSize b * b.step) b.step = _
  rw [rangeLen_mul _ _ _ hs, sboxSize_toNat b hs]
  rfl

/-- A box whose end is a whole number of steps from its start. -/
def SBox.Fixed (b : SBox) : Prop := b.step ≠ 0 ∧ ∃ n : Int, b.stop = b.start + n * b.step

theorem sboxFix_fixed (b : SBox) (hs : b.step ≠ 0) : (sboxFix b).Fixed := ⟨hs, _, rfl⟩

theorem range_reverse (a n s : Int) (hs : s ≠ 0) :
    range (a + n * s - s) (a - s) (-s) = (range a (a + n * s) s).reverse := by
  have hl : rangeLen (a + n * s - s) (a - s) (-s) = n.toNat := by
    have := rangeLen_mul (a + n * s - s) n (-s) (by omega)
    rw [← this]
    congr 1
    ring
  apply List.ext_getElem
  · rw [List.length_reverse, length_range, length_range, hl, rangeLen_mul _ _ _ hs]
  · intro i h1 h2
    rw [List.getElem_reverse, getElem_range, getElem_range]
    simp only [length_range, rangeLen_mul _ _ _ hs]
    rw [length_range, hl] at h1
    have : ((n.toNat - 1 - i : Nat) : Int) = n - 1 - i := by omega
    rw [this]; ring

theorem idx_sboxFlip (b : SBox) (h : b.Fixed) : (sboxFlip b).idx = b.idx.reverse := by
  obtain ⟨hs, n, hn⟩ := h
  unfold SBox.idx sboxFlip
  rw [hn]
  exact range_reverse _ _ _ hs

theorem sboxFlip_fixed (b : SBox) (h : b.Fixed) : (sboxFlip b).Fixed := by
  obtain ⟨hs, n, hn⟩ := h
  refine ⟨by simp only [sboxFlip]; omega, n, ?_⟩
  simp only [sboxFlip]; rw [hn]; ring

/-- The box with a positive step and the same index set. -/
def SBox.norm (b : SBox) : SBox := if (sboxFix b).step < 0 then sboxFlip (sboxFix b) else sboxFix b

theorem SBox.norm_fixed (b : SBox) (hs : b.step ≠ 0) : b.norm.Fixed ∧ 0 < b.norm.step := by
  unfold SBox.norm
  have h := sboxFix_fixed b hs
  split
  · rename_i hlt
    refine ⟨sboxFlip_fixed _ h, ?_⟩
    simp only [sboxFlip]; omega
  · rename_i hlt
    refine ⟨h, ?_⟩
    have : (sboxFix b).step = b.step := rfl
    omega

theorem mem_norm_idx (b : SBox) (hs : b.step ≠ 0) (x : Int) : x ∈ b.norm.idx ↔ x ∈ b.idx := by
  unfold SBox.norm
  have h := sboxFix_fixed b hs
  split
  · rw [idx_sboxFlip _ h, List.mem_reverse, idx_sboxFix b hs]
  · rw [idx_sboxFix b hs]

/-- Membership in a box with positive step. -/
theorem mem_idx_pos (b : SBox) (h : b.Fixed) (hp : 0 < b.step) (x : Int) :
    x ∈ b.idx ↔ b.start ≤ x ∧ x ≤ b.stop - b.step ∧ b.step ∣ x - b.start := by
  obtain ⟨hs, n, hn⟩ := h
  unfold SBox.idx
  rw [mem_range]
  constructor
  · rintro ⟨k, rfl, h | h⟩
    · have h0 : 0 ≤ (k:Int) * b.step := mul_nonneg (by omega) (by omega)
      refine ⟨by omega, ?_, ⟨k, by ring⟩⟩
      have : (k:Int) * b.step < n * b.step := by omega
      have := lt_of_mul_lt_mul_of_nonneg_right this (by omega)
      have : (k:Int) ≤ n - 1 := by omega
      have := mul_le_mul_of_nonneg_right this (show 0 ≤ b.step by omega)
      have e : (n - 1) * b.step = n * b.step - b.step := by ring
      omega
    · omega
  · rintro ⟨h1, h2, m, hm⟩
    have hm0 : 0 ≤ m := by
      by_contra hc
      have : b.step * m < 0 := mul_neg_of_pos_of_neg hp (by omega)
      omega
    refine ⟨m.toNat, ?_, Or.inl ⟨hp, by omega⟩⟩
    rw [Int.toNat_of_nonneg hm0]
    linear_combination hm

theorem pyGcd_eq (a b : Nat) : pyGcd a b = Nat.gcd a b := by
  induction a, b using pyGcd.induct with
  | case1 a => rw [pyGcd]; simp
  | case2 a b h ih =>
    rw [pyGcd, dif_neg h, ih, Nat.gcd_comm a b, Nat.gcd_rec b a, Nat.gcd_comm]

theorem pyLcm_eq (a b : Nat) : pyLcm a b = Nat.lcm a b := by
  rw [pyLcm, pyGcd_eq]; rfl

end Pixell
