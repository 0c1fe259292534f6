import Mathlib.Tactic.Ring
import Mathlib.Tactic.Linarith
import Mathlib.Tactic.FieldSimp
import Mathlib.Tactic.NormNum
import Mathlib.Tactic.Positivity
import Mathlib.Algebra.Order.Floor.Ring
import Verif.Model.Num
/-
Elementary facts on the rounding helpers.
-/
namespace Pixell

theorem rint_dist (x : ℚ) : |x - rint x| ≤ 1/2 := by
  have h1 := Int.floor_le x
  have h2 := Int.lt_floor_add_one x
  unfold rint
  simp only
  rw [abs_le]
  split
  · constructor <;> linarith
  · split
    · push_cast; constructor <;> linarith
    · split
      · constructor <;> linarith
      · push_cast; constructor <;> linarith

/-- Any integer strictly closer than one half is the rounded value. -/
theorem rint_eq_of_lt {x : ℚ} {k : ℤ} (h : |x - k| < 1/2) : rint x = k := by
  have h1 := rint_dist x
  have : |((rint x - k : ℤ) : ℚ)| < 1 := by
    push_cast
    calc |(rint x : ℚ) - k| = |(x - k) - (x - rint x)| := by ring_nf
      _ ≤ |x - k| + |x - rint x| := abs_sub _ _
      _ < 1 := by linarith
  have h2 : |rint x - k| < 1 := by exact_mod_cast this
  have := Int.abs_lt_one_iff.1 h2
  omega

theorem rint_int (k : ℤ) : rint (k : ℚ) = k := rint_eq_of_lt (by norm_num)

/-- Half a step is still rounded to zero (ties go to even). -/
theorem rint_eq_zero {x : ℚ} (h : |x| ≤ 1/2) : rint x = 0 := by
  rcases lt_or_eq_of_le h with h | h
  · apply rint_eq_of_lt; simpa using h
  · rcases (abs_eq (by norm_num)).1 h with rfl | rfl
    · have : ⌊(1/2 : ℚ)⌋ = 0 := by norm_num
      simp only [rint, this]; norm_num
    · have : ⌊(-(1/2) : ℚ)⌋ = -1 := by rw [Int.floor_eq_iff]; norm_num
      simp only [rint, this]; norm_num

theorem pmod_nonneg (x : ℚ) {p : ℚ} (hp : 0 < p) : 0 ≤ pmod x p := by
  have h := Int.floor_le (x / p)
  rw [le_div_iff₀ hp] at h
  unfold pmod; linarith

theorem pmod_lt (x : ℚ) {p : ℚ} (hp : 0 < p) : pmod x p < p := by
  have h := Int.lt_floor_add_one (x / p)
  rw [div_lt_iff₀ hp] at h
  unfold pmod; linarith

theorem pmod_add_mul (x : ℚ) {p : ℚ} (hp : p ≠ 0) (k : ℤ) : pmod (x + k * p) p = pmod x p := by
  unfold pmod
  rw [add_div, mul_div_assoc, div_self hp, mul_one, Int.floor_add_intCast]
  push_cast; ring

theorem pmod_eq_self {x p : ℚ} (h0 : 0 ≤ x) (h1 : x < p) : pmod x p = x := by
  have hp : 0 < p := by linarith
  have : ⌊x / p⌋ = 0 := by
    rw [Int.floor_eq_iff]
    simp only [Int.cast_zero, zero_add]
    exact ⟨by positivity, (div_lt_one hp).2 h1⟩
  simp [pmod, this]

end Pixell
