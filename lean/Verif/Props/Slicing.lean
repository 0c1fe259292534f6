import Mathlib.Tactic.FieldSimp
import Mathlib.Tactic.Linarith
import Mathlib.Tactic.NormNum
import Verif.Model.Geometry
/-
C01, C02, C03: slicing a map / a geometry.
-/
namespace Pixell
open PySpec (Slice)

/-! ## C02: expand_slice and Python slice semantics -/

/-- Full claim of C02: for every slice with a nonzero step, `expand_slice` describes the indices
Python selects. -/
def C02_claim : Prop :=
  ∀ (sel : Slice) (n : Nat), sel.step ≠ some 0 →
    sel.select n = some (PySpec.range (expandSlice sel n).1 (expandSlice sel n).2.1
      (expandSlice sel n).2.2)

/-- A negative start below `-n` is not clamped: `slice(-7,2)` of a length-5 axis selects `[0,1]` in
Python, but `expand_slice` yields `slice(-2,2)`, i.e. also pixels -2 and -1. -/
theorem C02_refuted : ¬ C02_claim := by
  intro h
  have := h ⟨some (-7), some 2, none⟩ 5 (by simp)
  revert this
  decide +kernel

/-- With a negative step a start beyond the end is not clamped to the last pixel either. -/
theorem C02_refuted_negative_step :
    (Slice.mk (some 5) none (some (-1))).select 5 = some [4, 3, 2, 1, 0] ∧
    PySpec.range (expandSlice ⟨some 5, none, some (-1)⟩ 5).1
      (expandSlice ⟨some 5, none, some (-1)⟩ 5).2.1
      (expandSlice ⟨some 5, none, some (-1)⟩ 5).2.2 = [5, 4, 3, 2, 1, 0] := by
  decide +kernel

/-- A zero step is a `ValueError` in Python, but `expand_slice` silently uses step 1. -/
theorem C02_zero_step (a b : Option Int) (n : Nat) :
    (Slice.mk a b (some 0)).select n = none ∧
    expandSlice ⟨a, b, some 0⟩ n = expandSlice ⟨a, b, none⟩ n := by
  constructor
  · simp [Slice.select, Slice.indices]
  · simp [expandSlice, effStep]

/-- The inputs on which `expand_slice` is right: the start is not clamped by Python from below
(nor from above, for a negative step), and for a negative step neither is the stop. -/
def SliceInRange (sel : Slice) (n : Int) : Prop :=
  sel.step ≠ some 0 ∧
  (∀ i, sel.start = some i → -n ≤ i ∧ (sel.step.getD 1 < 0 → i < n)) ∧
  (∀ i, sel.stop = some i → sel.step.getD 1 < 0 → -n ≤ i)

/-- C02 on in-range slices: `expand_slice` selects exactly the indices Python selects, for every
length, every optional start/stop and every nonzero step of either sign. -/
theorem C02_expand_slice_partial (sel : Slice) (n : Nat) (h : SliceInRange sel n) :
    sel.select n = some (PySpec.range (expandSlice sel n).1 (expandSlice sel n).2.1
      (expandSlice sel n).2.2) := by
  obtain ⟨start, stop, step⟩ := sel
  obtain ⟨h0, h1, h2⟩ := h
  simp only at h0 h1 h2
  obtain ⟨s, s0, e1, e2⟩ : ∃ s : Int, s ≠ 0 ∧ step.getD 1 = s ∧ effStep step = s := by
    cases step with
    | none => exact ⟨1, by omega, rfl, rfl⟩
    | some s =>
      have : s ≠ 0 := fun e => h0 (by rw [e])
      exact ⟨s, this, rfl, by simp [effStep, this]⟩
  simp only [e1] at h1 h2
  simp only [Slice.select, Slice.indices, expandSlice, e1, e2, s0, if_false, Option.map_some,
    Option.some.injEq, PySpec.adjust, cycle, Bool.false_eq_true]
  rcases Int.lt_trichotomy s 0 with hn | hz | hp
  · have hp : ¬ 0 < s := by omega
    simp only [hn, hp, if_true, if_false]
    rcases start with _ | i <;> rcases stop with _ | j <;>
      simp only [Option.getD_none, Option.getD_some]
    · split
      · congr 1; omega
      · rw [PySpec.range_eq_nil, PySpec.range_eq_nil] <;> constructor <;> intro <;> omega
    · have hj := h2 j rfl hn
      by_cases hc : (n:Int) ≤ j ∨ (n:Int) = 0
      · rw [PySpec.range_eq_nil, PySpec.range_eq_nil] <;> constructor <;> intro <;>
          repeat' split
        all_goals omega
      · congr 1 <;> repeat' split
        all_goals omega
    · have hi := h1 i rfl
      have hi' := hi.2 hn
      congr 1; repeat' split
      all_goals omega
    · have hi := h1 i rfl
      have hi' := hi.2 hn
      have hj := h2 j rfl hn
      by_cases hc : (n:Int) ≤ j
      · rw [PySpec.range_eq_nil, PySpec.range_eq_nil] <;> constructor <;> intro <;>
          repeat' split
        all_goals omega
      · congr 1 <;> repeat' split
        all_goals omega
  · exact absurd hz s0
  · have hn : ¬ s < 0 := by omega
    simp only [hn, hp, if_true, if_false]
    rcases start with _ | i <;> rcases stop with _ | j <;>
      simp only [Option.getD_none, Option.getD_some]
    · congr 1 <;> repeat' split
      all_goals omega
    · by_cases hc : j + (n:Int) < 0
      · rw [PySpec.range_eq_nil, PySpec.range_eq_nil] <;> constructor <;> intro <;>
          repeat' split
        all_goals omega
      · congr 1 <;> repeat' split
        all_goals omega
    · have hi := h1 i rfl
      congr 1 <;> repeat' split
      all_goals omega
    · have hi := h1 i rfl
      by_cases hc : j + (n:Int) < 0
      · rw [PySpec.range_eq_nil, PySpec.range_eq_nil] <;> constructor <;> intro <;>
          repeat' split
        all_goals omega
      · congr 1 <;> repeat' split
        all_goals omega

example : SliceInRange ⟨some (-4), some 9, some (-2)⟩ 5 ∧ SliceInRange ⟨some (-3), none, some 2⟩ 5 := by
  simp [SliceInRange]

/-! ## C01: data and geometry stay aligned -/

/-- The length computed by `slice_geometry` is Python's element count, for every start, stop and
nonzero step. -/
theorem sliceLen_toNat (a b s : Int) :
    (Int.fdiv (b - a + s - Int.sign s) s).toNat = PySpec.rangeLen a b s := by
  unfold PySpec.rangeLen
  rcases Int.lt_trichotomy s 0 with hn | rfl | hp
  · have h1 : Int.sign s = -1 := Int.sign_eq_neg_one_of_neg hn
    have h2 : ¬ 0 < s := by omega
    simp only [h1, h2, hn, if_true, if_false]
    have : b - a + s - -1 = -(a - b - s - 1) := by omega
    rw [this]
    conv_lhs => rw [show s = -(-s) by omega]
    rw [Int.neg_fdiv_neg, Int.fdiv_eq_ediv_of_nonneg _ (by omega)]
    simp
  · simp
  · have h1 : Int.sign s = 1 := Int.sign_eq_one_of_pos hp
    simp only [h1, hp, if_true]
    rw [Int.fdiv_eq_ediv_of_nonneg _ (by omega)]

/-- C01 (shape).  For every in-range slice the geometry has as many pixels as numpy selects. -/
theorem C01_length (n : Nat) (w : Axis) (sel : Slice) (h : SliceInRange sel n) :
    ∃ idx, sel.select n = some idx ∧ (sliceGeometry n w sel).1.toNat = idx.length := by
  refine ⟨_, C02_expand_slice_partial sel n h, ?_⟩
  rw [PySpec.length_range]
  exact sliceLen_toNat _ _ _

/-- ... but when nothing is selected the length can be *negative* instead of zero: slicing a
length-5 geometry with `5:3` gives length -2. -/
theorem C01_empty_slice_refuted (w : Axis) :
    (sliceGeometry 5 w ⟨some 5, some 3, none⟩).1 = -2 ∧
    (Slice.mk (some 5) (some 3) none).select 5 = some [] := by
  constructor
  · simp [sliceGeometry, expandSlice, effStep, cycle]
  · decide +kernel

/-- C01 (positions, any step).  The sky coordinate of *any* (also fractional) pixel coordinate `q`
of the sliced geometry. -/
theorem sliceWcs_pix2sky (w : Axis) (a s : Int) (hs : s ≠ 0) (q : ℚ) :
    (sliceWcs w a s).pix2sky q = w.pix2sky (a + q * s + (s - Int.sign s) / 2) := by
  have hs' : (s : ℚ) ≠ 0 := by exact_mod_cast hs
  rcases Int.lt_trichotomy s 0 with hn | h0 | hp
  · have h1 : Int.sign s = -1 := Int.sign_eq_neg_one_of_neg hn
    have h2 : ¬ 0 < s := by omega
    simp only [sliceWcs, Axis.pix2sky, h1, h2, if_false]
    push_cast
    field_simp
    ring
  · exact absurd h0 hs
  · have h1 : Int.sign s = 1 := Int.sign_eq_one_of_pos hp
    simp only [sliceWcs, Axis.pix2sky, h1, hp, if_true]
    push_cast
    field_simp
    ring

/-- C01 (positions).  For a slice with step 1 or -1, pixel `k` of the sliced geometry is at the sky
coordinate of the input pixel that numpy puts at index `k`; the geometry has as many pixels as the
slice selects. -/
theorem C01_unit_step (n : Nat) (w : Axis) (sel : Slice) (h : SliceInRange sel n)
    (hs : sel.step = none ∨ sel.step = some 1 ∨ sel.step = some (-1)) :
    ∃ idx, sel.select n = some idx ∧
      (sliceGeometry n w sel).1.toNat = idx.length ∧
      ∀ (k : Nat) (hk : k < idx.length),
        (sliceGeometry n w sel).2.pix2sky k = w.pix2sky (idx[k] : ℤ) := by
  refine ⟨_, C02_expand_slice_partial sel n h, ?_, ?_⟩
  · rw [PySpec.length_range]; exact sliceLen_toNat _ _ _
  · intro k hk
    rw [PySpec.getElem_range]
    have e : (expandSlice sel n).2.2 = effStep sel.step := by
      unfold expandSlice; simp only []; split <;> rfl
    have e' : (expandSlice sel n).2.2 = 1 ∨ (expandSlice sel n).2.2 = -1 := by
      rw [e]; rcases hs with h | h | h <;> simp [h, effStep]
    show (sliceWcs w _ _).pix2sky k = _
    rw [sliceWcs_pix2sky _ _ _ (by omega)]
    congr 1
    push_cast
    rcases e' with e' | e' <;> simp [e']

/-- C01 (area, any step).  Output pixel `k` of a slice with positive step `s` covers exactly the
input pixels `a+k*s, ..., a+(k+1)*s-1`: its edges are the lower edge of the first and the upper edge
of the last of them.  For a negative step it covers `a+k*s, ..., a+(k+1)*s+1`. -/
theorem C01_area (w : Axis) (a s : Int) (k : Int) :
    (0 < s →
      (sliceWcs w a s).pix2sky (k - 1/2) = w.pix2sky ((a + k * s : ℤ) - 1/2) ∧
      (sliceWcs w a s).pix2sky (k + 1/2) = w.pix2sky ((a + (k + 1) * s - 1 : ℤ) + 1/2)) ∧
    (s < 0 →
      (sliceWcs w a s).pix2sky (k - 1/2) = w.pix2sky ((a + k * s : ℤ) + 1/2) ∧
      (sliceWcs w a s).pix2sky (k + 1/2) = w.pix2sky ((a + (k + 1) * s + 1 : ℤ) - 1/2)) := by
  constructor <;> intro h
  · constructor <;> rw [sliceWcs_pix2sky _ _ _ (by omega), Int.sign_eq_one_of_pos h] <;>
      congr 1 <;> push_cast <;> ring
  · constructor <;> rw [sliceWcs_pix2sky _ _ _ (by omega), Int.sign_eq_neg_one_of_neg h] <;>
      congr 1 <;> push_cast <;> ring

/-- For `|step| > 1` the slice keeps every `s`-th pixel value but the geometry describes the whole
block, so the value and the pixel centre are `(s - sign s)/2` input pixels apart. -/
theorem C01_stride_offset (w : Axis) (a s : Int) (hs : 1 < s ∨ s < -1) (hc : w.cdelt ≠ 0) (k : Nat) :
    (sliceWcs w a s).pix2sky k - w.pix2sky (a + k * s : ℤ) = (s - Int.sign s) / 2 * w.cdelt ∧
    (sliceWcs w a s).pix2sky k ≠ w.pix2sky (a + k * s : ℤ) := by
  have e : (sliceWcs w a s).pix2sky k - w.pix2sky (a + k * s : ℤ) =
      (s - Int.sign s) / 2 * w.cdelt := by
    rw [sliceWcs_pix2sky _ _ _ (by omega)]
    unfold Axis.pix2sky; push_cast; ring
  refine ⟨e, fun he => ?_⟩
  rw [he, sub_self] at e
  have : ((s:ℚ) - Int.sign s) ≠ 0 := by
    rcases hs with h | h
    · rw [Int.sign_eq_one_of_pos (by omega)]
      have : (1:ℚ) < s := by exact_mod_cast h
      push_cast; linarith
    · rw [Int.sign_eq_neg_one_of_neg (by omega)]
      have : (s:ℚ) < -1 := by exact_mod_cast h
      push_cast; linarith
  exact (mul_ne_zero (div_ne_zero this two_ne_zero) hc) e.symm

/-- Non-vacuity: reversing a length-6 axis puts old pixel 5 first. -/
example : (sliceGeometry 6 ⟨10, -1/2, 3⟩ ⟨none, none, some (-1)⟩).2.pix2sky 0
    = (⟨10, -1/2, 3⟩ : Axis).pix2sky 5 ∧
    (sliceGeometry 6 ⟨10, -1/2, 3⟩ ⟨none, none, some (-1)⟩).1 = 6 := by
  constructor
  · simp [sliceGeometry, sliceWcs, expandSlice, effStep, cycle, Axis.pix2sky]; norm_num
  · simp [sliceGeometry, expandSlice, effStep, cycle]

/-! ## C03: slicing composes -/

/-- First input pixel of the composed slice: where block `c` of the first slice begins, seen from
the direction of the second. -/
def composedStart (a s c t : Int) : Int :=
  if 0 < s ∧ t < 0 then a + c * s + (s - 1)
  else if s < 0 ∧ t < 0 then a + c * s + (s + 1)
  else a + c * s

/-- C03.  Slicing a geometry twice gives the WCS of one slice with the product step, for all
nonzero steps. -/
theorem C03_compose (w : Axis) (a s c t : Int) (hs : s ≠ 0) (ht : t ≠ 0) :
    sliceWcs (sliceWcs w a s) c t = sliceWcs w (composedStart a s c t) (s * t) := by
  have hs' : (s : ℚ) ≠ 0 := by exact_mod_cast hs
  have ht' : (t : ℚ) ≠ 0 := by exact_mod_cast ht
  unfold composedStart
  rcases Int.lt_or_gt_of_ne hs with h1 | h1 <;> rcases Int.lt_or_gt_of_ne ht with h2 | h2
  · have h3 : 0 < s * t := Int.mul_pos_of_neg_of_neg h1 h2
    have h4 : ¬ 0 < s := by omega
    have h5 : ¬ 0 < t := by omega
    simp only [sliceWcs, h1, h2, h3, h4, h5, if_true, if_false, false_and, and_self]
    push_cast
    congr 1
    · ring
    · field_simp; ring
  · have h3 : ¬ 0 < s * t := by have := Int.mul_neg_of_neg_of_pos h1 h2; omega
    have h4 : ¬ 0 < s := by omega
    have h5 : ¬ t < 0 := by omega
    simp only [sliceWcs, h1, h3, h4, h5, show 0 < t from h2, if_true, if_false, false_and, and_false]
    push_cast
    congr 1
    · ring
    · field_simp; ring
  · have h3 : ¬ 0 < s * t := by have := Int.mul_neg_of_pos_of_neg h1 h2; omega
    have h4 : ¬ s < 0 := by omega
    have h5 : ¬ 0 < t := by omega
    simp only [sliceWcs, h2, h3, h4, h5, show 0 < s from h1, if_true, if_false, and_true]
    push_cast
    congr 1
    · ring
    · field_simp; ring
  · have h3 : 0 < s * t := Int.mul_pos h1 h2
    have h4 : ¬ s < 0 := by omega
    have h5 : ¬ t < 0 := by omega
    simp only [sliceWcs, h3, h4, h5, show 0 < s from h1, show 0 < t from h2, if_true, if_false,
      and_false, false_and]
    push_cast
    congr 1
    · ring
    · field_simp; ring

/-- C03, numpy's reading: for unit steps (and for any step followed by a positive one) the composed
slice starts at numpy's composed index `a + c*s`. -/
theorem C03_compose_numpy (w : Axis) (a s c t : Int) (hs : s ≠ 0) (ht : t ≠ 0)
    (h : (s = 1 ∨ s = -1) ∨ 0 < t) :
    sliceWcs (sliceWcs w a s) c t = sliceWcs w (a + c * s) (s * t) := by
  rw [C03_compose w a s c t hs ht]
  congr 1
  unfold composedStart
  split
  · omega
  · split <;> omega

/-- Reversing twice is the identity on the geometry. -/
theorem C03_flip_flip (w : Axis) (n : Int) : sliceWcs (sliceWcs w (n-1) (-1)) (n-1) (-1) = w := by
  rw [C03_compose_numpy w _ _ _ _ (by omega) (by omega) (Or.inl (Or.inr rfl))]
  simp [sliceWcs]

example : sliceWcs (sliceWcs ⟨0, 1, 1⟩ 3 2) 4 (-1) = sliceWcs ⟨0, 1, 1⟩ 12 (-2) :=
  C03_compose ⟨0, 1, 1⟩ 3 2 4 (-1) (by decide) (by decide)

end Pixell
