import Verif.Model.PlotStamps
import Verif.Lemmas.Num
import Verif.Props.Cutout
import Mathlib.Tactic.Linarith
import Mathlib.Tactic.Ring

/-
C203: plotted stamps.
-/
namespace Pixell

/-- A box of pixels `[b.1, b.2)` of the given size whose area, from half a pixel before its first to half a pixel after its last
pixel, has the position in it, at most a pixel from its middle and never before it. -/
def StampOf (p : ℚ) (size : ℤ) (b : ℤ × ℤ) : Prop :=
  b.2 - b.1 = size ∧ (b.1 + (size - 1) / 2 : ℚ) ≤ p ∧ p ≤ b.1 + (size - 1) / 2 + 1 ∧
  (2 ≤ size → (b.1 : ℚ) - 1 / 2 ≤ p ∧ p ≤ b.2 - 1 / 2)

theorem intTrunc_intCast (k : ℤ) : intTrunc (k : ℚ) = k := by
  unfold intTrunc
  split_ifs <;> simp

theorem stampBox_corner (c size : ℤ) : stampBox c size = (c, c + size) := by
  unfold stampBox
  rw [← Int.cast_add, intTrunc_intCast, intTrunc_intCast]

theorem stampCorner_spec (p : ℚ) (size : ℤ) : StampOf p size (stampCorner p size, stampCorner p size + size) := by
  obtain ⟨h1, h2⟩ := rint_bounds (p - 1 / 2 * size)
  unfold StampOf stampCorner
  refine ⟨by ring, by linarith, by linarith, fun hs => ?_⟩
  have hs' : (2 : ℚ) ≤ size := by exact_mod_cast hs
  push_cast
  constructor <;> linarith

/-- C203: the stamps are those of the first sources of the file, in its order, as many as asked for or as there are; each has the
given number of pixels, or 16, along both axes, and the source is within it and at most one pixel from its middle. -/
theorem C203_stamps_partial (topix : ℚ × ℚ → ℚ × ℚ) (rows : List (ℚ × ℚ)) (size : Option ℤ) (nmax : Option ℕ) :
    let n := min rows.length (nmax.getD rows.length)
    let out := plotStamps topix rows size (nmax.map fun k : ℕ => (k : ℤ))
    out.length = n ∧ ∀ i ra dec, i < n → rows[i]? = some (ra, dec) → ∃ by_ bx, out[i]? = some (by_, bx) ∧
      StampOf (topix (dec, ra)).1 (size.getD 16) by_ ∧ StampOf (topix (dec, ra)).2 (size.getD 16) bx := by
  intro n out
  have e : upTo (rows.map fun r => (r.2, r.1)) (nmax.map fun k : ℕ => (k : ℤ)) = (rows.map fun r => (r.2, r.1)).take n := by
    cases nmax with
    | none => simp [upTo, n]
    | some k =>
      simp only [Option.map_some, upTo, Int.natCast_nonneg, if_true, Int.toNat_natCast, n, Option.getD_some]
      rcases le_total rows.length k with h | h
      · rw [min_eq_left h, List.take_of_length_le (by simpa using h), List.take_of_length_le (by simp)]
      · rw [min_eq_right h]
  have eo : out = ((rows.map fun r => (r.2, r.1)).take n).map fun src =>
      (stampBox (stampCorner (topix src).1 (size.getD 16)) (size.getD 16 : ℤ), stampBox (stampCorner (topix src).2 (size.getD 16)) (size.getD 16 : ℤ)) := by
    simp only [out, plotStamps, e]
  constructor
  · rw [eo]
    simp [n]
  · intro i ra dec hi hr
    refine ⟨stampBox (stampCorner (topix (dec, ra)).1 (size.getD 16)) (size.getD 16 : ℤ),
      stampBox (stampCorner (topix (dec, ra)).2 (size.getD 16)) (size.getD 16 : ℤ), ?_, ?_, ?_⟩
    · rw [eo, List.getElem?_map, List.getElem?_take_of_lt hi, List.getElem?_map, hr]
      rfl
    · rw [stampBox_corner]; exact stampCorner_spec _ _
    · rw [stampBox_corner]; exact stampCorner_spec _ _

example : plotStamps (fun p => (p.1, p.2)) [(10, 20), (31, 40), (5, 5)] (some 4) (some 2) = [((18, 22), (8, 12)), ((38, 42), (29, 33))] := by
  decide +kernel

/-- C203 refuted for stamps with a middle pixel: a source in the middle of a pixel is not in that of the stamp but in the next one if
the parity of its pixel is wrong; a stamp of one pixel is then not that of the source. -/
theorem C203_middle_refuted (p : ℤ) (m : ℕ) (h : (p - m) % 2 = 1) :
    stampBox (stampCorner p (2 * m + 1)) ((2 * m + 1 : ℤ) : ℚ) = (p - m - 1, p + m) ∧ p - m - 1 + m ≠ p := by
  have hc : stampCorner p (2 * m + 1) = p - m - 1 := by
    unfold stampCorner
    have : (p : ℚ) - 1 / 2 * ((2 * m + 1 : ℤ) : ℚ) = ((p - m - 1 : ℤ) : ℚ) + 1 / 2 := by push_cast; ring
    rw [this, rint_half, if_pos (by omega)]
  rw [hc, stampBox_corner]
  refine ⟨?_, by omega⟩
  exact Prod.ext rfl (by ring)

/-- C203: with the other parity the source is in the middle. -/
theorem C203_middle_partial (p : ℤ) (m : ℕ) (h : (p - m) % 2 = 0) :
    stampBox (stampCorner p (2 * m + 1)) ((2 * m + 1 : ℤ) : ℚ) = (p - m, p + m + 1) := by
  have hc : stampCorner p (2 * m + 1) = p - m := by
    unfold stampCorner
    have : (p : ℚ) - 1 / 2 * ((2 * m + 1 : ℤ) : ℚ) = ((p - m - 1 : ℤ) : ℚ) + 1 / 2 := by push_cast; ring
    rw [this, rint_half, if_neg (by omega)]
    ring
  rw [hc, stampBox_corner]
  exact Prod.ext rfl (by ring)

example : plotStamps (fun p => (p.1, p.2)) [(10, 11)] (some 5) none = [((8, 13), (8, 13))] ∧
    plotStamps (fun p => (p.1, p.2)) [(11, 11)] (some 1) none = [((10, 11), (10, 11))] := by decide +kernel

end Pixell
