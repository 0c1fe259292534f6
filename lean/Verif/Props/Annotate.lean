import Verif.Model.Annotate
import Verif.Props.Angles
import Mathlib.Tactic.Linarith

/-
C198: annotations are drawn where they belong.
-/
namespace Pixell

/-- C198: an annotation is skipped exactly if no pixel of the image is nearer than `rmax` to it in both directions. -/
theorem C198_skip (rmax : ℤ) (hr : 0 < rmax) (nx ny : Nat) (hx : 0 < nx) (hy : 0 < ny) (x y : ℤ) :
    skippable rmax nx ny x y = true ↔
      ¬ ∃ px py : ℤ, (0 ≤ px ∧ px < nx) ∧ (0 ≤ py ∧ py < ny) ∧ |px - x| < rmax ∧ |py - y| < rmax := by
  simp only [skippable, if_neg hr.ne', Bool.or_eq_true, decide_eq_true_eq]
  constructor
  · rintro h ⟨px, py, h1, h2, h3, h4⟩
    rw [abs_lt] at h3 h4
    omega
  · intro h
    by_contra hc
    apply h
    refine ⟨max 0 (min x (nx - 1)), max 0 (min y (ny - 1)), ?_, ?_, ?_, ?_⟩
    · omega
    · omega
    · rw [abs_lt]; omega
    · rw [abs_lt]; omega

example : skippable 3 10 10 (-3) 5 = true ∧ skippable 3 10 10 11 5 = false ∧ skippable 0 10 10 (-100) 5 = false := by decide +kernel

/-- C198: annotations are drawn less than a pixel from where they belong. -/
theorem C198_pixel_partial (q : ℚ) : |(annotPix q : ℚ) - q| < 1 := by
  unfold annotPix
  split
  · have h1 := Int.floor_le q
    have h2 := Int.lt_floor_add_one q
    rw [abs_lt]; constructor <;> linarith
  · have h1 := Int.le_ceil q
    have h2 := Int.ceil_lt_add_one q
    rw [abs_lt]; constructor <;> linarith

example : annotPix (37/10) = 3 ∧ annotPix (-37/10) = -3 := by decide +kernel

/-- C198, refuted: they are not drawn at the nearest pixel, but always on the side of the first one if they are in the second half of a
pixel; and everything up to a whole pixel outside the map is drawn on its first row or column. -/
theorem C198_pixel_refuted (n : ℕ) (f : ℚ) (h1 : 1 / 2 < f) (h2 : f < 1) :
    annotPix (n + f) = n ∧ |((n : ℤ) + 1 : ℚ) - (n + f)| < |(annotPix (n + f) : ℚ) - (n + f)| ∧ annotPix (-f) = 0 := by
  have e : annotPix (n + f) = n := by
    unfold annotPix
    rw [if_pos (by positivity), Int.floor_eq_iff]
    push_cast
    constructor <;> linarith
  refine ⟨e, ?_, ?_⟩
  · rw [e]
    push_cast
    rw [show (n : ℚ) + 1 - (n + f) = 1 - f by ring, show (n : ℚ) - (n + f) = -f by ring, abs_neg, abs_of_pos (by linarith), abs_of_pos (by linarith)]
    linarith
  · unfold annotPix
    rw [if_neg (by linarith), Int.ceil_eq_iff]
    push_cast
    constructor <;> linarith

/-- C198: lines.  Both ends are moved by the same number of turns, namely so that the first one is less than one turn right of the
first column, if they are less than half a turn apart. -/
theorem C198_line (nphi : ℤ) (hn : 0 < nphi) (x1 x2 : ℤ) (h : 2 * |x2 - x1| < nphi) :
    ∃ k : ℤ, lineEnds nphi x1 x2 = [((x1 + k * nphi : ℤ) : ℚ), ((x2 + k * nphi : ℤ) : ℚ)] ∧ 0 ≤ x1 + k * nphi ∧ x1 + k * nphi < nphi := by
  have hp : (0 : ℚ) < nphi := by exact_mod_cast hn
  obtain ⟨a1, a2, k1, e1⟩ := C18_rewind (x1 : ℚ) ((nphi / 2 : ℤ) : ℚ) hp
  obtain ⟨b1, b2, k2, e2⟩ := C18_rewind (x2 : ℚ) ((nphi / 2 : ℤ) : ℚ) hp
  have hr : rint ((rewind (x2 : ℚ) ((nphi / 2 : ℤ) : ℚ) nphi - rewind (x1 : ℚ) ((nphi / 2 : ℤ) : ℚ) nphi) / nphi) = k2 - k1 := by
    have : (rewind (x2 : ℚ) ((nphi / 2 : ℤ) : ℚ) nphi - rewind (x1 : ℚ) ((nphi / 2 : ℤ) : ℚ) nphi) / nphi =
        ((x2 - x1 : ℤ) : ℚ) / nphi + ((k2 - k1 : ℤ) : ℚ) := by
      rw [e1, e2]; push_cast; field_simp; ring
    rw [this]
    have hlt : |((x2 - x1 : ℤ) : ℚ) / nphi| < 1 / 2 := by
      rw [abs_div, abs_of_pos hp, div_lt_iff₀ hp]
      have : (2 * |x2 - x1| : ℚ) < nphi := by exact_mod_cast h
      rw [← Int.cast_abs]
      linarith
    rw [abs_lt] at hlt
    unfold rint
    simp only
    rcases le_or_gt 0 (((x2 - x1 : ℤ) : ℚ) / nphi) with h0 | h0
    · have hf : ⌊((x2 - x1 : ℤ) : ℚ) / nphi + ((k2 - k1 : ℤ) : ℚ)⌋ = k2 - k1 := by
        rw [Int.floor_eq_iff]; constructor <;> linarith
      rw [hf, if_pos (by linarith)]
    · have hf : ⌊((x2 - x1 : ℤ) : ℚ) / nphi + ((k2 - k1 : ℤ) : ℚ)⌋ = k2 - k1 - 1 := by
        rw [Int.floor_eq_iff]; push_cast; push_cast at hlt h0; constructor <;> linarith
      rw [hf, if_neg (by push_cast; push_cast at hlt h0; linarith), if_pos (by push_cast; push_cast at hlt h0; linarith)]
      ring
  refine ⟨k1, ?_, ?_, ?_⟩
  · simp only [lineEnds, unwind, Bool.false_eq_true, if_false, List.map_cons, List.map_nil, unwindLeft, diffs, npCumsum, List.zipWith_cons_cons,
      List.zipWith_nil_left, zero_add]
    rw [hr, e1, e2]
    push_cast
    congr 2
    ring
  · rw [e1] at a1 a2
    have h2 : ((nphi / 2 : ℤ) : ℚ) * 2 ≥ nphi - 1 := by
      have : nphi / 2 * 2 ≥ nphi - 1 := by omega
      exact_mod_cast this
    have : (-1 : ℚ) < ((x1 + k1 * nphi : ℤ) : ℚ) := by push_cast; linarith
    have : (-1 : ℤ) < x1 + k1 * nphi := by exact_mod_cast this
    omega
  · rw [e1] at a1 a2
    have h2 : ((nphi / 2 : ℤ) : ℚ) * 2 ≤ nphi := by
      have : nphi / 2 * 2 ≤ nphi := by omega
      exact_mod_cast this
    have : ((x1 + k1 * nphi : ℤ) : ℚ) < nphi := by push_cast; linarith
    exact_mod_cast this

example : lineEnds 360 5 (-10) = [5, -10] ∧ lineEnds 360 350 370 = [350, 370] := by decide +kernel

/-- C198, refuted: a line that begins left of the map is moved one turn to the right.  If the map is so narrow that it does
not reach there, no column of it is crossed by the line that is drawn, although the line should end in it. -/
theorem C198_left_refuted (nphi : ℤ) (hn : 0 < nphi) (nx : Nat) (x1 x2 : ℤ) (h : 2 * |x2 - x1| < nphi) (h1 : x1 < 0)
    (_ : 0 ≤ x2 ∧ x2 < nx) (hw : nx ≤ x1 + nphi) :
    lineEnds nphi x1 x2 = [((x1 + nphi : ℤ) : ℚ), ((x2 + nphi : ℤ) : ℚ)] ∧
    ∀ px : ℤ, 0 ≤ px → px < nx → px < x1 + nphi ∧ px < x2 + nphi := by
  obtain ⟨k, e, a, b⟩ := C198_line nphi hn x1 x2 h
  have hk : k = 1 := by
    have h3 : 0 < k := by by_contra hc; nlinarith
    have h4 : k < 2 := by by_contra hc; nlinarith
    omega
  subst hk
  refine ⟨by simpa using e, fun px hp1 hp2 => ⟨by omega, by omega⟩⟩

/-- A line from column -5 to column 20 of a map of 100 columns of half a degree. -/
example : lineEnds 720 (-5) 20 = [715, 740] := by decide +kernel

/-- C198, refuted for maps without coordinates, whose pixels count as degrees: a line that begins between columns 360 and 720 is drawn 360 columns
too far to the left. -/
theorem C198_plain_refuted (x1 x2 : ℤ) (h : 2 * |x2 - x1| < 360) (h1 : 360 ≤ x1) (h2 : x1 < 720) :
    lineEnds (turnPixels 1) x1 x2 = [((x1 - 360 : ℤ) : ℚ), ((x2 - 360 : ℤ) : ℚ)] := by
  have ht : turnPixels 1 = 360 := by decide +kernel
  rw [ht]
  obtain ⟨k, e, a, b⟩ := C198_line 360 (by norm_num) x1 x2 h
  have hk : k = -1 := by omega
  subst hk
  rw [e]
  norm_num
  constructor <;> ring

example : lineEnds (turnPixels 1) 400 450 = [40, 90] := by decide +kernel

/-- C198: rectangles.  Whatever the order of the corners, a pixel is painted exactly if it is in the rectangle and less than `width` pixels from
its edge, if the rectangle is at least twice as thick as its lines (less one). -/
theorem C198_rect_partial (width : Nat) (x1 y1 x2 y2 : ℤ) (hx : 2 * (width : ℤ) ≤ |x2 - x1| + 2) (hy : 2 * (width : ℤ) ≤ |y2 - y1| + 2) :
    ∃ f, drawRect width x1 y1 x2 y2 = some f ∧ ∀ x y : ℤ, f x y = true ↔
      (min x1 x2 ≤ x ∧ x ≤ max x1 x2 ∧ min y1 y2 ≤ y ∧ y ≤ max y1 y2) ∧
      (x - min x1 x2 < width ∨ max x1 x2 - x < width ∨ y - min y1 y2 < width ∨ max y1 y2 - y < width) := by
  have key : ∀ a b c d : ℤ, a ≤ c → b ≤ d → 2 * (width : ℤ) ≤ c - a + 2 → 2 * (width : ℤ) ≤ d - b + 2 →
      ((List.range width).all fun i => decide (a + (i : ℤ) ≤ c - i) && decide (b + (i : ℤ) ≤ d - i)) = true ∧
      ∀ x y : ℤ, ((List.range width).any fun i => onOutline (a + i) (b + i) (c - i) (d - i) x y) = true ↔
        (a ≤ x ∧ x ≤ c ∧ b ≤ y ∧ y ≤ d) ∧ (x - a < width ∨ c - x < width ∨ y - b < width ∨ d - y < width) := by
    intro a b c d hac hbd h1 h2
    refine ⟨?_, fun x y => ?_⟩
    · rw [List.all_eq_true]
      intro i hi
      have := List.mem_range.1 hi
      simp only [Bool.and_eq_true, decide_eq_true_eq]
      omega
    · rw [List.any_eq_true]
      simp only [onOutline, Bool.and_eq_true, Bool.or_eq_true, decide_eq_true_eq, beq_iff_eq, List.mem_range]
      constructor
      · rintro ⟨i, hi, h⟩
        omega
      · rintro ⟨h, h'⟩
        refine ⟨(min (min (x - a) (c - x)) (min (y - b) (d - y))).toNat, ?_, ?_⟩ <;> omega
  unfold drawRect
  rcases lt_or_ge x2 x1 with h1 | h1 <;> rcases lt_or_ge y2 y1 with h2 | h2
  · obtain ⟨p, q⟩ := key x2 y2 x1 y1 h1.le h2.le (by rw [abs_of_neg (by omega)] at hx; omega) (by rw [abs_of_neg (by omega)] at hy; omega)
    simp only [if_pos h1, if_pos h2, p, if_true]
    refine ⟨_, rfl, fun x y => ?_⟩
    rw [q, min_eq_right h1.le, max_eq_left h1.le, min_eq_right h2.le, max_eq_left h2.le]
  · obtain ⟨p, q⟩ := key x2 y1 x1 y2 h1.le h2 (by rw [abs_of_neg (by omega)] at hx; omega) (by rw [abs_of_nonneg (by omega)] at hy; omega)
    simp only [if_pos h1, if_neg (not_lt.2 h2), p, if_true]
    refine ⟨_, rfl, fun x y => ?_⟩
    rw [q, min_eq_right h1.le, max_eq_left h1.le, min_eq_left h2, max_eq_right h2]
  · obtain ⟨p, q⟩ := key x1 y2 x2 y1 h1 h2.le (by rw [abs_of_nonneg (by omega)] at hx; omega) (by rw [abs_of_neg (by omega)] at hy; omega)
    simp only [if_neg (not_lt.2 h1), if_pos h2, p, if_true]
    refine ⟨_, rfl, fun x y => ?_⟩
    rw [q, min_eq_left h1, max_eq_right h1, min_eq_right h2.le, max_eq_left h2.le]
  · obtain ⟨p, q⟩ := key x1 y1 x2 y2 h1 h2 (by rw [abs_of_nonneg (by omega)] at hx; omega) (by rw [abs_of_nonneg (by omega)] at hy; omega)
    simp only [if_neg (not_lt.2 h1), if_neg (not_lt.2 h2), p, if_true]
    refine ⟨_, rfl, fun x y => ?_⟩
    rw [q, min_eq_left h1, max_eq_right h1, min_eq_left h2, max_eq_right h2]

example : ((drawRect 2 10 0 0 5).map fun f => (f 1 3, f 2 2, f 9 4, f 11 3)) = some (true, false, true, false) := by decide +kernel

/-- C198, refuted for rectangles thinner than their lines: they stop the plot. -/
theorem C198_thin_refuted (width : Nat) (x1 y1 x2 y2 : ℤ) (hw : 0 < width) (hx : |x2 - x1| + 2 < 2 * (width : ℤ)) :
    drawRect width x1 y1 x2 y2 = none := by
  have key : ∀ a b c d : ℤ, c - a + 2 < 2 * (width : ℤ) →
      ((List.range width).all fun i => decide (a + (i : ℤ) ≤ c - i) && decide (b + (i : ℤ) ≤ d - i)) = false := by
    intro a b c d h
    by_contra hc
    rw [Bool.not_eq_false, List.all_eq_true] at hc
    have := hc (width - 1) (List.mem_range.2 (by omega))
    simp only [Bool.and_eq_true, decide_eq_true_eq] at this
    omega
  have habs := abs_le.1 (show |x2 - x1| ≤ |x2 - x1| from le_rfl)
  unfold drawRect
  rcases lt_or_ge x2 x1 with h1 | h1
  · simp only [if_pos h1, key x2 _ x1 _ (by omega), Bool.false_eq_true, if_false]
  · simp only [if_neg (not_lt.2 h1), key x1 _ x2 _ (by omega), Bool.false_eq_true, if_false]

/-- A point marked as a rectangle, with lines of the default width. -/
example : (drawRect 2 7 7 7 7).isNone = true := by decide +kernel

end Pixell
