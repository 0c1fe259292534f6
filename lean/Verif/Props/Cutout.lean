import Mathlib.Tactic.Linarith
import Mathlib.Tactic.Positivity
import Mathlib.Analysis.SpecialFunctions.Integrals.Basic
import Verif.Model.Cutout
import Verif.Lemmas.Num
import Verif.Props.Submap

/-
Property C189: cutouts are centred on their position and lie inside the map; row areas are exact.
-/
namespace Pixell

theorem rint_bounds (x : ℚ) : x - 1 / 2 ≤ rint x ∧ (rint x : ℚ) ≤ x + 1 / 2 := by
  have := abs_le.1 (rint_dist x)
  constructor <;> linarith [this.1, this.2]

/-- Rounding of halves: to the even neighbour. -/
theorem rint_half (k : ℤ) : rint ((k : ℚ) + 1 / 2) = if k % 2 = 0 then k else k + 1 := by
  have hf : ⌊(k : ℚ) + 1 / 2⌋ = k := by rw [Int.floor_eq_iff]; constructor <;> linarith
  unfold rint
  simp only [hf]
  norm_num

/-- Rounding commutes with even shifts, and with all shifts away from halves. -/
theorem rint_shift (x : ℚ) (m : ℤ) (h : 2 ∣ m ∨ Int.fract x ≠ 1 / 2) : rint (x + m) = rint x + m := by
  have hfl : ⌊x + (m : ℚ)⌋ = ⌊x⌋ + m := Int.floor_add_intCast x m
  unfold rint
  simp only [hfl]
  have e : x + (m : ℚ) - ((⌊x⌋ + m : ℤ) : ℚ) = x - ⌊x⌋ := by push_cast; ring
  rw [e]
  rcases h with h | h
  · obtain ⟨j, rfl⟩ := h
    have : (⌊x⌋ + 2 * j) % 2 = ⌊x⌋ % 2 := by omega
    rw [this]
    split_ifs <;> ring
  · have h' : x - ⌊x⌋ ≠ 1 / 2 := h
    by_cases h1 : x - ⌊x⌋ < 1 / 2
    · rw [if_pos h1, if_pos h1]
    · have h2 : 1 / 2 < x - ⌊x⌋ := lt_of_le_of_ne (not_lt.1 h1) h'.symm
      rw [if_neg h1, if_neg h1, if_pos h2, if_pos h2]; ring

/-- A position whose cutouts of npix pixels are well defined: npix is even, or the position is not half-way between pixels. -/
def CutDefined (npix : ℤ) (p : ℚ) : Prop := 2 ∣ npix ∨ Int.fract p ≠ 1 / 2

/-- A good window along an axis with n pixels around p: npix pixels of the map, with the position within half a pixel of their middle, at
least pad pixels from the lower edge, and one less from the upper one. -/
def GoodWindow (n : ℕ) (npix pad : ℤ) (p : ℚ) (w : CutWin) : Prop :=
  (w.count : ℤ) = npix ∧ pad ≤ w.first ∧ w.first + npix ≤ n - pad + 1 ∧ |((w.first : ℚ) + (npix - 1) / 2) - p| ≤ 1 / 2

theorem cutRange_size (npix : ℤ) (p : ℚ) (h : CutDefined npix p) : (cutRange p npix).2 = (cutRange p npix).1 + npix := by
  unfold cutRange
  simp only
  have e : p + (npix : ℚ) / 2 + 1 / 2 = (p - npix / 2 + 1 / 2) + npix := by ring
  rw [e]
  apply rint_shift
  by_cases h2 : 2 ∣ npix
  · exact Or.inl h2
  · right
    have hp := h.resolve_left h2
    obtain ⟨j, hj⟩ : ∃ j, npix = 2 * j + 1 := ⟨npix / 2, by omega⟩
    have : p - (npix : ℚ) / 2 + 1 / 2 = p - (j : ℤ) := by rw [hj]; push_cast; ring
    rw [this, Int.fract_sub_intCast]
    exact hp

theorem cut_window_good (n : ℕ) (npix pad : ℤ) (p : ℚ) (hpad : 1 ≤ pad) (hn : 0 ≤ npix) (hd : CutDefined npix p)
    (h : cutRefused n npix pad p = false) : GoodWindow n npix pad p (cutWindow n (cutRange p npix)) := by
  have hsz := cutRange_size npix p hd
  unfold cutRefused at h
  simp only [Bool.or_eq_false_iff, decide_eq_false_iff_not, not_lt] at h
  obtain ⟨h1, h2⟩ := h
  have a : pad ≤ (cutRange p npix).1 := h1.trans (rint_mono (by linarith))
  have b : (cutRange p npix).2 ≤ n - pad + 1 := by
    have : (cutRange p npix).2 ≤ rint ((p + npix / 2) + (1 : ℤ)) := rint_mono (by push_cast; linarith)
    by_cases hf : Int.fract (p + (npix : ℚ) / 2) = 1 / 2
    · -- the upper end is then a whole number
      have e : (p + (npix : ℚ) / 2) = ⌊p + (npix : ℚ) / 2⌋ + 1 / 2 := by
        have := Int.fract_add_floor (p + (npix : ℚ) / 2); linarith
      have e2 : p + (npix : ℚ) / 2 + 1 / 2 = ((⌊p + (npix : ℚ) / 2⌋ + 1 : ℤ) : ℚ) := by push_cast; linarith
      have e3 : (cutRange p npix).2 = ⌊p + (npix : ℚ) / 2⌋ + 1 := by
        unfold cutRange; simp only; rw [e2, rint_int]
      have e4 : ⌊p + (npix : ℚ) / 2⌋ ≤ rint (p + npix / 2) := by
        conv_rhs => rw [e]
        rw [rint_half]
        split_ifs <;> omega
      omega
    · rw [rint_shift _ _ (Or.inr hf)] at this
      omega
  have hc : ((cutRange p npix).1 : ℚ) = rint (p - npix / 2 + 1 / 2) := rfl
  have hb := rint_bounds (p - npix / 2 + 1 / 2)
  rw [← hc] at hb
  have s1 : sliceEnd n (cutRange p npix).1 = (cutRange p npix).1 := by unfold sliceEnd; rw [if_neg (by omega)]; omega
  have s2 : sliceEnd n (cutRange p npix).2 = (cutRange p npix).2 := by unfold sliceEnd; rw [if_neg (by omega)]; omega
  refine ⟨?_, ?_, ?_, ?_⟩
  · simp only [cutWindow, s1, s2]; omega
  · simp only [cutWindow, s1]; exact a
  · simp only [cutWindow, s1]; omega
  · simp only [cutWindow, s1]
    rw [abs_le]
    constructor <;> linarith [hb.1, hb.2]

/-- C189: with a padding of at least one, a cutout that is given at all has npix by npix pixels of the map, centred on the position to
half a pixel, for all even npix and for all odd ones at positions not half-way between pixels. -/
theorem C189_cutout_partial (ny nx : ℕ) (npix pad : ℤ) (iy ix : ℚ) (hpad : 1 ≤ pad) (hn : 0 ≤ npix)
    (hy : CutDefined npix iy) (hx : CutDefined npix ix) :
    cutout .map ny nx npix pad iy ix false = .nothing ∨
    ∃ wy wx, cutout .map ny nx npix pad iy ix false = .window wy wx ∧ GoodWindow ny npix pad iy wy ∧ GoodWindow nx npix pad ix wx := by
  unfold cutout
  by_cases h : (cutRefused ny npix pad iy || cutRefused nx npix pad ix) = true
  · left; rw [if_pos h]
  · right
    rw [if_neg h]
    simp only [Bool.not_eq_true, Bool.or_eq_false_iff] at h
    exact ⟨_, _, rfl, cut_window_good ny npix pad iy hpad hn hy h.1, cut_window_good nx npix pad ix hpad hn hx h.2⟩

/-- C189: a cutout is given whenever the position is at least half of npix, the padding and half a pixel from all edges. -/
theorem C189_given (ny nx : ℕ) (npix pad : ℤ) (iy ix : ℚ)
    (h : ∀ a ∈ [(iy, ny), (ix, nx)], (pad : ℚ) + npix / 2 - 1 / 2 < a.1 ∧ a.1 < a.2 - pad - npix / 2 + 1 / 2) :
    cutout .map ny nx npix pad iy ix false =
      .window (cutWindow ny (cutRange iy npix)) (cutWindow nx (cutRange ix npix)) := by
  have key : ∀ a ∈ [(iy, ny), (ix, nx)], cutRefused a.2 npix pad a.1 = false := by
    intro a ha
    obtain ⟨h1, h2⟩ := h a ha
    have b1 := rint_bounds (a.1 - npix / 2)
    have b2 := rint_bounds (a.1 + npix / 2)
    unfold cutRefused
    simp only [Bool.or_eq_false_iff, decide_eq_false_iff_not, not_lt]
    constructor
    · have : ((pad - 1 : ℤ) : ℚ) < rint (a.1 - npix / 2) := by push_cast; linarith [b1.1]
      have := Int.cast_lt.1 this
      omega
    · have : (rint (a.1 + npix / 2) : ℚ) < (((a.2 : ℤ) - pad + 1 : ℤ) : ℚ) := by push_cast; linarith [b2.2]
      have := Int.cast_lt.1 this
      omega
  unfold cutout
  rw [key (iy, ny) (by simp), key (ix, nx) (by simp)]
  rfl

example : cutout .map 20 20 4 1 (41/4) 9 false = .window ⟨9, 4⟩ ⟨8, 4⟩ := by decide +kernel
example : CutDefined 4 (41/4) ∧ CutDefined 5 9 := by
  refine ⟨Or.inl (by norm_num), Or.inr ?_⟩
  have : Int.fract (9 : ℚ) = 0 := by exact_mod_cast Int.fract_natCast (R := ℚ) 9
  rw [this]; norm_num

/-- C189 fails: half-way between pixels, every odd number of pixels gives one more or one fewer. -/
theorem C189_odd_refuted (c j : ℤ) : (cutRange ((c : ℚ) + 1 / 2) (2 * j + 1)).2 - (cutRange ((c : ℚ) + 1 / 2) (2 * j + 1)).1 =
    if (c - j) % 2 = 0 then 2 * j + 1 + 1 else 2 * j + 1 - 1 := by
  unfold cutRange
  simp only
  have e1 : (c : ℚ) + 1 / 2 - ((2 * j + 1 : ℤ) : ℚ) / 2 + 1 / 2 = ((c - j : ℤ) : ℚ) + 1 / 2 := by push_cast; ring
  have e2 : (c : ℚ) + 1 / 2 + ((2 * j + 1 : ℤ) : ℚ) / 2 + 1 / 2 = ((c + j + 1 : ℤ) : ℚ) + 1 / 2 := by push_cast; ring
  rw [e1, e2, rint_half, rint_half]
  split_ifs <;> omega

example : cutout .map 20 20 3 1 (21/2) (19/2) false = .window ⟨10, 2⟩ ⟨8, 4⟩ := by decide +kernel

/-- C189 fails: for every padding and even size there is an accepted position whose cutout ends closer than the padding to the upper
edge; without padding it is cut off, and has a row too few. -/
theorem C189_pad_refuted (n : ℕ) (m pad : ℤ) (hm : 1 ≤ m) (hpad : 0 ≤ pad) (hn : 2 * m + 2 * pad ≤ n) : ∃ p : ℚ,
    cutRefused n (2 * m) pad p = false ∧ (cutRange p (2 * m)).2 = n - pad + 1 ∧
    (pad = 0 → ((cutWindow n (cutRange p (2 * m))).count : ℤ) = 2 * m - 1) := by
  refine ⟨(n : ℚ) - pad - m + 1 / 4, ?_, ?_⟩
  · have e1 : rint ((n : ℚ) - pad - m + 1 / 4 - ((2 * m : ℤ) : ℚ) / 2) = n - pad - 2 * m :=
      rint_eq_of_lt (by push_cast; rw [abs_lt]; constructor <;> linarith)
    have e2 : rint ((n : ℚ) - pad - m + 1 / 4 + ((2 * m : ℤ) : ℚ) / 2) = n - pad :=
      rint_eq_of_lt (by push_cast; rw [abs_lt]; constructor <;> linarith)
    unfold cutRefused
    rw [e1, e2]
    simp only [Bool.or_eq_false_iff, decide_eq_false_iff_not, not_lt]
    constructor <;> omega
  · have e1 : rint ((n : ℚ) - pad - m + 1 / 4 - ((2 * m : ℤ) : ℚ) / 2 + 1 / 2) = n - pad - 2 * m + 1 :=
      rint_eq_of_lt (by push_cast; rw [abs_lt]; constructor <;> linarith)
    have e2 : rint ((n : ℚ) - pad - m + 1 / 4 + ((2 * m : ℤ) : ℚ) / 2 + 1 / 2) = n - pad + 1 :=
      rint_eq_of_lt (by push_cast; rw [abs_lt]; constructor <;> linarith)
    refine ⟨by unfold cutRange; exact e2, fun h0 => ?_⟩
    subst h0
    simp only [cutWindow, cutRange, e1, e2]
    unfold sliceEnd
    split_ifs <;> omega

example : cutout .map 10 10 4 0 (33/4) 5 false = .window ⟨7, 3⟩ ⟨4, 4⟩ ∨ cutout .map 10 10 4 0 (33/4) 5 false = .window ⟨7, 3⟩ ⟨3, 4⟩ := by
  decide +kernel

/-- C189 fails: for every padding and even size there is a position whose cutout keeps the padding but is refused. -/
theorem C189_near_refuted (n : ℕ) (m pad : ℤ) (hn : 2 * m + 2 * pad ≤ n) : ∃ p : ℚ,
    cutRefused n (2 * m) pad p = true ∧ pad ≤ (cutRange p (2 * m)).1 ∧ (cutRange p (2 * m)).2 ≤ n - pad := by
  refine ⟨(pad : ℚ) + m - 3 / 4, ?_, ?_⟩
  · have e1 : rint ((pad : ℚ) + m - 3 / 4 - ((2 * m : ℤ) : ℚ) / 2) = pad - 1 :=
      rint_eq_of_lt (by push_cast; rw [abs_lt]; constructor <;> linarith)
    unfold cutRefused
    rw [e1]
    simp
  · have e1 : rint ((pad : ℚ) + m - 3 / 4 - ((2 * m : ℤ) : ℚ) / 2 + 1 / 2) = pad :=
      rint_eq_of_lt (by push_cast; rw [abs_lt]; constructor <;> linarith)
    have e2 : rint ((pad : ℚ) + m - 3 / 4 + ((2 * m : ℤ) : ℚ) / 2 + 1 / 2) = pad + 2 * m :=
      rint_eq_of_lt (by push_cast; rw [abs_lt]; constructor <;> linarith)
    simp only [cutRange, e1, e2]
    constructor <;> omega

/-- C189 fails for maps given by their path: whenever a map would give a cutout, the path raises. -/
theorem C189_path_refuted (ny nx : ℕ) (npix pad : ℤ) (iy ix : ℚ) (wy wx : CutWin)
    (h : cutout .map ny nx npix pad iy ix false = .window wy wx) : cutout .path ny nx npix pad iy ix false = .raised := by
  unfold cutout at h ⊢
  split_ifs at h ⊢
  simp_all

/-! ### Areas -/

/-- The solid angle of a pixel of width cx between two declinations: the integral of the cosine over the part that is on the sky. -/
noncomputable def skyArea (cx lo hi : ℝ) : ℝ := ∫ d in (max lo (-Real.pi / 2))..(min hi (Real.pi / 2)), cx * Real.cos d

/-- C189: for maps whose declination grows with the row, every row that touches the sky gets the exact solid angle of the part of
its pixels on the sky. -/
theorem C189_area_partial (d0 dd cx y : ℝ) (hd : 0 < dd) (hc : 0 ≤ cx) (hlo : -Real.pi / 2 ≤ rowDec d0 dd (y + 1 / 2))
    (hhi : rowDec d0 dd (y - 1 / 2) ≤ Real.pi / 2) :
    rectArea d0 dd cx y = skyArea cx (rowDec d0 dd (y - 1 / 2)) (rowDec d0 dd (y + 1 / 2)) := by
  have hpi := Real.pi_pos
  have mono : ∀ a b : ℝ, a ≤ b → rowDec d0 dd a ≤ rowDec d0 dd b := by
    intro a b h; unfold rowDec; nlinarith
  have inv : ∀ d, rowDec d0 dd (decRow d0 dd d) = d := by
    intro d; unfold rowDec decRow; field_simp; ring
  have hmax : ∀ a b : ℝ, rowDec d0 dd (max a b) = max (rowDec d0 dd a) (rowDec d0 dd b) :=
    fun a b => (Monotone.map_max (fun _ _ h => mono _ _ h))
  have hmin : ∀ a b : ℝ, rowDec d0 dd (min a b) = min (rowDec d0 dd a) (rowDec d0 dd b) :=
    fun a b => (Monotone.map_min (fun _ _ h => mono _ _ h))
  have hlt : rowDec d0 dd (y - 1 / 2) ≤ rowDec d0 dd (y + 1 / 2) := mono _ _ (by linarith)
  unfold rectArea skyArea
  simp only [hmax, hmin, inv]
  rw [intervalIntegral.integral_const_mul, integral_cos, max_comm (-Real.pi / 2), min_comm (Real.pi / 2), mul_comm]
  rw [abs_of_nonneg]
  apply mul_nonneg hc
  rw [sub_nonneg]
  apply Real.sin_le_sin_of_le_of_le_pi_div_two
  · have := le_max_right (rowDec d0 dd (y - 1 / 2)) (-Real.pi / 2); linarith
  · exact min_le_right _ _
  · exact le_min (max_le hlt hlo) (max_le hhi (by linarith))

theorem rectArea_pos (d0 dd cx y : ℝ) (hd : 0 < dd) (hc : 0 ≤ cx) (hlo : -Real.pi / 2 ≤ rowDec d0 dd (y + 1 / 2))
    (hhi : rowDec d0 dd (y - 1 / 2) ≤ Real.pi / 2) :
    rectArea d0 dd cx y = cx * (Real.sin (min (rowDec d0 dd (y + 1 / 2)) (Real.pi / 2)) -
      Real.sin (max (rowDec d0 dd (y - 1 / 2)) (-Real.pi / 2))) := by
  rw [C189_area_partial d0 dd cx y hd hc hlo hhi, skyArea, intervalIntegral.integral_const_mul, integral_cos]

/-- C189: the pixels of a map that covers the sky once have the area 4π together, whatever the size and place of its rows. -/
theorem C189_total (d0 dd cx : ℝ) (ny nx : ℕ) (hd : 0 < dd) (hc : 0 ≤ cx) (hnx : nx * cx = 2 * Real.pi)
    (h1 : rowDec d0 dd (-1 / 2) ≤ -Real.pi / 2) (h2 : -Real.pi / 2 ≤ rowDec d0 dd (1 / 2))
    (h3 : rowDec d0 dd ((ny : ℝ) - 3 / 2) ≤ Real.pi / 2) (h4 : Real.pi / 2 ≤ rowDec d0 dd ((ny : ℝ) - 1 / 2)) :
    ∑ y ∈ Finset.range ny, nx * rectArea d0 dd cx y = 4 * Real.pi := by
  have hpi := Real.pi_pos
  have mono : ∀ a b : ℝ, a ≤ b → rowDec d0 dd a ≤ rowDec d0 dd b := by
    intro a b h; unfold rowDec; nlinarith
  let f : ℕ → ℝ := fun k => Real.sin (max (min (rowDec d0 dd ((k : ℝ) - 1 / 2)) (Real.pi / 2)) (-Real.pi / 2))
  have row : ∀ y ∈ Finset.range ny, nx * rectArea d0 dd cx y = 2 * Real.pi * (f (y + 1) - f y) := by
    intro y hy
    have hy' : y + 1 ≤ ny := Finset.mem_range.1 hy
    have hyR : (y : ℝ) + 1 ≤ ny := by exact_mod_cast hy'
    have hy0 : (0 : ℝ) ≤ y := Nat.cast_nonneg y
    have a : -Real.pi / 2 ≤ rowDec d0 dd ((y : ℝ) + 1 / 2) := h2.trans (mono _ _ (by linarith))
    have b : rowDec d0 dd ((y : ℝ) - 1 / 2) ≤ Real.pi / 2 := (mono _ _ (by linarith)).trans h3
    rw [rectArea_pos d0 dd cx y hd hc a b, ← mul_assoc, hnx]
    have e1 : f (y + 1) = Real.sin (min (rowDec d0 dd ((y : ℝ) + 1 / 2)) (Real.pi / 2)) := by
      simp only [f]
      push_cast
      rw [show (y : ℝ) + 1 - 1 / 2 = y + 1 / 2 by ring, max_eq_left (le_min a (by linarith))]
    have e2 : f y = Real.sin (max (rowDec d0 dd ((y : ℝ) - 1 / 2)) (-Real.pi / 2)) := by
      simp only [f]; rw [min_eq_left b]
    rw [e1, e2]
  rw [Finset.sum_congr rfl row, ← Finset.mul_sum, Finset.sum_range_sub]
  have e0 : f 0 = -1 := by
    simp only [f]
    have h0 : rowDec d0 dd (((0 : ℕ) : ℝ) - 1 / 2) ≤ -Real.pi / 2 := by
      rw [show (((0 : ℕ) : ℝ) - 1 / 2) = -1 / 2 by norm_num]; exact h1
    rw [max_eq_right ((min_le_left _ _).trans h0), show -Real.pi / 2 = -(Real.pi / 2) by ring, Real.sin_neg, Real.sin_pi_div_two]
  have en : f ny = 1 := by
    simp only [f]
    rw [min_eq_right h4, max_eq_left (by linarith), Real.sin_pi_div_two]
  rw [e0, en]
  ring

/-- The full sky in two rows. -/
example : rowDec (-Real.pi / 4) (Real.pi / 2) (-1 / 2) ≤ -Real.pi / 2 ∧ -Real.pi / 2 ≤ rowDec (-Real.pi / 4) (Real.pi / 2) (1 / 2) ∧
    rowDec (-Real.pi / 4) (Real.pi / 2) (((2 : ℕ) : ℝ) - 3 / 2) ≤ Real.pi / 2 ∧
    Real.pi / 2 ≤ rowDec (-Real.pi / 4) (Real.pi / 2) (((2 : ℕ) : ℝ) - 1 / 2) := by
  have := Real.pi_pos
  unfold rowDec
  norm_num
  refine ⟨?_, ?_, ?_, ?_⟩ <;> linarith

/-- C189 fails for maps whose declination falls with the row: every row on the sky gets the area of the strip of the whole sky, from pole
to pole. -/
theorem C189_falling_refuted (d0 dd cx y : ℝ) (hd : dd < 0) (hc : 0 ≤ cx) (hlo : -Real.pi / 2 ≤ rowDec d0 dd (y - 1 / 2))
    (hhi : rowDec d0 dd (y + 1 / 2) ≤ Real.pi / 2) : rectArea d0 dd cx y = 2 * cx := by
  have inv : ∀ d, rowDec d0 dd (decRow d0 dd d) = d := by
    intro d; unfold rowDec decRow; field_simp [hd.ne]; ring
  have a : y - 1 / 2 ≤ decRow d0 dd (-Real.pi / 2) := by
    unfold decRow; unfold rowDec at hlo; rw [le_div_iff_of_neg hd]; linarith
  have b : decRow d0 dd (Real.pi / 2) ≤ y + 1 / 2 := by
    unfold decRow; unfold rowDec at hhi; rw [div_le_iff_of_neg hd]; linarith
  unfold rectArea
  simp only [max_eq_left a, min_eq_left b, inv]
  rw [show -Real.pi / 2 = -(Real.pi / 2) by ring, Real.sin_neg, Real.sin_pi_div_two, abs_of_nonneg (by linarith)]
  ring

/-- C189 fails for rows beyond a pole: they get an area, although none of it is on the sky. -/
theorem C189_beyond_refuted (d0 dd cx y : ℝ) (hd : 0 < dd) (hc : 0 < cx) (hlo : Real.pi / 2 < rowDec d0 dd (y - 1 / 2))
    (hhi : rowDec d0 dd (y - 1 / 2) ≤ 3 * Real.pi / 2) : 0 < rectArea d0 dd cx y := by
  have hpi := Real.pi_pos
  have inv : ∀ d, rowDec d0 dd (decRow d0 dd d) = d := by
    intro d; unfold rowDec decRow; field_simp; ring
  have a : decRow d0 dd (-Real.pi / 2) ≤ y - 1 / 2 := by
    unfold decRow; unfold rowDec at hlo; rw [div_le_iff₀ hd]; linarith
  have b : decRow d0 dd (Real.pi / 2) ≤ y + 1 / 2 := by
    unfold decRow; unfold rowDec at hlo; rw [div_le_iff₀ hd]; nlinarith
  unfold rectArea
  simp only [max_eq_right a, min_eq_left b, inv, Real.sin_pi_div_two]
  apply abs_pos.2
  have hs : Real.sin (rowDec d0 dd (y - 1 / 2)) < 1 := by
    have e : Real.sin (rowDec d0 dd (y - 1 / 2)) = Real.cos (rowDec d0 dd (y - 1 / 2) - Real.pi / 2) := by
      rw [Real.cos_sub_pi_div_two]
    rw [e]
    conv_rhs => rw [← Real.cos_zero]
    exact Real.cos_lt_cos_of_nonneg_of_le_pi (le_refl 0) (by linarith) (by linarith)
  exact (mul_pos (by linarith) hc).ne'

example : Real.pi / 2 < rowDec 0 Real.pi (3 / 2 - 1 / 2) ∧ rowDec 0 Real.pi (3 / 2 - 1 / 2) ≤ 3 * Real.pi / 2 := by
  have := Real.pi_pos
  unfold rowDec
  norm_num
  constructor <;> linarith

end Pixell
