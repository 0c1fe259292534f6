import Verif.Model.PixArea
import Mathlib.Analysis.SpecialFunctions.Integrals.Basic
import Mathlib.Tactic.FieldSimp
import Mathlib.Tactic.Linarith

/-
Property C125: the area of a map is that of the part of the sphere between its edges, the areas of its pixels add up to it, and
the product of the sides of a map or pixel is its area.
-/
namespace Pixell

/-- The area of the part of the unit sphere between two declinations and two right ascensions that differ by `w`. -/
noncomputable def sphereArea (lo hi w : ℝ) : ℝ := w * ∫ d in lo..hi, Real.cos d

theorem sphereArea_eq (lo hi w : ℝ) : sphereArea lo hi w = w * (Real.sin hi - Real.sin lo) := by
  unfold sphereArea; rw [integral_cos]

theorem pyMaxNan_some (a b : ℝ) : pyMaxNan a (some b) = max b a := by
  unfold pyMaxNan; simp only; split_ifs with h
  · rw [max_eq_left h.le]
  · rw [max_eq_right (not_lt.mp h)]

theorem pyMinNan_some (a b : ℝ) : pyMinNan a (some b) = min b a := by
  unfold pyMinNan; simp only; split_ifs with h
  · rw [min_eq_left h.le]
  · rw [min_eq_right (not_lt.mp h)]

theorem npSort2_some (a b : ℝ) : npSort2 (some a) (some b) = (some (min a b), some (max a b)) := by
  unfold npSort2; simp only; split_ifs with h
  · rw [min_eq_left h, max_eq_right h]
  · have := (not_le.mp h).le
    rw [min_eq_right this, max_eq_left this]

theorem pi_half_lt : -Real.pi / 2 < Real.pi / 2 := by linarith [Real.pi_pos]

theorem clipDec_bounds (d : ℝ) : -Real.pi / 2 ≤ clipDec d ∧ clipDec d ≤ Real.pi / 2 :=
  ⟨le_min (le_max_right _ _) pi_half_lt.le, min_le_right _ _⟩

theorem clipDec_mono {a b : ℝ} (h : a ≤ b) : clipDec a ≤ clipDec b := min_le_min_right _ (max_le_max_right _ h)

theorem clipDec_lt {a b : ℝ} (h : a < b) (ha : a < Real.pi / 2) (hb : -Real.pi / 2 < b) : clipDec a < clipDec b := by
  unfold clipDec
  have := pi_half_lt
  rw [min_eq_left (max_le ha.le this.le)]
  exact lt_min (max_lt (lt_max_of_lt_left h) (lt_max_of_lt_left hb)) (max_lt ha this)

theorem sin_clipDec_mono {a b : ℝ} (h : a ≤ b) : Real.sin (clipDec a) ≤ Real.sin (clipDec b) :=
  Real.sin_le_sin_of_le_of_le_pi_div_two (by linarith [(clipDec_bounds a).1]) (clipDec_bounds b).2 (clipDec_mono h)

/-- What area_cyl computes when both edges are valid. -/
theorem areaCyl_eq (d : Nat → ℝ) (dra : ℝ) (ny nx : Nat) (hlo : min (d 0) (d ny) ≤ Real.pi / 2) (hhi : -Real.pi / 2 ≤ max (d 0) (d ny)) :
    areaCyl (fun k => some (d k)) dra ny nx =
      (Real.sin (clipDec (max (d 0) (d ny))) - Real.sin (clipDec (min (d 0) (d ny)))) * |dra| * nx := by
  unfold areaCyl
  simp only [npSort2_some, pyMaxNan_some, pyMinNan_some]
  unfold clipDec
  rw [max_eq_left hhi, min_eq_left (max_le hlo pi_half_lt.le)]

/-- C125: the area of a map whose rows run up or down is that of the part of the sphere between its edges, if part of it is on the
sphere. -/
theorem C125_area (d : Nat → ℝ) (dra : ℝ) (ny nx : Nat) (hlo : min (d 0) (d ny) ≤ Real.pi / 2)
    (hhi : -Real.pi / 2 ≤ max (d 0) (d ny)) :
    areaCyl (fun k => some (d k)) dra ny nx =
      sphereArea (max (min (d 0) (d ny)) (-(Real.pi / 2))) (min (max (d 0) (d ny)) (Real.pi / 2)) (nx * |dra|) := by
  rw [areaCyl_eq d dra ny nx hlo hhi, sphereArea_eq]
  have e : -(Real.pi / 2) = -Real.pi / 2 := by ring
  rw [e]
  unfold clipDec
  rw [max_eq_left hhi, min_eq_left (max_le hlo pi_half_lt.le)]
  ring

/-- C125: a map that reaches both poles and goes around once has the area of the sphere, including maps with pixel centres at the
poles, whose outer edges are beyond. -/
theorem C125_fullsky (d : Nat → ℝ) (dra : ℝ) (ny nx : Nat) (hlo : min (d 0) (d ny) ≤ -(Real.pi / 2))
    (hhi : Real.pi / 2 ≤ max (d 0) (d ny)) (hx : nx * |dra| = 2 * Real.pi) :
    areaCyl (fun k => some (d k)) dra ny nx = 4 * Real.pi := by
  have := pi_half_lt
  rw [C125_area d dra ny nx (by linarith) (by linarith), sphereArea_eq, max_eq_right hlo, min_eq_right hhi, Real.sin_neg,
    Real.sin_pi_div_two, hx]
  ring

/-- C125 refuted for a map beyond the pole, in a projection whose declinations go on there: its area is not zero. -/
theorem C125_area_refuted (d : Nat → ℝ) (dra : ℝ) (ny nx : Nat) (h0 : Real.pi / 2 < d 0) (h1 : d 0 ≤ d ny) (h2 : d 0 ≤ Real.pi)
    (hd : dra ≠ 0) (hn : 0 < nx) : 0 < areaCyl (fun k => some (d k)) dra ny nx := by
  have hp := Real.pi_pos
  unfold areaCyl
  simp only [npSort2_some, pyMaxNan_some, pyMinNan_some]
  rw [min_eq_left h1, max_eq_right h1, min_eq_right (a := d ny) (by linarith), max_eq_left (by linarith), Real.sin_pi_div_two]
  have hs : Real.sin (d 0) < 1 := by
    rw [← Real.sin_pi_sub, ← Real.sin_pi_div_two]
    exact Real.sin_lt_sin_of_lt_of_le_pi_div_two (by linarith) le_rfl (by linarith)
  have hn' : (0 : ℝ) < nx := by exact_mod_cast hn
  have := abs_pos.mpr hd
  exact mul_pos (mul_pos (by linarith) this) hn'

/-- C125 refuted for a map whose southern edge has no declination because it is beyond the pole: the area is that of the rest of the
sphere to the north of the map. -/
theorem C125_area_nan_refuted (b dra : ℝ) (ny nx : Nat) (hny : 1 ≤ ny) (hb : -(Real.pi / 2) < b) (hb' : b ≤ Real.pi / 2) :
    areaCyl (fun k => if k = 0 then none else some b) dra ny nx = sphereArea b (Real.pi / 2) (nx * |dra|) := by
  unfold areaCyl
  simp only
  rw [if_neg (show ny ≠ 0 by omega), if_pos trivial, sphereArea_eq]
  show (Real.sin (Real.pi / 2) - Real.sin (pyMaxNan (-Real.pi / 2) (some b))) * |dra| * nx = _
  rw [pyMaxNan_some, max_eq_left (by linarith)]
  ring

/-- C125: the northern edge may be missing. -/
theorem C125_area_nan (a dra : ℝ) (ny nx : Nat) (hny : 1 ≤ ny) (ha : -(Real.pi / 2) ≤ a) :
    areaCyl (fun k => if k = ny then none else some a) dra ny nx = sphereArea a (Real.pi / 2) (nx * |dra|) := by
  unfold areaCyl
  simp only
  rw [if_neg (show 0 ≠ ny by omega), if_pos trivial, sphereArea_eq]
  show (Real.sin (Real.pi / 2) - Real.sin (pyMaxNan (-Real.pi / 2) (some a))) * |dra| * nx = _
  rw [pyMaxNan_some, max_eq_left (by linarith)]
  ring

/-! ### Pixels -/

theorem rowEdge_some (d : Nat → ℝ) (c : ℝ) (ny k : Nat) : rowEdge (fun k => some (d k)) c ny k = some (clipDec (d k)) := rfl

/-- C125: every pixel whose row is partly on the sphere has the area of the part of the sphere it covers, and this is the product of
its height and width. -/
theorem C125_pixel (d : Nat → ℝ) (c dra : ℝ) (ny k : Nat) (hlo : min (d k) (d (k + 1)) < Real.pi / 2)
    (hhi : -(Real.pi / 2) < max (d k) (d (k + 1))) (hne : d k ≠ d (k + 1)) :
    pixSizeCyl (fun k => some (d k)) c dra ny k =
      some (sphereArea (clipDec (min (d k) (d (k + 1)))) (clipDec (max (d k) (d (k + 1)))) |dra|) ∧
    ∃ s, pixShapeCyl (fun k => some (d k)) c dra ny k = some s ∧ s.1 = clipDec (d (k + 1)) - clipDec (d k) ∧
      pixSizeCyl (fun k => some (d k)) c dra ny k = some (|s.1| * |s.2|) := by
  have hcl : clipDec (d k) ≠ clipDec (d (k + 1)) := by
    rcases lt_or_gt_of_ne hne with h | h
    · rw [min_eq_left h.le] at hlo; rw [max_eq_right h.le] at hhi
      exact (clipDec_lt h hlo (by linarith)).ne
    · rw [min_eq_right h.le] at hlo; rw [max_eq_left h.le] at hhi
      exact (clipDec_lt h hlo (by linarith)).ne'
  have hs : pixShapeCyl (fun k => some (d k)) c dra ny k = some (clipDec (d (k + 1)) - clipDec (d k),
      dra * (Real.sin (clipDec (d (k + 1))) - Real.sin (clipDec (d k))) / (clipDec (d (k + 1)) - clipDec (d k))) := by
    unfold pixShapeCyl
    simp only [rowEdge_some, Option.bind_eq_bind, Option.bind_some]
    rw [if_neg (sub_ne_zero.mpr hcl.symm)]
  refine ⟨?_, _, hs, rfl, by unfold pixSizeCyl; rw [hs]; rfl⟩
  unfold pixSizeCyl
  rw [hs, sphereArea_eq]
  simp only [Option.map_some]
  congr 1
  rw [← abs_mul, mul_div_cancel₀ _ (sub_ne_zero.mpr hcl.symm), abs_mul]
  congr 1
  rcases le_total (d k) (d (k + 1)) with h | h
  · rw [min_eq_left h, max_eq_right h, abs_of_nonneg (sub_nonneg.mpr (sin_clipDec_mono h))]
  · rw [min_eq_right h, max_eq_left h, abs_of_nonpos (sub_nonpos.mpr (sin_clipDec_mono h))]; ring

/-- C125: the pixels add up to the map, for rows that run upwards or downwards and are all partly on the sphere. -/
theorem C125_sum (d : Nat → ℝ) (c dra : ℝ) (ny nx : Nat) (hny : 1 ≤ ny)
    (hmono : (∀ k, k < ny → d k < d (k + 1)) ∨ (∀ k, k < ny → d (k + 1) < d k))
    (hsky : ∀ k, k < ny → min (d k) (d (k + 1)) < Real.pi / 2 ∧ -(Real.pi / 2) < max (d k) (d (k + 1))) :
    ∃ size : Nat → ℝ, (∀ k, k < ny → pixSizeCyl (fun k => some (d k)) c dra ny k = some (size k) ∧ 0 ≤ size k) ∧
      ∑ k ∈ Finset.range ny, ∑ _x ∈ Finset.range nx, size k = areaCyl (fun k => some (d k)) dra ny nx := by
  refine ⟨fun k => sphereArea (clipDec (min (d k) (d (k + 1)))) (clipDec (max (d k) (d (k + 1)))) |dra|, fun k hk => ⟨?_, ?_⟩, ?_⟩
  · have hne : d k ≠ d (k + 1) := by
      rcases hmono with h | h
      · exact (h k hk).ne
      · exact (h k hk).ne'
    exact (C125_pixel d c dra ny k (hsky k hk).1 (hsky k hk).2 hne).1
  · simp only; rw [sphereArea_eq]
    exact mul_nonneg (abs_nonneg _) (sub_nonneg.mpr (sin_clipDec_mono min_le_max))
  · simp only [Finset.sum_const, Finset.card_range, nsmul_eq_mul]
    rw [← Finset.mul_sum]
    have htel : ∀ n, n ≤ ny → ∑ k ∈ Finset.range n, sphereArea (clipDec (min (d k) (d (k + 1)))) (clipDec (max (d k) (d (k + 1)))) |dra| =
        |dra| * |Real.sin (clipDec (d n)) - Real.sin (clipDec (d 0))| ∧
        ((∀ k, k < ny → d k < d (k + 1)) → d 0 ≤ d n) ∧ ((∀ k, k < ny → d (k + 1) < d k) → d n ≤ d 0) := by
      intro n
      induction n with
      | zero => intro _; simp
      | succ n ih =>
        intro hn
        obtain ⟨h1, h2, h3⟩ := ih (by omega)
        refine ⟨?_, fun h => (h2 h).trans (h n (by omega)).le, fun h => (h n (by omega)).le.trans (h3 h)⟩
        rw [Finset.sum_range_succ, h1, sphereArea_eq, ← mul_add]
        congr 1
        rcases hmono with h | h
        · have e1 := (h n (by omega)).le
          have e2 := h2 h
          rw [min_eq_left e1, max_eq_right e1, abs_of_nonneg (sub_nonneg.mpr (sin_clipDec_mono e2)),
            abs_of_nonneg (sub_nonneg.mpr (sin_clipDec_mono (e2.trans e1)))]
          ring
        · have e1 := (h n (by omega)).le
          have e2 := h3 h
          rw [min_eq_right e1, max_eq_left e1, abs_of_nonpos (sub_nonpos.mpr (sin_clipDec_mono e2)),
            abs_of_nonpos (sub_nonpos.mpr (sin_clipDec_mono (e1.trans e2)))]
          ring
    obtain ⟨h1, h2, h3⟩ := htel ny le_rfl
    obtain ⟨m, rfl⟩ : ∃ m, ny = m + 1 := ⟨ny - 1, by omega⟩
    have hb : min (d 0) (d (m + 1)) ≤ Real.pi / 2 ∧ -Real.pi / 2 ≤ max (d 0) (d (m + 1)) := by
      rcases hmono with h | h
      · have a := hsky 0 (by omega)
        have b := hsky m (by omega)
        rw [min_eq_left (h 0 (by omega)).le] at a
        rw [max_eq_right (h m (by omega)).le] at b
        exact ⟨(min_le_left _ _).trans a.1.le, le_trans (by linarith [b.2]) (le_max_right _ _)⟩
      · have a := hsky 0 (by omega)
        have b := hsky m (by omega)
        rw [max_eq_left (h 0 (by omega)).le] at a
        rw [min_eq_right (h m (by omega)).le] at b
        exact ⟨(min_le_right _ _).trans b.1.le, le_trans (by linarith [a.2]) (le_max_left _ _)⟩
    rw [h1, areaCyl_eq d dra (m + 1) nx hb.1 hb.2]
    rcases hmono with h | h
    · have e := h2 h
      rw [min_eq_left e, max_eq_right e, abs_of_nonneg (sub_nonneg.mpr (sin_clipDec_mono e))]; ring
    · have e := h3 h
      rw [min_eq_right e, max_eq_left e, abs_of_nonpos (sub_nonpos.mpr (sin_clipDec_mono e))]; ring

/-- C125 refuted: a row beyond the pole has no size, not size zero. -/
theorem C125_pixel_refuted (d : Nat → ℝ) (c dra : ℝ) (ny k : Nat) (h1 : Real.pi / 2 ≤ d k) (h2 : Real.pi / 2 ≤ d (k + 1)) :
    pixSizeCyl (fun k => some (d k)) c dra ny k = none := by
  have hc : ∀ x, Real.pi / 2 ≤ x → clipDec x = Real.pi / 2 := fun x hx => by
    unfold clipDec; rw [min_eq_right (le_max_of_le_left hx)]
  unfold pixSizeCyl pixShapeCyl
  simp only [rowEdge_some, Option.bind_eq_bind, Option.bind_some]
  rw [hc _ h1, hc _ h2, sub_self, if_pos rfl]
  rfl

open Classical in
/-- C125: the product of the sides of a map is its area, and their signs are those of the directions of the axes. -/
theorem C125_extent (d : Nat → ℝ) (dra : ℝ) (ny nx : Nat) (hlo : min (d 0) (d ny) < Real.pi / 2)
    (hhi : -(Real.pi / 2) < max (d 0) (d ny)) (hne : d 0 ≠ d ny) :
    ∃ e, extentCyl (fun k => some (d k)) dra ny nx = some e ∧ |e.1| * |e.2| = areaCyl (fun k => some (d k)) dra ny nx ∧
      e.1 = clipDec (d ny) - clipDec (d 0) ∧ (0 < nx → SignType.sign e.2 = SignType.sign dra) := by
  have hhi' : -Real.pi / 2 ≤ max (d 0) (d ny) := by linarith
  have e1 : (if leNan (some (d 0)) (some (d ny)) then some (d 0) else some (d ny)) = some (min (d 0) (d ny)) := by
    by_cases h : d 0 ≤ d ny
    · rw [if_pos (show leNan (some (d 0)) (some (d ny)) from h), min_eq_left h]
    · rw [if_neg (show ¬leNan (some (d 0)) (some (d ny)) from h), min_eq_right (not_le.mp h).le]
  have e2 : (if leNan (some (d 0)) (some (d ny)) then some (d ny) else some (d 0)) = some (max (d 0) (d ny)) := by
    by_cases h : d 0 ≤ d ny
    · rw [if_pos (show leNan (some (d 0)) (some (d ny)) from h), max_eq_right h]
    · rw [if_neg (show ¬leNan (some (d 0)) (some (d ny)) from h), max_eq_left (not_le.mp h).le]
  have e3 : ∀ x, (if leNan (some (d 0)) (some (d ny)) then (1 : ℝ) else -1) = x → x * (clipDec (max (d 0) (d ny)) - clipDec (min (d 0) (d ny))) =
      clipDec (d ny) - clipDec (d 0) := by
    rintro x rfl
    by_cases h : d 0 ≤ d ny
    · rw [if_pos (show leNan (some (d 0)) (some (d ny)) from h), max_eq_right h, min_eq_left h, one_mul]
    · rw [if_neg (show ¬leNan (some (d 0)) (some (d ny)) from h), max_eq_left (not_le.mp h).le, min_eq_right (not_le.mp h).le]; ring
  have hlt : clipDec (min (d 0) (d ny)) < clipDec (max (d 0) (d ny)) :=
    clipDec_lt (min_lt_max.mpr hne) hlo (by linarith)
  have hsin : Real.sin (clipDec (min (d 0) (d ny))) < Real.sin (clipDec (max (d 0) (d ny))) :=
    Real.sin_lt_sin_of_lt_of_le_pi_div_two (by linarith [(clipDec_bounds (min (d 0) (d ny))).1]) (clipDec_bounds _).2 hlt
  have c1 : max (min (d 0) (d ny)) (-Real.pi / 2) = clipDec (min (d 0) (d ny)) := by
    unfold clipDec; rw [min_eq_left (max_le hlo.le pi_half_lt.le)]
  have c2 : min (max (d 0) (d ny)) (Real.pi / 2) = clipDec (max (d 0) (d ny)) := by
    unfold clipDec; rw [max_eq_left hhi']
  rw [areaCyl_eq d dra ny nx hlo.le hhi']
  unfold extentCyl
  simp only
  rw [e1, e2, pyMaxNan_some, pyMinNan_some, c1, c2, if_neg (sub_ne_zero.mpr hlt.ne')]
  set A := clipDec (max (d 0) (d ny)) - clipDec (min (d 0) (d ny)) with hA
  set S := Real.sin (clipDec (max (d 0) (d ny))) - Real.sin (clipDec (min (d 0) (d ny))) with hS
  have hA0 : 0 < A := sub_pos.mpr hlt
  have hS0 : 0 < S := sub_pos.mpr hsin
  refine ⟨_, rfl, ?_, ?_, ?_⟩
  · simp only
    have h1 : |A * (if leNan (some (d 0)) (some (d ny)) then (1 : ℝ) else -1)| = A := by
      split_ifs
      · rw [mul_one, abs_of_pos hA0]
      · rw [mul_neg_one, abs_neg, abs_of_pos hA0]
    rw [h1, abs_mul, abs_mul, abs_of_pos (div_pos hS0 hA0), abs_of_nonneg (Nat.cast_nonneg nx)]
    field_simp
  · simp only
    rw [mul_comm]; exact e3 _ rfl
  · intro hnx
    simp only
    rw [sign_mul, sign_mul, sign_pos (div_pos hS0 hA0), sign_pos (show (0 : ℝ) < nx by exact_mod_cast hnx), one_mul, mul_one]

/-- C125 refuted for the extent of a map whose upper edge is missing because it is beyond the pole: the height is that of the rest
of the sphere to the south of the map, and negative. -/
theorem C125_extent_refuted (a dra : ℝ) (ny nx : Nat) (hny : 1 ≤ ny) (ha : -(Real.pi / 2) < a) (ha' : a < Real.pi / 2) :
    ∃ e, extentCyl (fun k => if k = ny then none else some a) dra ny nx = some e ∧ e.1 = -(a + Real.pi / 2) := by
  unfold extentCyl
  have hz : (fun k => if k = ny then none else some a) 0 = some a := if_neg (by omega)
  have hny' : (fun k => if k = ny then none else some a) ny = none := if_pos rfl
  rw [hz, hny']
  simp only
  rw [if_neg (show ¬leNan (some a) none from id), if_neg (show ¬leNan (some a) none from id),
    if_neg (show ¬leNan (some a) none from id), pyMinNan_some, min_eq_left ha'.le]
  show ∃ e, (if a - -Real.pi / 2 = 0 then none else _) = some e ∧ _
  rw [if_neg (by intro h; linarith)]
  exact ⟨_, rfl, by show (a - -Real.pi / 2) * -1 = _; ring⟩

/-! ### Contours -/

theorem wrapRa_eq {d : ℝ} (h : |d| < Real.pi) : wrapRa d = d := by
  have hp := Real.pi_pos
  rw [abs_lt] at h
  have : ⌊(d + Real.pi) / (2 * Real.pi)⌋ = 0 := by
    rw [Int.floor_eq_zero_iff]
    exact ⟨div_nonneg (by linarith) (by linarith), by rw [div_lt_one (by linarith)]; linarith⟩
  unfold wrapRa
  rw [this]; push_cast; ring

/-- Sides along a row. -/
theorem contourSide_row (D : ℝ → ℝ) (r0 s : ℝ) (nsamp : Nat) (hn : 2 ≤ nsamp) (y x0 x1 : ℝ)
    (hw : |(x1 - x0) * s / ((nsamp : ℝ) - 1)| < Real.pi) :
    contourSide (fun y _ => D y) (fun _ x => r0 + x * s) nsamp (y, x0) (y, x1) = (1 - Real.sin (clipDec (D y))) * ((x1 - x0) * s) := by
  unfold contourSide
  simp only [sub_self, mul_zero, zero_add, add_self_div_two]
  have hn' : (0 : ℝ) < (nsamp : ℝ) - 1 := by
    have : (2 : ℝ) ≤ nsamp := by exact_mod_cast hn
    linarith
  have step : ∀ i : Nat, r0 + (((i + 1 : Nat) : ℝ) / ((nsamp : ℝ) - 1) * (x1 - x0) + x0) * s - (r0 + ((i : ℝ) / ((nsamp : ℝ) - 1) * (x1 - x0) + x0) * s) =
      (x1 - x0) * s / ((nsamp : ℝ) - 1) := by
    intro i; push_cast; field_simp; ring
  simp only [step, wrapRa_eq hw, Finset.sum_const, Finset.card_range, nsmul_eq_mul]
  rw [Nat.cast_sub (by omega)]
  push_cast
  field_simp

/-- Sides along a column. -/
theorem contourSide_col (D : ℝ → ℝ) (r0 s : ℝ) (nsamp : Nat) (y0 y1 x : ℝ) :
    contourSide (fun y _ => D y) (fun _ x => r0 + x * s) nsamp (y0, x) (y1, x) = 0 := by
  unfold contourSide
  simp only [sub_self, mul_zero, zero_add]
  apply Finset.sum_eq_zero
  intro i _
  rw [wrapRa_eq (by rw [abs_zero]; exact Real.pi_pos), mul_zero]

/-- C125: the contour integral is exact for cylindrical maps, if a step along the boundary is less than half a turn. -/
theorem C125_contour (D : ℝ → ℝ) (r0 dra : ℝ) (nsamp ny nx : Nat) (hn : 2 ≤ nsamp)
    (hw : |nx * dra / ((nsamp : ℝ) - 1)| < Real.pi) (hlo : min (D (-1 / 2)) (D (ny - 1 / 2)) ≤ Real.pi / 2)
    (hhi : -Real.pi / 2 ≤ max (D (-1 / 2)) (D (ny - 1 / 2))) :
    areaContour (fun y _ => D y) (fun _ x => r0 + x * dra) nsamp ny nx =
      areaCyl (fun k => some (D ((k : ℝ) - 1 / 2))) dra ny nx := by
  unfold areaContour
  simp only
  have e1 : ((nx : ℝ) - 1 / 2 - -1 / 2) = nx := by ring
  have e2 : (-1 / 2 - ((nx : ℝ) - 1 / 2)) = -nx := by ring
  rw [contourSide_row D r0 dra nsamp hn _ _ _ (by rw [e1]; exact hw), contourSide_col, contourSide_row D r0 dra nsamp hn _ _ _
    (by rw [e2, neg_mul, neg_div, abs_neg]; exact hw), contourSide_col, e1, e2]
  have e0 : ((0 : ℕ) : ℝ) - 1 / 2 = -1 / 2 := by norm_num
  rw [areaCyl_eq (fun k => D ((k : ℝ) - 1 / 2)) dra ny nx (by simp only [e0]; exact hlo) (by simp only [e0]; exact hhi)]
  simp only [e0]
  have e : (1 - Real.sin (clipDec (D (-1 / 2)))) * (nx * dra) + 0 + (1 - Real.sin (clipDec (D (ny - 1 / 2)))) * (-nx * dra) + 0 =
      (Real.sin (clipDec (D (ny - 1 / 2))) - Real.sin (clipDec (D (-1 / 2)))) * dra * nx := by ring
  rw [e, abs_mul, abs_mul, abs_of_nonneg (Nat.cast_nonneg (α := ℝ) nx)]
  congr 2
  rcases le_total (D (-1 / 2)) (D (ny - 1 / 2)) with h | h
  · rw [min_eq_left h, max_eq_right h, abs_of_nonneg (sub_nonneg.mpr (sin_clipDec_mono h))]
  · rw [min_eq_right h, max_eq_left h, abs_of_nonpos (sub_nonpos.mpr (sin_clipDec_mono h))]; ring

/-- C125 refuted for one sample per side: the area is zero. -/
theorem C125_contour_refuted (dec ra : ℝ → ℝ → ℝ) (ny nx : Nat) : areaContour dec ra 1 ny nx = 0 := by
  unfold areaContour contourSide
  simp

/-- The trapezoidal rule along the edge from corner (y0,x0) to (y1,x1). -/
noncomputable def cornerStep (dec ra : Nat → Nat → ℝ) (y0 x0 y1 x1 : Nat) : ℝ :=
  (ra y1 x1 - ra y0 x0) * ((1 - Real.sin (clipDec (dec y1 x1))) + (1 - Real.sin (clipDec (dec y0 x0)))) / 2

/-- C125: the signed areas of the pixels from the contour method add up to the integral around the whole map, for any positions of the
corners. -/
theorem C125_contour_sum (dec ra : Nat → Nat → ℝ) (ny nx : Nat) :
    ∑ y ∈ Finset.range ny, ∑ x ∈ Finset.range nx, contourPixel dec ra y x =
      ∑ y ∈ Finset.range ny, cornerStep dec ra y 0 (y + 1) 0 + ∑ x ∈ Finset.range nx, cornerStep dec ra ny x ny (x + 1) -
      ∑ y ∈ Finset.range ny, cornerStep dec ra y nx (y + 1) nx - ∑ x ∈ Finset.range nx, cornerStep dec ra 0 x 0 (x + 1) := by
  have hp : ∀ y x, contourPixel dec ra y x = (cornerStep dec ra y x (y + 1) x - cornerStep dec ra y (x + 1) (y + 1) (x + 1)) +
      (cornerStep dec ra (y + 1) x (y + 1) (x + 1) - cornerStep dec ra y x y (x + 1)) := by
    intro y x; unfold contourPixel cornerStep; simp only; ring
  simp only [hp, Finset.sum_add_distrib]
  have h1 : ∀ y, ∑ x ∈ Finset.range nx, (cornerStep dec ra y x (y + 1) x - cornerStep dec ra y (x + 1) (y + 1) (x + 1)) =
      cornerStep dec ra y 0 (y + 1) 0 - cornerStep dec ra y nx (y + 1) nx := by
    intro y
    exact Finset.sum_range_sub' (fun x => cornerStep dec ra y x (y + 1) x) nx
  have h2 : ∑ y ∈ Finset.range ny, ∑ x ∈ Finset.range nx, (cornerStep dec ra (y + 1) x (y + 1) (x + 1) - cornerStep dec ra y x y (x + 1)) =
      ∑ x ∈ Finset.range nx, cornerStep dec ra ny x ny (x + 1) - ∑ x ∈ Finset.range nx, cornerStep dec ra 0 x 0 (x + 1) := by
    rw [Finset.sum_comm, ← Finset.sum_sub_distrib]
    apply Finset.sum_congr rfl
    intro x _
    exact Finset.sum_range_sub (fun y => cornerStep dec ra y x y (x + 1)) ny
  rw [h2]
  simp only [h1, Finset.sum_sub_distrib]
  ring

/-- C125: the contour method gives the exact area for pixels of cylindrical maps. -/
theorem C125_contour_pixel (d r : Nat → ℝ) (y x : Nat) :
    pixSizeContour (fun y _ => d y) (fun _ x => r x) y x =
      sphereArea (clipDec (min (d y) (d (y + 1)))) (clipDec (max (d y) (d (y + 1)))) |r (x + 1) - r x| := by
  unfold pixSizeContour contourPixel
  rw [sphereArea_eq]
  simp only
  have e : (r x - r x) * (1 - Real.sin (clipDec (d (y + 1))) + (1 - Real.sin (clipDec (d y)))) / 2 +
      (r (x + 1) - r x) * (1 - Real.sin (clipDec (d (y + 1))) + (1 - Real.sin (clipDec (d (y + 1))))) / 2 +
      (r (x + 1) - r (x + 1)) * (1 - Real.sin (clipDec (d y)) + (1 - Real.sin (clipDec (d (y + 1))))) / 2 +
      (r x - r (x + 1)) * (1 - Real.sin (clipDec (d y)) + (1 - Real.sin (clipDec (d y)))) / 2 =
      (r (x + 1) - r x) * (Real.sin (clipDec (d y)) - Real.sin (clipDec (d (y + 1)))) := by ring
  rw [e, abs_mul]
  congr 1
  rcases le_total (d y) (d (y + 1)) with h | h
  · rw [min_eq_left h, max_eq_right h, abs_of_nonpos (sub_nonpos.mpr (sin_clipDec_mono h))]; ring
  · rw [min_eq_right h, max_eq_left h, abs_of_nonneg (sub_nonneg.mpr (sin_clipDec_mono h))]

/-- C125: plain coordinates. -/
theorem C125_plain (c0 c1 u : ℝ) (ny nx : Nat) :
    ∑ _y ∈ Finset.range ny, ∑ _x ∈ Finset.range nx, pixSizePlain c0 c1 u = areaPlain c0 c1 u ny nx := by
  simp only [Finset.sum_const, Finset.card_range, nsmul_eq_mul]
  unfold pixSizePlain areaPlain
  rw [abs_mul, abs_mul, abs_mul, abs_mul, abs_mul, abs_of_nonneg (Nat.cast_nonneg (α := ℝ) ny), abs_of_nonneg (Nat.cast_nonneg (α := ℝ) nx),
    abs_of_nonneg (sq_nonneg u)]
  ring

-- Two rows over the sphere, with the pixel centres on the poles: the edges are half a pixel beyond them.
example : ∃ size : Nat → ℝ, (∀ k, k < 3 → pixSizeCyl (fun k => some ((k : ℝ) * (Real.pi / 2) - 3 * Real.pi / 4)) 1 1 3 k = some (size k) ∧ 0 ≤ size k) ∧
    ∑ k ∈ Finset.range 3, ∑ _x ∈ Finset.range 5, size k = areaCyl (fun k => some ((k : ℝ) * (Real.pi / 2) - 3 * Real.pi / 4)) 1 3 5 := by
  have := Real.pi_pos
  refine C125_sum _ 1 1 3 5 (by norm_num) (Or.inl fun k _ => ?_) fun k hk => ⟨?_, ?_⟩
  · push_cast; linarith
  · have : k = 0 ∨ k = 1 ∨ k = 2 := by omega
    apply min_lt_of_left_lt
    rcases this with rfl | rfl | rfl <;> push_cast <;> linarith
  · apply lt_max_of_lt_right
    have : (0 : ℝ) ≤ k := Nat.cast_nonneg k
    push_cast; nlinarith

/-- C125: a missing edge at the first or last row is a pole, and the pixels there have the area of the part of the sphere up to this
pole; north is at the last row if the step is positive and at the first if it is negative. -/
theorem C125_pixel_nan (d : Nat → Option ℝ) (c dra a : ℝ) (ny : Nat) (hny : 1 ≤ ny) (ha : -Real.pi / 2 < a) (ha' : a < Real.pi / 2) :
    (d 0 = none → d 1 = some a → pixSizeCyl d c dra ny 0 =
      some (if 0 ≤ c then sphereArea (-Real.pi / 2) a |dra| else sphereArea a (Real.pi / 2) |dra|)) ∧
    (d ny = none → d (ny - 1) = some a → pixSizeCyl d c dra ny (ny - 1) =
      some (if 0 ≤ c then sphereArea a (Real.pi / 2) |dra| else sphereArea (-Real.pi / 2) a |dra|)) := by
  have hpi := Real.pi_pos
  have ca : clipDec a = a := by unfold clipDec; rw [max_eq_left ha.le, min_eq_left ha'.le]
  have cn : clipDec (Real.pi / 2) = Real.pi / 2 := by unfold clipDec; rw [max_eq_left (by linarith), min_self]
  have cs : clipDec (-Real.pi / 2) = -Real.pi / 2 := by unfold clipDec; rw [max_self, min_eq_left (by linarith)]
  have hedge : ∀ k x, d k = some x → rowEdge d c ny k = some (clipDec x) := by
    intro k x hx
    unfold rowEdge
    rw [hx]
    rfl
  have sa : Real.sin (-Real.pi / 2) < Real.sin a := Real.sin_lt_sin_of_lt_of_le_pi_div_two (by linarith) ha'.le ha
  have sb : Real.sin a < Real.sin (Real.pi / 2) := Real.sin_lt_sin_of_lt_of_le_pi_div_two (by linarith) le_rfl ha'
  have main : ∀ e0 e1 : ℝ, e0 ≠ e1 → ∀ k, rowEdge d c ny k = some e0 → rowEdge d c ny (k + 1) = some e1 →
      pixSizeCyl d c dra ny k = some (|dra| * |Real.sin e1 - Real.sin e0|) := by
    intro e0 e1 hne k h0 h1
    unfold pixSizeCyl pixShapeCyl
    rw [h0, h1]
    simp only [Option.bind_eq_bind, Option.bind_some]
    rw [if_neg (sub_ne_zero.2 hne.symm)]
    simp only [Option.map_some]
    rw [← abs_mul, mul_div_cancel₀ _ (sub_ne_zero.2 hne.symm), abs_mul]
  constructor
  · intro h0 h1
    by_cases hc : 0 ≤ c
    · have r0 : rowEdge d c ny 0 = some (-Real.pi / 2) := by
        unfold rowEdge
        rw [h0, if_pos hc]
        show some (clipDec (-(Real.pi / 2))) = _
        rw [← neg_div, cs]
      rw [main _ _ ha.ne 0 r0 (by rw [hedge 1 a h1, ca]), if_pos hc, sphereArea_eq, abs_of_pos (sub_pos.2 sa)]
    · have r0 : rowEdge d c ny 0 = some (Real.pi / 2) := by
        unfold rowEdge
        rw [h0, if_neg hc]
        show some (clipDec (-(-Real.pi / 2))) = _
        rw [← neg_div, neg_neg, cn]
      rw [main _ _ ha'.ne' 0 r0 (by rw [hedge 1 a h1, ca]), if_neg hc, sphereArea_eq, abs_of_neg (sub_neg.2 sb), neg_sub]
  · intro h0 h1
    have hz : ny ≠ 0 := by omega
    have hy : ny - 1 + 1 = ny := by omega
    by_cases hc : 0 ≤ c
    · have r0 : rowEdge d c ny ny = some (Real.pi / 2) := by
        unfold rowEdge
        rw [h0, if_pos hc]
        show (if ny = 0 then some (-(Real.pi / 2)) else if ny = ny then some (Real.pi / 2) else none).map clipDec = _
        rw [if_neg hz, if_pos rfl, Option.map_some, cn]
      rw [main _ _ ha'.ne (ny - 1) (by rw [hedge _ a h1, ca]) (by rw [hy]; exact r0), if_pos hc, sphereArea_eq, abs_of_pos (sub_pos.2 sb)]
    · have r0 : rowEdge d c ny ny = some (-Real.pi / 2) := by
        unfold rowEdge
        rw [h0, if_neg hc]
        show (if ny = 0 then some (-(-Real.pi / 2)) else if ny = ny then some (-Real.pi / 2) else none).map clipDec = _
        rw [if_neg hz, if_pos rfl, Option.map_some, cs]
      rw [main _ _ ha.ne' (ny - 1) (by rw [hedge _ a h1, ca]) (by rw [hy]; exact r0), if_neg hc, sphereArea_eq, abs_of_neg (sub_neg.2 sa),
        neg_sub]

/-- Non-vacuity: a map of two rows from pole to pole with both outer edges missing. -/
example : pixSizeCyl (fun k => if k = 1 then some 0 else none) 1 1 2 0 = some (sphereArea (-Real.pi / 2) 0 |1|) := by
  have hpi := Real.pi_pos
  rw [(C125_pixel_nan _ 1 1 0 2 (by norm_num) (by linarith) (by linarith)).1 rfl rfl, if_pos (by norm_num)]

/-- Sides along a column where the right ascension changes along the columns. -/
theorem contourSide_swapped (D : ℝ → ℝ) (r0 s : ℝ) (nsamp : Nat) (hn : 2 ≤ nsamp) (x y0 y1 : ℝ)
    (hw : |(y1 - y0) * s / ((nsamp : ℝ) - 1)| < Real.pi) :
    contourSide (fun _ x => D x) (fun y _ => r0 + y * s) nsamp (y0, x) (y1, x) = (1 - Real.sin (clipDec (D x))) * ((y1 - y0) * s) := by
  unfold contourSide
  simp only [sub_self, mul_zero, zero_add, add_self_div_two]
  have hn' : (0 : ℝ) < (nsamp : ℝ) - 1 := by
    have : (2 : ℝ) ≤ nsamp := by exact_mod_cast hn
    linarith
  have step : ∀ i : Nat, r0 + (((i + 1 : Nat) : ℝ) / ((nsamp : ℝ) - 1) * (y1 - y0) + y0) * s - (r0 + ((i : ℝ) / ((nsamp : ℝ) - 1) * (y1 - y0) + y0) * s) =
      (y1 - y0) * s / ((nsamp : ℝ) - 1) := by
    intro i; push_cast; field_simp; ring
  simp only [step, wrapRa_eq hw, Finset.sum_const, Finset.card_range, nsmul_eq_mul]
  rw [Nat.cast_sub (by omega)]
  push_cast
  field_simp

theorem contourSide_swapped_zero (D : ℝ → ℝ) (r0 s : ℝ) (nsamp : Nat) (x0 x1 y : ℝ) :
    contourSide (fun _ x => D x) (fun y _ => r0 + y * s) nsamp (y, x0) (y, x1) = 0 := by
  unfold contourSide
  simp only [sub_self, mul_zero, zero_add]
  apply Finset.sum_eq_zero
  intro i _
  rw [wrapRa_eq (by rw [abs_zero]; exact Real.pi_pos), mul_zero]

/-- C125: the contour integral is exact also where the rows of the map are meridians. -/
theorem C125_contour_swapped (D : ℝ → ℝ) (r0 dra : ℝ) (nsamp ny nx : Nat) (hn : 2 ≤ nsamp)
    (hw : |ny * dra / ((nsamp : ℝ) - 1)| < Real.pi) :
    areaContour (fun _ x => D x) (fun y _ => r0 + y * dra) nsamp ny nx =
      sphereArea (clipDec (min (D (-1 / 2)) (D (nx - 1 / 2)))) (clipDec (max (D (-1 / 2)) (D (nx - 1 / 2)))) (ny * |dra|) := by
  unfold areaContour
  simp only
  have e1 : ((ny : ℝ) - 1 / 2 - -1 / 2) = ny := by ring
  have e2 : (-1 / 2 - ((ny : ℝ) - 1 / 2)) = -ny := by ring
  rw [contourSide_swapped_zero, contourSide_swapped D r0 dra nsamp hn _ _ _ (by rw [e1]; exact hw), contourSide_swapped_zero,
    contourSide_swapped D r0 dra nsamp hn _ _ _ (by rw [e2, neg_mul, neg_div, abs_neg]; exact hw), e1, e2, sphereArea_eq]
  have e : 0 + (1 - Real.sin (clipDec (D (nx - 1 / 2)))) * (ny * dra) + 0 + (1 - Real.sin (clipDec (D (-1 / 2)))) * (-ny * dra) =
      (Real.sin (clipDec (D (-1 / 2))) - Real.sin (clipDec (D (nx - 1 / 2)))) * (dra * ny) := by ring
  rw [e, abs_mul, abs_mul dra, abs_of_nonneg (Nat.cast_nonneg (α := ℝ) ny), mul_comm (ny : ℝ), mul_comm (|dra| * (ny : ℝ))]
  congr 1
  rcases le_total (D (-1 / 2)) (D (nx - 1 / 2)) with h | h
  · rw [min_eq_left h, max_eq_right h, abs_of_nonpos (sub_nonpos.mpr (sin_clipDec_mono h))]; ring
  · rw [min_eq_right h, max_eq_left h, abs_of_nonneg (sub_nonneg.mpr (sin_clipDec_mono h))]

end Pixell
