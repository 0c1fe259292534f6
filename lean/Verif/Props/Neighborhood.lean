import Verif.Model.Neighborhood
import Mathlib.Analysis.SpecialFunctions.Trigonometric.InverseDeriv
import Mathlib.Analysis.Calculus.Deriv.MeanValue
import Mathlib.Tactic

/-
C130: the boxes of neighborhood_pixboxes contain everything within the radius.
-/
namespace Pixell
open Real

/-- The angle between two positions on the sphere, by their scalar product. -/
noncomputable def sphereSep (dec ra dec' ra' : ℝ) : ℝ := arccos (sin dec * sin dec' + cos dec * cos dec' * cos (ra' - ra))

theorem dot_le_one (a b t : ℝ) : sin a * sin b + cos a * cos b * cos t ≤ 1 ∧ -1 ≤ sin a * sin b + cos a * cos b * cos t := by
  have h1 := sin_sq_add_cos_sq a
  have h2 := sin_sq_add_cos_sq b
  have h3 := sin_sq_add_cos_sq t
  constructor
  · nlinarith [sq_nonneg (sin a - sin b), sq_nonneg (cos a * cos t - cos b), sq_nonneg (cos a * sin t)]
  · nlinarith [sq_nonneg (sin a + sin b), sq_nonneg (cos a * cos t + cos b), sq_nonneg (cos a * sin t)]

theorem sep_cos (dec ra dec' ra' r : ℝ) (h0 : 0 ≤ r) (hr : r ≤ π) (h : sphereSep dec ra dec' ra' ≤ r) :
    cos r ≤ sin dec * sin dec' + cos dec * cos dec' * cos (ra' - ra) := by
  have hd := dot_le_one dec dec' (ra' - ra)
  have := cos_le_cos_of_nonneg_of_le_pi (arccos_nonneg _) hr h
  unfold sphereSep at this
  rwa [cos_arccos hd.2 hd.1] at this

theorem sep_dec (dec ra dec' ra' r : ℝ) (hd : |dec| ≤ π / 2) (hd' : |dec'| ≤ π / 2) (h : sphereSep dec ra dec' ra' ≤ r) :
    |dec' - dec| ≤ r := by
  rw [abs_le] at hd hd'
  have hp := pi_pos
  have c1 : 0 ≤ cos dec := cos_nonneg_of_neg_pi_div_two_le_of_le (by linarith) (by linarith)
  have c2 : 0 ≤ cos dec' := cos_nonneg_of_neg_pi_div_two_le_of_le (by linarith) (by linarith)
  have h1 : sin dec * sin dec' + cos dec * cos dec' * cos (ra' - ra) ≤ cos |dec' - dec| := by
    rw [cos_abs, cos_sub dec' dec]
    nlinarith [cos_le_one (ra' - ra), mul_nonneg c1 c2]
  have h2 : |dec' - dec| ≤ π := by rw [abs_le]; constructor <;> linarith
  calc |dec' - dec| = arccos (cos |dec' - dec|) := (arccos_cos (abs_nonneg _) h2).symm
    _ ≤ sphereSep dec ra dec' ra' := antitone_arccos h1
    _ ≤ r := h

theorem turn_exists (t : ℝ) : ∃ k : ℤ, |t + 2 * π * k| ≤ π := by
  have hp := pi_pos
  refine ⟨-round (t / (2 * π)), ?_⟩
  have h := abs_sub_round (t / (2 * π))
  have e : t + 2 * π * ((-round (t / (2 * π)) : ℤ) : ℝ) = (2 * π) * (t / (2 * π) - round (t / (2 * π))) := by
    push_cast; field_simp; ring
  rw [e, abs_mul, abs_of_pos (by linarith : (0 : ℝ) < 2 * π)]
  nlinarith

theorem arcsin_bound (a r : ℝ) (ha : 0 ≤ a) (hr : 0 ≤ r) (h : a + r < π / 2) : arcsin (sin r / cos a) ≤ r / cos (a + r) := by
  have hp := pi_pos
  have ca : 0 < cos a := cos_pos_of_mem_Ioo ⟨by linarith, by linarith⟩
  have cr : 0 < cos (a + r) := cos_pos_of_mem_Ioo ⟨by linarith, h⟩
  have xlt : ∀ s, 0 ≤ s → s ≤ r → 0 ≤ sin s / cos a ∧ sin s / cos a < 1 := by
    intro s h0 h1
    refine ⟨div_nonneg (sin_nonneg_of_nonneg_of_le_pi h0 (by linarith)) ca.le, ?_⟩
    rw [div_lt_one ca, ← sin_pi_div_two_sub]
    exact sin_lt_sin_of_lt_of_le_pi_div_two (by linarith) (by linarith) (by linarith)
  have hder : ∀ s, 0 ≤ s → s ≤ r → HasDerivAt (fun s => s / cos (a + r) - arcsin (sin s / cos a))
      (1 / cos (a + r) - 1 / sqrt (1 - (sin s / cos a) ^ 2) * (cos s / cos a)) s := by
    intro s h0 h1
    obtain ⟨x0, x1⟩ := xlt s h0 h1
    have d1 := (hasDerivAt_sin s).div_const (cos a)
    have d2 := (hasDerivAt_arcsin (x := sin s / cos a) (by linarith) (by linarith)).comp s d1
    exact ((hasDerivAt_id s).div_const _).sub d2
  have hmono : MonotoneOn (fun s => s / cos (a + r) - arcsin (sin s / cos a)) (Set.Icc 0 r) := by
    apply monotoneOn_of_deriv_nonneg (convex_Icc 0 r)
    · intro s hs
      exact (hder s hs.1 hs.2).continuousAt.continuousWithinAt
    · intro s hs
      rw [interior_Icc] at hs
      exact (hder s hs.1.le hs.2.le).differentiableAt.differentiableWithinAt
    · intro s hs
      rw [interior_Icc] at hs
      rw [(hder s hs.1.le hs.2.le).deriv, sub_nonneg]
      obtain ⟨x0, x1⟩ := xlt s hs.1.le hs.2.le
      have hpos : 0 < 1 - (sin s / cos a) ^ 2 := by nlinarith
      have hq0 : 0 < sqrt (1 - (sin s / cos a) ^ 2) := sqrt_pos.2 hpos
      have hq : cos (a + r) ≤ cos a * sqrt (1 - (sin s / cos a) ^ 2) := by
        apply le_of_sq_le_sq _ (mul_nonneg ca.le hq0.le)
        rw [mul_pow, sq_sqrt hpos.le]
        have e : cos a ^ 2 * (1 - (sin s / cos a) ^ 2) = cos (a + s) * cos (a - s) := by
          rw [cos_add, cos_sub]
          field_simp
          have h1 := sin_sq_add_cos_sq a
          have h2 := sin_sq_add_cos_sq s
          nlinarith
        rw [e]
        have g1 : cos (a + r) ≤ cos (a + s) := cos_le_cos_of_nonneg_of_le_pi (by linarith [hs.1]) (by linarith) (by linarith [hs.2])
        have g2 : cos (a + s) ≤ cos (a - s) := by
          rw [← cos_abs (a - s)]
          apply cos_le_cos_of_nonneg_of_le_pi (abs_nonneg _) (by linarith [hs.2])
          rw [abs_le]; constructor <;> linarith [hs.1]
        nlinarith
      rw [div_mul_div_comm, one_mul, div_le_div_iff₀ (by positivity) cr]
      have := cos_le_one s
      have hcs : 0 < cos s := cos_pos_of_mem_Ioo ⟨by linarith [hs.1], by linarith [hs.2]⟩
      nlinarith
  have := hmono (Set.left_mem_Icc.2 hr) (Set.right_mem_Icc.2 hr) hr
  simp only [sin_zero, zero_div, arcsin_zero, sub_zero] at this
  linarith

theorem nb_dec (dec ra r : ℝ) : (nbBox dec ra r).1 = max (dec - r) (-π / 2) ∧ (nbBox dec ra r).2.1 = min (dec + r) (π / 2) := ⟨rfl, rfl⟩

/-- The coordinate box around a position contains every position within the radius: its declination, and its right ascension up
to whole turns; with the poles inside or outside of the radius. -/
theorem C130_box (dec ra r dec' ra' : ℝ) (hd : |dec| ≤ π / 2) (hd' : |dec'| ≤ π / 2) (h0 : 0 ≤ r) (h : sphereSep dec ra dec' ra' ≤ r) :
    let b := nbBox dec ra r
    b.1 ≤ dec' ∧ dec' ≤ b.2.1 ∧ ∃ k : ℤ, b.2.2.1 ≤ ra' + 2 * π * k ∧ ra' + 2 * π * k ≤ b.2.2.2 := by
  intro b
  have hp := pi_pos
  have hdd := abs_le.1 (sep_dec dec ra dec' ra' r hd hd' h)
  have hda := abs_le.1 hd
  have hda' := abs_le.1 hd'
  refine ⟨?_, ?_, ?_⟩
  · show max (dec - r) (-π / 2) ≤ dec'
    exact max_le (by linarith) (by linarith)
  · show dec' ≤ min (dec + r) (π / 2)
    exact le_min (by linarith) (by linarith)
  · obtain ⟨k, hk⟩ := turn_exists (ra' - ra)
    have final : ∀ dra : ℝ, |ra' - ra + 2 * π * k| ≤ dra → ra - dra ≤ ra' + 2 * π * k ∧ ra' + 2 * π * k ≤ ra + dra := by
      intro dra hh
      rw [abs_le] at hh
      constructor <;> linarith
    refine ⟨k, ?_⟩
    show ra - (if min (cos (max (dec - r) (-π / 2))) (cos (min (dec + r) (π / 2))) = 0 then π else
        min (r * (1 / min (cos (max (dec - r) (-π / 2))) (cos (min (dec + r) (π / 2))))) π) ≤ _ ∧ _ ≤ ra + (if min (cos (max (dec - r) (-π / 2))) (cos (min (dec + r) (π / 2))) = 0 then π else
        min (r * (1 / min (cos (max (dec - r) (-π / 2))) (cos (min (dec + r) (π / 2))))) π)
    apply final
    set c := min (cos (max (dec - r) (-π / 2))) (cos (min (dec + r) (π / 2))) with hc
    by_cases hc0 : c = 0
    · rw [if_pos hc0]; exact hk
    · rw [if_neg hc0]
      refine le_min ?_ hk
      -- the poles are outside
      have cpos1 : 0 ≤ cos (max (dec - r) (-π / 2)) := by
        apply cos_nonneg_of_neg_pi_div_two_le_of_le
        · linarith [le_max_right (dec - r) (-π / 2)]
        · exact max_le (by linarith) (by linarith)
      have cpos2 : 0 ≤ cos (min (dec + r) (π / 2)) := by
        apply cos_nonneg_of_neg_pi_div_two_le_of_le
        · exact le_min (by linarith) (by linarith)
        · exact min_le_right _ _
      have cpos : 0 < c := lt_of_le_of_ne (le_min cpos1 cpos2) (Ne.symm hc0)
      have n1 : dec + r < π / 2 := by
        by_contra hh
        have : cos (min (dec + r) (π / 2)) = 0 := by rw [min_eq_right (not_lt.1 hh), cos_pi_div_two]
        have := min_le_right (cos (max (dec - r) (-π / 2))) (cos (min (dec + r) (π / 2)))
        linarith
      have n2 : -(π / 2) < dec - r := by
        by_contra hh
        have : cos (max (dec - r) (-π / 2)) = 0 := by
          rw [max_eq_right (by linarith [not_lt.1 hh]), neg_div, cos_neg, cos_pi_div_two]
        have := min_le_left (cos (max (dec - r) (-π / 2))) (cos (min (dec + r) (π / 2)))
        linarith
      rw [max_eq_left (by linarith : -π / 2 ≤ dec - r), min_eq_left n1.le] at hc
      set a := |dec| with ha
      have ha0 : 0 ≤ a := abs_nonneg _
      have har : a + r < π / 2 := by
        rcases abs_cases dec with ⟨e, _⟩ | ⟨e, _⟩ <;> rw [ha, e] <;> linarith
      have hca : c ≤ cos (a + r) := by
        rcases abs_cases dec with ⟨e, _⟩ | ⟨e, _⟩
        · rw [ha, e, hc]; exact min_le_right _ _
        · rw [ha, e, hc, ← cos_neg (-dec + r), show -(-dec + r) = dec - r by ring]; exact min_le_left _ _
      set D := ra' - ra + 2 * π * k with hD
      have hcosD : cos (ra' - ra) = cos D := by
        rw [hD, show ra' - ra + 2 * π * k = ra' - ra + (k : ℝ) * (2 * π) by ring, cos_add_int_mul_two_pi]
      have hdot := sep_cos dec ra dec' ra' r h0 (by linarith) h
      rw [hcosD] at hdot
      have cd : 0 < cos a := cos_pos_of_mem_Ioo ⟨by linarith, by linarith⟩
      have ecd : cos dec = cos a := (cos_abs dec).symm
      have cd' : 0 ≤ cos dec' := cos_nonneg_of_neg_pi_div_two_le_of_le (by linarith) (by linarith)
      have crp : 0 < cos r := cos_pos_of_mem_Ioo ⟨by linarith, by linarith⟩
      have hsa : |sin dec| = sin a := by
        rcases abs_cases dec with ⟨e, e'⟩ | ⟨e, e'⟩
        · rw [ha, e, abs_of_nonneg (sin_nonneg_of_nonneg_of_le_pi e' (by linarith))]
        · rw [ha, e, sin_neg, abs_of_nonpos (sin_nonpos_of_nonpos_of_neg_pi_le e'.le (by linarith))]
      have hDpos : 0 < cos D := by
        by_contra hh
        have h1 : cos dec * cos dec' * cos D ≤ 0 := mul_nonpos_of_nonneg_of_nonpos (mul_nonneg (by rw [ecd]; exact cd.le) cd') (not_lt.1 hh)
        have h2 : sin dec * sin dec' ≤ sin a := by
          calc sin dec * sin dec' ≤ |sin dec * sin dec'| := le_abs_self _
            _ = |sin dec| * |sin dec'| := abs_mul _ _
            _ ≤ |sin dec| * 1 := mul_le_mul_of_nonneg_left (abs_sin_le_one _) (abs_nonneg _)
            _ = sin a := by rw [mul_one, hsa]
        have h3 : sin a < cos r := by
          rw [← sin_pi_div_two_sub]
          exact sin_lt_sin_of_lt_of_le_pi_div_two (by linarith) (by linarith) (by linarith)
        linarith
      have hDlt : |D| < π / 2 := by
        by_contra hh
        have := cos_nonpos_of_pi_div_two_le_of_le (not_lt.1 hh) (by linarith)
        rw [cos_abs] at this
        linarith
      have hsr : 0 ≤ sin r := sin_nonneg_of_nonneg_of_le_pi h0 (by linarith)
      have hsD : cos a * sin |D| ≤ sin r := by
        have hsD0 : 0 ≤ sin |D| := sin_nonneg_of_nonneg_of_le_pi (abs_nonneg _) (by linarith)
        apply le_of_sq_le_sq _ hsr
        have e1 := sin_sq_add_cos_sq dec
        have e2 := sin_sq_add_cos_sq dec'
        have e3 := sin_sq_add_cos_sq |D|
        have e4 := sin_sq_add_cos_sq r
        rw [cos_abs] at e3
        have sq1 : cos r ^ 2 ≤ (sin dec * sin dec' + cos dec * cos dec' * cos D) ^ 2 := by
          apply pow_le_pow_left₀ crp.le hdot
        have sq2 : (sin dec * sin dec' + cos dec * cos dec' * cos D) ^ 2 ≤ sin dec ^ 2 + cos dec ^ 2 * cos D ^ 2 := by
          have : (sin dec * sin dec' + cos dec * cos dec' * cos D) ^ 2 + (sin dec * cos dec' - cos dec * cos D * sin dec') ^ 2 =
              (sin dec ^ 2 + cos dec ^ 2 * cos D ^ 2) * (sin dec' ^ 2 + cos dec' ^ 2) := by ring
          rw [e2, mul_one] at this
          nlinarith [sq_nonneg (sin dec * cos dec' - cos dec * cos D * sin dec')]
        rw [mul_pow, ← ecd]
        have e5 : cos dec ^ 2 * sin |D| ^ 2 = cos dec ^ 2 - cos dec ^ 2 * cos D ^ 2 := by
          rw [show sin |D| ^ 2 = 1 - cos D ^ 2 by linarith]; ring
        rw [e5]
        linarith
      have step1 : |D| ≤ arcsin (sin r / cos a) := by
        rw [← arcsin_sin (by linarith [abs_nonneg D] : -(π / 2) ≤ |D|) hDlt.le]
        apply monotone_arcsin
        rw [le_div_iff₀ cd]; linarith
      have step2 := arcsin_bound a r ha0 h0 har
      have step3 : r / cos (a + r) ≤ r * (1 / c) := by
        rw [mul_one_div]
        exact div_le_div_of_nonneg_left h0 cpos hca
      linarith

theorem rintReal_dist (x : ℝ) : (rintReal x : ℝ) ≤ x + 1 / 2 ∧ x - 1 / 2 ≤ rintReal x := by
  unfold rintReal
  simp only
  have h1 := Int.floor_le x
  have h2 := Int.lt_floor_add_one x
  split_ifs with a b c <;> push_cast <;> constructor <;> linarith

theorem nbRange_mem (c0 step a b : ℝ) (hs : step ≠ 0) (i : ℤ) (h1 : a ≤ c0 + i * step) (h2 : c0 + i * step ≤ b) :
    (nbRange c0 step a b).1 ≤ i ∧ i < (nbRange c0 step a b).2 := by
  unfold nbRange
  simp only
  obtain ⟨p1, p2⟩ := rintReal_dist ((a - c0) / step)
  obtain ⟨q1, q2⟩ := rintReal_dist ((b - c0) / step)
  rcases lt_or_gt_of_ne hs with hn | hn
  · have e1 : (i : ℝ) ≤ (a - c0) / step := by rw [le_div_iff_of_neg hn]; linarith
    have e2 : (b - c0) / step ≤ i := by rw [div_le_iff_of_neg hn]; linarith
    have f1 : i ≤ rintReal ((a - c0) / step) := by
      have : (i : ℝ) < rintReal ((a - c0) / step) + 1 := by linarith
      have : i < rintReal ((a - c0) / step) + 1 := by exact_mod_cast this
      omega
    have f2 : rintReal ((b - c0) / step) ≤ i := by
      have : (rintReal ((b - c0) / step) : ℝ) < i + 1 := by linarith
      have : rintReal ((b - c0) / step) < i + 1 := by exact_mod_cast this
      omega
    omega
  · have e1 : (a - c0) / step ≤ i := by rw [div_le_iff₀ hn]; linarith
    have e2 : (i : ℝ) ≤ (b - c0) / step := by rw [le_div_iff₀ hn]; linarith
    have f1 : rintReal ((a - c0) / step) ≤ i := by
      have : (rintReal ((a - c0) / step) : ℝ) < i + 1 := by linarith
      have : rintReal ((a - c0) / step) < i + 1 := by exact_mod_cast this
      omega
    have f2 : i ≤ rintReal ((b - c0) / step) := by
      have : (i : ℝ) < rintReal ((b - c0) / step) + 1 := by linarith
      have : i < rintReal ((b - c0) / step) + 1 := by exact_mod_cast this
      omega
    omega

/-- Every pixel of a cylindrical map whose centre is within the radius lies in the pixel box, its column possibly after a
number of turns around the sphere of nphi columns; for rows and columns running either way and whatever the turn of the box. -/
theorem C130_pixels (d0 sy a0 sx : ℝ) (hsy : sy ≠ 0) (hsx : sx ≠ 0) (nphi : ℕ) (hn : nphi * |sx| = 2 * π) (turn : ℤ) (dec ra r : ℝ)
    (hd : |dec| ≤ π / 2) (h0 : 0 ≤ r) (iy ix : ℤ) (hiy : |d0 + iy * sy| ≤ π / 2) (h : sphereSep dec ra (d0 + iy * sy) (a0 + ix * sx) ≤ r) :
    let box := neighborhoodPixbox d0 sy a0 sx turn dec ra r
    (box.1.1 ≤ iy ∧ iy < box.1.2) ∧ ∃ k : ℤ, box.2.1 ≤ ix + k * nphi ∧ ix + k * nphi < box.2.2 := by
  intro box
  obtain ⟨b1, b2, k, b3, b4⟩ := C130_box dec ra r _ _ hd hiy h0 h
  refine ⟨nbRange_mem d0 sy _ _ hsy iy b1 b2, ?_⟩
  have hcol : ∃ k' : ℤ, a0 + ((ix + k' * nphi : ℤ) : ℝ) * sx = a0 + ix * sx + 2 * π * k + 2 * π * turn := by
    rcases lt_or_gt_of_ne hsx with hneg | hpos
    · refine ⟨-(k + turn), ?_⟩
      rw [abs_of_neg hneg] at hn
      push_cast
      linear_combination (((k : ℝ) + turn)) * hn
    · refine ⟨k + turn, ?_⟩
      rw [abs_of_pos hpos] at hn
      push_cast
      linear_combination (((k : ℝ) + turn)) * hn
  obtain ⟨k', hk'⟩ := hcol
  refine ⟨k', ?_⟩
  apply nbRange_mem a0 sx _ _ hsx
  · rw [hk']; linarith
  · rw [hk']; linarith

/-- The box is not larger than needed in declination: its first and last row are within half a pixel of the declinations of the
northernmost and southernmost points within the radius, which are at the distance r, or at the poles. -/
theorem C130_tight (d0 sy a0 sx : ℝ) (hsy : 0 < sy) (turn : ℤ) (dec ra r : ℝ) (hd : |dec| ≤ π / 2) (h0 : 0 ≤ r) :
    let box := neighborhoodPixbox d0 sy a0 sx turn dec ra r
    |d0 + box.1.1 * sy - max (dec - r) (-π / 2)| ≤ sy / 2 ∧ |d0 + (box.1.2 - 1) * sy - min (dec + r) (π / 2)| ≤ sy / 2 ∧
    (dec + r ≤ π / 2 → sphereSep dec ra (dec + r) ra = r) ∧ (-π / 2 ≤ dec - r → sphereSep dec ra (dec - r) ra = r) := by
  intro box
  have hp := pi_pos
  have hda := abs_le.1 hd
  have lohi : max (dec - r) (-π / 2) ≤ min (dec + r) (π / 2) :=
    max_le (le_min (by linarith) (by linarith)) (le_min (by linarith) (by linarith))
  have hbox : box.1 = nbRange d0 sy (max (dec - r) (-π / 2)) (min (dec + r) (π / 2)) := rfl
  set lo := max (dec - r) (-π / 2) with hlo
  set hi := min (dec + r) (π / 2) with hhi
  obtain ⟨p1, p2⟩ := rintReal_dist ((lo - d0) / sy)
  obtain ⟨q1, q2⟩ := rintReal_dist ((hi - d0) / sy)
  have hle : rintReal ((lo - d0) / sy) ≤ rintReal ((hi - d0) / sy) := by
    have hx : (lo - d0) / sy ≤ (hi - d0) / sy := div_le_div_of_nonneg_right (by linarith) hsy.le
    have hf := Int.floor_le_floor hx
    unfold rintReal
    simp only
    rcases hf.lt_or_eq with hf | hf
    · split_ifs <;> omega
    · rw [hf]
      split_ifs <;> first | omega | (exfalso; linarith)
  have e1 : box.1.1 = rintReal ((lo - d0) / sy) := by rw [hbox]; exact min_eq_left hle
  have e2 : box.1.2 = rintReal ((hi - d0) / sy) + 1 := by rw [hbox]; show max _ _ + 1 = _; rw [max_eq_right hle]
  have sep : ∀ t, |t| ≤ π → sphereSep dec ra (dec + t) ra = |t| := by
    intro t ht
    unfold sphereSep
    rw [sub_self, cos_zero, mul_one, add_comm (sin dec * _), ← cos_sub, show dec - (dec + t) = -t by ring, cos_neg, ← cos_abs,
      arccos_cos (abs_nonneg _) ht]
  refine ⟨?_, ?_, ?_, ?_⟩
  · rw [e1]
    have : d0 + (rintReal ((lo - d0) / sy) : ℝ) * sy - lo = ((rintReal ((lo - d0) / sy) : ℝ) - (lo - d0) / sy) * sy := by
      field_simp; ring
    rw [this, abs_mul, abs_of_pos hsy]
    have : |(rintReal ((lo - d0) / sy) : ℝ) - (lo - d0) / sy| ≤ 1 / 2 := by rw [abs_le]; constructor <;> linarith
    nlinarith
  · rw [e2]
    push_cast
    have : d0 + ((rintReal ((hi - d0) / sy) : ℝ) + 1 - 1) * sy - hi = ((rintReal ((hi - d0) / sy) : ℝ) - (hi - d0) / sy) * sy := by
      field_simp; ring
    rw [this, abs_mul, abs_of_pos hsy]
    have : |(rintReal ((hi - d0) / sy) : ℝ) - (hi - d0) / sy| ≤ 1 / 2 := by rw [abs_le]; constructor <;> linarith
    nlinarith
  · intro hle
    rw [sep r (by rw [abs_of_nonneg h0]; linarith), abs_of_nonneg h0]
  · intro hge
    rw [sub_eq_add_neg, sep (-r) (by rw [abs_neg, abs_of_nonneg h0]; linarith), abs_neg, abs_of_nonneg h0]

/-- The conditions are met: around a point on the equator, the point itself; and a pole within the radius. -/
example : (nbBox 0 1 (1 / 2)).1 ≤ 0 :=
  (C130_box 0 1 (1 / 2) 0 1 (by simp; positivity) (by simp; positivity) (by norm_num) (by unfold sphereSep; simp)).1
example (ra' : ℝ) : ∃ k : ℤ, ra' + 2 * π * k ≤ (nbBox (π / 2) 0 1).2.2.2 := by
  have := (C130_box (π / 2) 0 1 (π / 2) ra' (by rw [abs_of_pos (by positivity)]) (by rw [abs_of_pos (by positivity)]) (by norm_num) (by unfold sphereSep; simp)).2.2
  exact ⟨this.choose, this.choose_spec.2⟩

end Pixell
