import Verif.Model.MapSizes
import Mathlib.Tactic.FieldSimp
import Mathlib.Tactic.Linarith
import Mathlib.Tactic.NormNum

/-
C173. Sizes of pixels and maps, maps in Fourier space and resampling by splines.
-/
namespace Pixell

/-! ### Fourier space -/

/-- **C173_shift.** fftshift and ifftshift undo each other, for odd and even sizes. -/
theorem C173_shift {α : Type} (n : ℕ) (f : ℕ → α) (i : ℕ) (hi : i < n) :
    ifftShiftAxis n (fftShiftAxis n f) i = f i ∧ fftShiftAxis n (ifftShiftAxis n f) i = f i := by
  constructor
  · simp only [ifftShiftAxis, fftShiftAxis]
    congr 1
    rw [Nat.mod_add_mod, Nat.add_assoc, Nat.add_sub_cancel' (Nat.div_le_self _ _), Nat.add_mod_right, Nat.mod_eq_of_lt hi]
  · simp only [ifftShiftAxis, fftShiftAxis]
    congr 1
    rw [Nat.mod_add_mod, Nat.add_assoc, Nat.sub_add_cancel (Nat.div_le_self _ _), Nat.add_mod_right, Nat.mod_eq_of_lt hi]

/-- **C173_lform.** In a map shifted by lform the wcs of lwcs gives each pixel the wavenumber of the coefficient that is there,
for odd and even sizes and either sign of the pixel size. -/
theorem C173_lform (n : ℕ) (ext : ℝ) (i : ℕ) (hi : i < n) :
    fftShiftAxis n (lAxis n (ext / n)) i = lwcsCoord n ext i := by
  have hn : (n : ℝ) ≠ 0 := by
    have : n ≠ 0 := by omega
    exact_mod_cast this
  unfold fftShiftAxis lAxis lwcsCoord lwcsCdelt lwcsCrpix fftfreq
  by_cases h : i < n / 2
  · have hm : (i + (n - n / 2)) % n = i + (n - n / 2) := Nat.mod_eq_of_lt (by omega)
    rw [hm, if_neg (by omega)]
    push_cast [Nat.cast_sub (Nat.div_le_self n 2)]
    by_cases he : ext = 0
    · subst he; simp
    · field_simp; ring
  · have hm : (i + (n - n / 2)) % n = i - n / 2 := by
      rw [show i + (n - n / 2) = (i - n / 2) + n by omega, Nat.add_mod_right, Nat.mod_eq_of_lt (by omega)]
    rw [hm, if_pos (by omega)]
    push_cast [Nat.cast_sub (by omega : n / 2 ≤ i)]
    by_cases he : ext = 0
    · subst he; simp
    · field_simp; ring

/-- **C173_lpixsize.** The area of a pixel in Fourier space times the area of the map is (2π)². -/
theorem C173_lpixsize (ey ex : ℝ) (hy : ey ≠ 0) (hx : ex ≠ 0) : lpixsize ey ex * (ey * ex) = (2 * Real.pi) ^ 2 := by
  unfold lpixsize; field_simp

/-- **C173_lrmap_refuted.** lrmap with oversampling has as many columns as without, and not those of a real transform of the
oversampled map. -/
theorem C173_lrmap_refuted (nx os : ℕ) (h1 : 1 < os) (h2 : 2 ≤ nx) : lrmapCols nx os < nx * os / 2 + 1 := by
  unfold lrmapCols
  have : nx * 2 ≤ nx * os := Nat.mul_le_mul_left nx h1
  omega

/-- **C173_lrmap_partial.** Without oversampling they are those of a real transform. -/
theorem C173_lrmap_partial (nx : ℕ) (h : 0 < nx) : lrmapCols nx 1 = nx / 2 + 1 := by
  unfold lrmapCols; omega

/-! ### sizes -/

/-- **C173_subgrid.** The coarse grid of extent_subgrid has its edges where those of the map are, and the fractions of the map in
between as well. -/
theorem C173_subgrid (w : Axis) (n nsub : ℕ) (hn : 0 < n) (hs : 0 < nsub) (t : ℚ) :
    (subgridWcs w n nsub).pix2sky (t * nsub - 1 / 2) = w.pix2sky (t * n - 1 / 2) := by
  have h1 : (n : ℚ) ≠ 0 := by exact_mod_cast hn.ne'
  have h2 : (nsub : ℚ) ≠ 0 := by exact_mod_cast hs.ne'
  unfold subgridWcs Axis.pix2sky
  field_simp
  ring

/-- **C173_extent.** The height and the length returned by extent_subgrid have the area of the map as their product and the
ratio of the mean height and length. -/
theorem C173_extent (area h l : ℝ) (ha : 0 < area) (hh : 0 < h) (hl : 0 < l) :
    (subgridExtent area h l).1 * (subgridExtent area h l).2 = area ∧
    (subgridExtent area h l).1 / (subgridExtent area h l).2 = h / l ∧ 0 < (subgridExtent area h l).1 := by
  have hpos : 0 < area / (l * h) := by positivity
  have hs : 0 < Real.sqrt (area / (l * h)) := Real.sqrt_pos.2 hpos
  have hsq := Real.mul_self_sqrt hpos.le
  refine ⟨?_, ?_, mul_pos hh hs⟩
  · simp only [subgridExtent]
    rw [show h * Real.sqrt (area / (l * h)) * (l * Real.sqrt (area / (l * h))) =
      h * l * (Real.sqrt (area / (l * h)) * Real.sqrt (area / (l * h))) by ring, hsq]
    field_simp
  · simp only [subgridExtent]
    field_simp

/-- **C173_pixshape_partial.** Where the declination depends on the row and the right ascension on the column only, heights and
widths are the distances between rows and columns, the latter with the mean of the cosines. Missing: rotated maps, the ones for
which this way is taken (`C173_pixshape_refuted`). -/
theorem C173_pixshape_partial (dec ra c : ℕ → ℚ) (i j : ℕ) :
    pixShapeGeneral (fun i _ => dec i) (fun _ j => ra j) (fun i _ => c i) i j =
      (|dec (i + 1) - dec i|, |ra (j + 1) - ra j| * ((c (i + 1) + c i) / 2)) := by
  unfold pixShapeGeneral
  simp only [Prod.mk.injEq, true_and]
  ring

/-- **C173_pixshape_refuted.** On a map turned by 45 degrees the differences are taken along the diagonal of the pixel: here all
pixels have width zero, although their area |∂(dec,ra)/∂(i,j)| is 2. -/
theorem C173_pixshape_refuted (i j : ℕ) :
    let y := fun (i j : ℕ) => (i : ℚ) + j
    let x := fun (i j : ℕ) => (i : ℚ) - j
    pixShapeGeneral y x (fun _ _ => 1) i j = (2, 0) ∧
    |(y (i + 1) j - y i j) * (x i (j + 1) - x i j) - (y i (j + 1) - y i j) * (x (i + 1) j - x i j)| = 2 := by
  intro y x
  constructor
  · simp only [pixShapeGeneral, y, x]
    push_cast
    rw [show (i : ℚ) + 1 + (j + 1) - (i + j) = 2 by ring, show (i : ℚ) + 1 - (j + 1) - (i - j) = 0 by ring]
    norm_num
  · simp only [y, x]
    push_cast
    rw [show ((i : ℚ) + 1 + j - (i + j)) * (i - (j + 1) - (i - j)) - (i + (j + 1) - (i + j)) * (i + 1 - j - (i - j)) = -2 by ring]
    norm_num

theorem foldMin_spec (l : List ℚ) : ∀ a, (l.foldl min a ≤ a ∧ ∀ x ∈ l, l.foldl min a ≤ x) ∧ (l.foldl min a = a ∨ l.foldl min a ∈ l) := by
  induction l with
  | nil => intro a; simp
  | cons b bs ih =>
    intro a
    obtain ⟨⟨h1, h2⟩, h3⟩ := ih (min a b)
    refine ⟨⟨h1.trans (min_le_left _ _), ?_⟩, ?_⟩
    · intro x hx
      rcases List.mem_cons.1 hx with rfl | hx
      · exact h1.trans (min_le_right _ _)
      · exact h2 x hx
    · simp only [List.foldl_cons]
      rcases h3 with h | h
      · rw [h]
        rcases min_choice a b with e | e <;> rw [e] <;> simp
      · exact Or.inr (List.mem_cons_of_mem _ h)

theorem foldMax_spec (l : List ℚ) : ∀ a, (a ≤ l.foldl max a ∧ ∀ x ∈ l, x ≤ l.foldl max a) ∧ (l.foldl max a = a ∨ l.foldl max a ∈ l) := by
  induction l with
  | nil => intro a; simp
  | cons b bs ih =>
    intro a
    obtain ⟨⟨h1, h2⟩, h3⟩ := ih (max a b)
    refine ⟨⟨(le_max_left _ _).trans h1, ?_⟩, ?_⟩
    · intro x hx
      rcases List.mem_cons.1 hx with rfl | hx
      · exact (le_max_right _ _).trans h1
      · exact h2 x hx
    · simp only [List.foldl_cons]
      rcases h3 with h | h
      · rw [h]
        rcases max_choice a b with e | e <;> rw [e] <;> simp
      · exact Or.inr (List.mem_cons_of_mem _ h)

/-- The smallest and the largest element of a list. -/
def IsLeastOf (m : ℚ) (l : List ℚ) : Prop := m ∈ l ∧ ∀ x ∈ l, m ≤ x
def IsGreatestOf (m : ℚ) (l : List ℚ) : Prop := m ∈ l ∧ ∀ x ∈ l, x ≤ m

theorem listMin_least {l : List ℚ} (h : l ≠ []) : IsLeastOf (listMin l) l := by
  obtain ⟨a, as, rfl⟩ := List.exists_cons_of_ne_nil h
  obtain ⟨⟨h1, h2⟩, h3⟩ := foldMin_spec as a
  refine ⟨?_, ?_⟩
  · simp only [listMin, List.tail_cons, List.headD_cons, List.mem_cons]
    exact h3
  · intro x hx
    rcases List.mem_cons.1 hx with rfl | hx
    · exact h1
    · exact h2 x hx

theorem listMax_greatest {l : List ℚ} (h : l ≠ []) : IsGreatestOf (listMax l) l := by
  obtain ⟨a, as, rfl⟩ := List.exists_cons_of_ne_nil h
  obtain ⟨⟨h1, h2⟩, h3⟩ := foldMax_spec as a
  refine ⟨?_, ?_⟩
  · simp only [listMax, List.tail_cons, List.headD_cons, List.mem_cons]
    exact h3
  · intro x hx
    rcases List.mem_cons.1 hx with rfl | hx
    · exact h1
    · exact h2 x hx

/-- **C173_bounds_partial.** For separable maps pixshapebounds returns [{min,max},{y,x}]: the smallest and largest height and
width. Missing: other maps (`C173_bounds_refuted`). -/
theorem C173_bounds_partial (heights widths : List ℚ) (hh : heights ≠ []) (hw : widths ≠ []) :
    ∃ a b c d, pixshapebounds true heights widths = ([a, b], [c, d]) ∧ IsLeastOf a heights ∧ IsLeastOf b widths ∧
      IsGreatestOf c heights ∧ IsGreatestOf d widths :=
  ⟨_, _, _, _, rfl, listMin_least hh, listMin_least hw, listMax_greatest hh, listMax_greatest hw⟩

example : pixshapebounds true [1, 2] [3, 1] = ([1, 1], [2, 3]) := by decide +kernel

/-- **C173_bounds_refuted.** For other maps two numbers come back in place of four, heights and widths taken together. -/
theorem C173_bounds_refuted (heights widths : List ℚ) (hh : heights ≠ []) :
    ∃ a c, pixshapebounds false heights widths = ([a], [c]) ∧ IsLeastOf a (heights ++ widths) ∧
      IsGreatestOf c (heights ++ widths) :=
  ⟨_, _, rfl, listMin_least (by simp [hh]), listMax_greatest (by simp [hh])⟩

/-! ### resampling -/

/-- **C173_spline_partial.** With corner=True and no offset the value of an output pixel is interpolated at the input pixel that
has the same position on the sky, and the map covers the same area. An offset moves the values by that many output pixels.
Missing: corner=False (`C173_spline_refuted`). -/
theorem C173_spline_partial (nin nout : ℕ) (hi : 0 < nin) (ho : 0 < nout) (w : Axis) (p off : ℚ) :
    w.pix2sky (splineResample nin nout 0 true w p).1 = (splineResample nin nout 0 true w p).2.pix2sky p ∧
    (splineResample nin nout 0 true w (-1 / 2)).1 = -1 / 2 ∧
    (splineResample nin nout 0 true w (nout - 1 / 2)).1 = nin - 1 / 2 ∧
    (splineResample nin nout off true w p).1 = (splineResample nin nout 0 true w (p - off)).1 := by
  have h1 : (nin : ℚ) ≠ 0 := by exact_mod_cast hi.ne'
  have h2 : (nout : ℚ) ≠ 0 := by exact_mod_cast ho.ne'
  refine ⟨?_, ?_, ?_, ?_⟩
  · simp only [splineResample, Axis.pix2sky, scaleWcs, if_true]
    field_simp
    ring
  · simp only [splineResample, if_true]
    field_simp
    ring
  · simp only [splineResample, if_true]
    field_simp
    ring
  · simp only [splineResample, if_true]
    ring

/-- **C173_spline_refuted.** With corner=False the positions disagree: the first pixel should stay where it is, and its value
does, but the wcs of the result puts it elsewhere, by 1 - nin/nout input pixels. -/
theorem C173_spline_refuted (nin nout : ℕ) (hi : 0 < nin) (ho : 0 < nout) (hne : nin ≠ nout) (w : Axis) (hw : w.cdelt ≠ 0) :
    (splineResample nin nout 0 false w 0).1 = 0 ∧
    (splineResample nin nout 0 false w 0).2.pix2sky 0 - w.pix2sky 0 = -(1 - (nin : ℚ) / nout) * w.cdelt ∧
    (splineResample nin nout 0 false w 0).2.pix2sky 0 ≠ w.pix2sky 0 := by
  have h1 : (nin : ℚ) ≠ 0 := by exact_mod_cast hi.ne'
  have h2 : (nout : ℚ) ≠ 0 := by exact_mod_cast ho.ne'
  have h3 : (splineResample nin nout 0 false w 0).2.pix2sky 0 - w.pix2sky 0 = -(1 - (nin : ℚ) / nout) * w.cdelt := by
    simp only [splineResample, Axis.pix2sky, scaleWcs, Bool.false_eq_true, if_false]
    field_simp
    ring
  refine ⟨by simp [splineResample], h3, ?_⟩
  intro he
  rw [he, sub_self] at h3
  rcases mul_eq_zero.1 h3.symm with h | h
  · have : (nin : ℚ) / nout = 1 := by linarith
    rw [div_eq_one_iff_eq h2] at this
    exact hne (by exact_mod_cast this)
  · exact hw h

end Pixell
