import Verif.Model.Thumbs
import Verif.Props.Apod
import Verif.Props.Neighborhood

/-!
C165: thumbnails of positive maps are positive and local, densities are kept, and the apodization stays outside the
radius, by one pixel. Up to the radius itself, and for pixels that are not square, it does not.
-/
namespace Pixell
open Real

/-- The weights of the two neighbours. -/
theorem frac_mem {y : ℝ} {n : ℕ} (h : 0 ≤ y ∧ y ≤ (n : ℝ) - 1) :
    0 ≤ y - ⌊y⌋₊ ∧ y - ⌊y⌋₊ ≤ 1 ∧ ⌊y⌋₊ < n ∧ (⌊y⌋₊ + 1 < n ∨ y - ⌊y⌋₊ = 0) := by
  have h1 := Nat.floor_le h.1
  have h2 := Nat.lt_floor_add_one y
  have h3 : ⌊y⌋₊ < n := by
    have : (⌊y⌋₊ : ℝ) < n := by linarith
    exact_mod_cast this
  refine ⟨by linarith, by linarith, h3, ?_⟩
  by_cases h4 : ⌊y⌋₊ + 1 < n
  · exact Or.inl h4
  · right
    have h5 : ⌊y⌋₊ + 1 = n := by omega
    have : (⌊y⌋₊ : ℝ) + 1 = n := by exact_mod_cast h5
    linarith

/-- Between two numbers. -/
theorem mix_mem {lo hi u a b : ℝ} (h0 : 0 ≤ u) (h1 : u ≤ 1) (ha : lo ≤ a ∧ a ≤ hi) (hb : u = 0 ∨ (lo ≤ b ∧ b ≤ hi)) :
    lo ≤ (1 - u) * a + u * b ∧ (1 - u) * a + u * b ≤ hi := by
  rcases hb with h | hb
  · subst h; simpa using ha
  · constructor <;> nlinarith

/-- Linear interpolation inside the map stays within the bounds of the map. -/
theorem bilinConst_mem {ny nx : ℕ} {f : ℕ → ℕ → ℝ} {lo hi y x : ℝ} (hf : ∀ i j, i < ny → j < nx → lo ≤ f i j ∧ f i j ≤ hi)
    (hy : 0 ≤ y ∧ y ≤ (ny : ℝ) - 1) (hx : 0 ≤ x ∧ x ≤ (nx : ℝ) - 1) :
    lo ≤ bilinConst ny nx f y x ∧ bilinConst ny nx f y x ≤ hi := by
  unfold bilinConst
  rw [if_pos ⟨hy, hx⟩]
  obtain ⟨a1, a2, a3, a4⟩ := frac_mem hy
  obtain ⟨b1, b2, b3, b4⟩ := frac_mem hx
  have row : ∀ i, i < ny → lo ≤ (1 - (x - ⌊x⌋₊)) * f i ⌊x⌋₊ + (x - ⌊x⌋₊) * f i (⌊x⌋₊ + 1) ∧
      (1 - (x - ⌊x⌋₊)) * f i ⌊x⌋₊ + (x - ⌊x⌋₊) * f i (⌊x⌋₊ + 1) ≤ hi := by
    intro i hi'
    refine mix_mem b1 b2 (hf i _ hi' b3) ?_
    rcases b4 with h | h
    · exact Or.inr (hf i _ hi' h)
    · exact Or.inl h
  refine mix_mem a1 a2 (row _ a3) ?_
  rcases a4 with h | h
  · exact Or.inr (row _ h)
  · exact Or.inl h

/-- The apodized part of the map lies between the bounds of the map. -/
theorem apod_mem {ny nx : ℕ} {w : ℤ} {med : ℝ} {t : ℕ → ℕ → ℝ} {lo hi : ℝ} (hy : w ≤ ny) (hx : w ≤ nx)
    (ht : ∀ i j, i < ny → j < nx → lo ≤ t i j ∧ t i j ≤ hi) (hm : lo ≤ med ∧ med ≤ hi) :
    ∃ a, apodMap apodProfileCos .median med ny nx w w t = some a ∧ (∀ i j, i < ny → j < nx → lo ≤ a i j ∧ a i j ≤ hi) ∧
      ∀ i j, i < ny → j < nx → w ≤ i → (i : ℤ) + w < ny → w ≤ j → (j : ℤ) + w < nx → a i j = t i j := by
  obtain ⟨a, ha, h⟩ := C128_taper apodProfileCos (C128_profile _ (Or.inr rfl)).2.1 .median (Or.inr (Or.inr rfl)) med ny nx w w
    hy hx t
  refine ⟨a, ha, ?_, ?_⟩
  · intro i j hi' hj
    have e := h i j hi' hj
    simp only [reduceCtorEq, if_false] at e
    obtain ⟨p1, p2, -, -⟩ := C128_taper_range apodProfileCos (Or.inr rfl) ny w i hi'
    obtain ⟨q1, q2, -, -⟩ := C128_taper_range apodProfileCos (Or.inr rfl) nx w j hj
    set u := taper apodProfileCos ny w i * taper apodProfileCos nx w j with hu
    have u0 : 0 ≤ u := by positivity
    have u1 : u ≤ 1 := by rw [hu]; nlinarith
    have e2 : a i j = (1 - u) * med + u * t i j := by rw [e]; ring
    rw [e2]
    exact mix_mem u0 u1 hm (Or.inr (ht i j hi' hj))
  · intro i j hi' hj w1 w2 w3 w4
    have e := h i j hi' hj
    simp only [reduceCtorEq, if_false] at e
    rw [e, (C128_taper_range apodProfileCos (Or.inr rfl) ny w i hi').2.2.1 w1 w2,
      (C128_taper_range apodProfileCos (Or.inr rfl) nx w j hj).2.2.1 w3 w4]
    ring

/-- **C165_positive.** Thumbnails of a map of positive numbers stay positive, and no value exceeds the largest of the map:
for extensive maps this holds for the densities. The median is any number between the bounds. -/
theorem C165_positive {ny nx : ℕ} {w : ℤ} {med hi osz y x : ℝ} {ext isz : ℕ → ℕ → ℝ} (hy : w ≤ ny) (hx : w ≤ nx)
    (hs : ∀ i j, 0 < isz i j) (ho : 0 < osz) (hm : 0 ≤ med ∧ med ≤ hi) :
    ((∀ i j, i < ny → j < nx → 0 ≤ ext i j ∧ ext i j ≤ hi) →
      ∃ v, thumbValue false ny nx w med ext isz osz y x = some v ∧ 0 ≤ v ∧ v ≤ hi) ∧
    ((∀ i j, i < ny → j < nx → 0 ≤ ext i j ∧ ext i j ≤ hi * isz i j) →
      ∃ v, thumbValue true ny nx w med ext isz osz y x = some v ∧ 0 ≤ v ∧ v ≤ hi * osz) := by
  have hi0 : 0 ≤ hi := hm.1.trans hm.2
  have bl : ∀ a : ℕ → ℕ → ℝ, (∀ i j, i < ny → j < nx → 0 ≤ a i j ∧ a i j ≤ hi) →
      0 ≤ bilinConst ny nx a y x ∧ bilinConst ny nx a y x ≤ hi := by
    intro a ha
    by_cases h : (0 ≤ y ∧ y ≤ (ny : ℝ) - 1) ∧ (0 ≤ x ∧ x ≤ (nx : ℝ) - 1)
    · exact bilinConst_mem ha h.1 h.2
    · unfold bilinConst
      rw [if_neg h]
      exact ⟨le_rfl, hi0⟩
  constructor
  · intro he
    obtain ⟨a, ha, hb, -⟩ := apod_mem hy hx he hm
    refine ⟨bilinConst ny nx a y x, ?_, bl a hb⟩
    simp only [thumbValue, Bool.false_eq_true, if_false, ha, Option.map_some]
  · intro he
    obtain ⟨a, ha, hb, -⟩ := apod_mem (t := fun i j => ext i j / isz i j) hy hx (by
      intro i j h1 h2
      exact ⟨div_nonneg (he i j h1 h2).1 (hs i j).le, (div_le_iff₀ (hs i j)).2 (he i j h1 h2).2⟩) hm
    obtain ⟨c1, c2⟩ := bl a hb
    refine ⟨bilinConst ny nx a y x * osz, ?_, by positivity, by nlinarith⟩
    simp only [thumbValue, if_true, ha, Option.map_some]

/-- **C165_density.** A map of constant density keeps it: with extensive=True every pixel of the thumbnail has the density
times its own size, otherwise the constant itself. (Places inside the extracted part; the median is the density.) -/
theorem C165_density {ny nx : ℕ} {w : ℤ} {D osz y x : ℝ} {ext isz : ℕ → ℕ → ℝ} (hy : w ≤ ny) (hx : w ≤ nx)
    (hs : ∀ i j, 0 < isz i j) (iy : 0 ≤ y ∧ y ≤ (ny : ℝ) - 1) (ix : 0 ≤ x ∧ x ≤ (nx : ℝ) - 1) :
    ((∀ i j, ext i j = D) → thumbValue false ny nx w D ext isz osz y x = some D) ∧
    ((∀ i j, ext i j = D * isz i j) → thumbValue true ny nx w D ext isz osz y x = some (D * osz)) := by
  have bl : ∀ t : ℕ → ℕ → ℝ, (∀ i j, t i j = D) → ∃ a, apodMap apodProfileCos .median D ny nx w w t = some a ∧
      bilinConst ny nx a y x = D := by
    intro t ht
    obtain ⟨a, ha, hb, -⟩ := apod_mem (lo := D) (hi := D) (t := t) (med := D) hy hx
      (by intro i j _ _; rw [ht]; exact ⟨le_rfl, le_rfl⟩) ⟨le_rfl, le_rfl⟩
    have := bilinConst_mem hb iy ix
    exact ⟨a, ha, le_antisymm this.2 this.1⟩
  constructor
  · intro he
    obtain ⟨a, ha, hb⟩ := bl _ he
    simp only [thumbValue, Bool.false_eq_true, if_false, ha, Option.map_some, hb]
  · intro he
    obtain ⟨a, ha, hb⟩ := bl (fun i j => ext i j / isz i j) (by
      intro i j
      rw [he, mul_div_assoc, div_self (hs i j).ne', mul_one])
    simp only [thumbValue, if_true, ha, Option.map_some, hb]

/-- **C165_margin_partial.** Along each axis the two pixels between which a place is interpolated lie outside the
apodization, if the place is within the radius less one pixel, and the pixels are square or the margin along the axis is as
many pixels wide as the apodization (along ra the margin grows with 1/cos dec). -/
theorem C165_margin_partial {c0 step a t rho half apod cmin : ℝ} (hs : step ≠ 0) (hin : |t - a| + |step| < rho)
    (hm : apod / cmin ≤ (half - rho) / |step|) :
    let b := thumbRange c0 step a half
    let w := thumbApod apod cmin
    let u := (t - c0) / step - b.1
    w ≤ ⌊u⌋ ∧ ⌊u⌋ + 1 + w < b.2 - b.1 := by
  intro b w u
  have hc : 0 < |step| := abs_pos.mpr hs
  set P := (a - c0) / step with hP
  have h0 := abs_nonneg (t - a)
  -- the ends of the range
  have ends : (b.1 : ℝ) ≤ P - half / |step| + 1 / 2 ∧ P + half / |step| - 1 / 2 ≤ (b.2 : ℝ) - 1 := by
    have eb1 : b.1 = min (rintReal ((a - half - c0) / step)) (rintReal ((a + half - c0) / step)) := rfl
    have eb2 : b.2 = max (rintReal ((a - half - c0) / step)) (rintReal ((a + half - c0) / step)) + 1 := rfl
    have d1 := rintReal_dist ((a - half - c0) / step)
    have d2 := rintReal_dist ((a + half - c0) / step)
    have l1 : (b.1 : ℝ) ≤ rintReal ((a - half - c0) / step) := by exact_mod_cast eb1 ▸ min_le_left _ _
    have l2 : (b.1 : ℝ) ≤ rintReal ((a + half - c0) / step) := by exact_mod_cast eb1 ▸ min_le_right _ _
    have e3 : (b.2 : ℝ) - 1 = (max (rintReal ((a - half - c0) / step)) (rintReal ((a + half - c0) / step)) : ℤ) := by
      rw [eb2]; push_cast; ring
    have l3 : (rintReal ((a - half - c0) / step) : ℝ) ≤ (b.2 : ℝ) - 1 := by rw [e3]; exact_mod_cast le_max_left _ _
    have l4 : (rintReal ((a + half - c0) / step) : ℝ) ≤ (b.2 : ℝ) - 1 := by rw [e3]; exact_mod_cast le_max_right _ _
    rcases lt_or_gt_of_ne hs with hneg | hpos
    · have q1 : (a + half - c0) / step = P - half / |step| := by
        rw [hP, abs_of_neg hneg]; field_simp; ring
      have q2 : (a - half - c0) / step = P + half / |step| := by
        rw [hP, abs_of_neg hneg]; field_simp; ring
      rw [q1] at d2 l2
      rw [q2] at d1 l3
      constructor <;> linarith
    · have q1 : (a - half - c0) / step = P - half / |step| := by
        rw [hP, abs_of_pos hpos]; field_simp; ring
      have q2 : (a + half - c0) / step = P + half / |step| := by
        rw [hP, abs_of_pos hpos]; field_simp; ring
      rw [q1] at d1 l1
      rw [q2] at d2 l4
      constructor <;> linarith
  have hu : |(t - c0) / step - P| = |t - a| / |step| := by
    rw [hP, ← sub_div, abs_div]
    congr 2
    ring
  obtain ⟨u1, u2⟩ := abs_le.mp hu.le
  have hk : |t - a| / |step| + 1 < rho / |step| := by
    rw [lt_div_iff₀ hc, add_mul, div_mul_cancel₀ _ hc.ne']
    linarith
  have hm' : apod / cmin ≤ half / |step| - rho / |step| := by rwa [← sub_div]
  have hw := (rintReal_dist (apod / cmin)).1
  have ew : (w : ℝ) = rintReal (apod / cmin) := rfl
  have eu : u = (t - c0) / step - b.1 := rfl
  constructor
  · rw [Int.le_floor]
    rw [ew, eu]
    linarith [ends.1]
  · have h1 := Int.floor_le u
    have : ((⌊u⌋ + 1 + w : ℤ) : ℝ) < ((b.2 - b.1 : ℤ) : ℝ) := by
      push_cast
      rw [ew]
      rw [eu] at h1 ⊢
      linarith [ends.2]
    exact_mod_cast this

/-- **C165_local_partial.** A value at such a place is the linear interpolation of the four surrounding pixels of the map
(of its density if extensive), untouched by the apodization and whatever the rest of the map contains. -/
theorem C165_local_partial {ny nx : ℕ} {w : ℤ} {med osz y x : ℝ} {ext isz : ℕ → ℕ → ℝ} (hy : w ≤ ny) (hx : w ≤ nx)
    (h0 : 0 ≤ w) (y1 : w ≤ ⌊y⌋) (y2 : ⌊y⌋ + 1 + w < ny) (x1 : w ≤ ⌊x⌋) (x2 : ⌊x⌋ + 1 + w < nx) :
    thumbValue false ny nx w med ext isz osz y x = some (bilinConst ny nx ext y x) ∧
    thumbValue true ny nx w med ext isz osz y x = some (bilinConst ny nx (fun i j => ext i j / isz i j) y x * osz) := by
  have key : ∀ t : ℕ → ℕ → ℝ, ∃ a, apodMap apodProfileCos .median med ny nx w w t = some a ∧
      bilinConst ny nx a y x = bilinConst ny nx t y x := by
    intro t
    obtain ⟨a, ha, h⟩ := C128_taper apodProfileCos (C128_profile _ (Or.inr rfl)).2.1 .median (Or.inr (Or.inr rfl)) med ny nx
      w w hy hx t
    refine ⟨a, ha, ?_⟩
    have ey : ((⌊y⌋₊ : ℕ) : ℤ) = ⌊y⌋ := Int.natCast_floor_eq_floor (Int.floor_nonneg.1 (h0.trans y1))
    have ex : ((⌊x⌋₊ : ℕ) : ℤ) = ⌊x⌋ := Int.natCast_floor_eq_floor (Int.floor_nonneg.1 (h0.trans x1))
    have same : ∀ i j, (i = ⌊y⌋₊ ∨ i = ⌊y⌋₊ + 1) → (j = ⌊x⌋₊ ∨ j = ⌊x⌋₊ + 1) → a i j = t i j := by
      intro i j hi' hj
      have a1 : i < ny := by omega
      have a2 : j < nx := by omega
      have e := h i j a1 a2
      simp only [reduceCtorEq, if_false] at e
      rw [e, (C128_taper_range apodProfileCos (Or.inr rfl) ny w i a1).2.2.1 (by omega) (by omega),
        (C128_taper_range apodProfileCos (Or.inr rfl) nx w j a2).2.2.1 (by omega) (by omega)]
      ring
    unfold bilinConst
    simp only
    rw [same _ _ (Or.inl rfl) (Or.inl rfl), same _ _ (Or.inl rfl) (Or.inr rfl), same _ _ (Or.inr rfl) (Or.inl rfl),
      same _ _ (Or.inr rfl) (Or.inr rfl)]
  constructor
  · obtain ⟨a, ha, hb⟩ := key ext
    simp only [thumbValue, Bool.false_eq_true, if_false, ha, Option.map_some, hb]
  · obtain ⟨a, ha, hb⟩ := key fun i j => ext i j / isz i j
    simp only [thumbValue, if_true, ha, Option.map_some, hb]

theorem rintReal_eq {x : ℝ} {k : ℤ} (h1 : (k : ℝ) - 1 / 2 < x) (h2 : x < k + 1 / 2) : rintReal x = k := by
  obtain ⟨a, b⟩ := rintReal_dist x
  have : (rintReal x : ℝ) < k + 1 := by linarith
  have h3 : rintReal x < k + 1 := by exact_mod_cast this
  have : (k : ℝ) - 1 < rintReal x := by linarith
  have h4 : k - 1 < rintReal x := by exact_mod_cast this
  omega

/-- **C165_margin_refuted.** Up to the radius itself the apodization is not outside: with square pixels of size one, radius
1 and apodization 3/5 around 1/5, the place at distance 1 is interpolated from a pixel inside the apodization. -/
theorem C165_margin_refuted : ∃ a t r apod : ℝ, |t - a| ≤ r ∧
    ¬ (thumbApod apod 1 ≤ ⌊(t - 0) / 1 - (thumbRange 0 1 a (r + apod)).1⌋) := by
  refine ⟨1 / 5, -4 / 5, 1, 3 / 5, by norm_num [abs_of_neg], ?_⟩
  have e1 : thumbApod (3 / 5) 1 = 1 := rintReal_eq (by norm_num) (by norm_num)
  have e2 : (thumbRange 0 1 (1 / 5) (1 + 3 / 5)).1 = -1 := by
    have a1 : rintReal ((1 / 5 - (1 + 3 / 5) - 0) / 1) = -1 := rintReal_eq (by norm_num) (by norm_num)
    have a2 : rintReal ((1 / 5 + (1 + 3 / 5) - 0) / 1) = 2 := rintReal_eq (by norm_num) (by norm_num)
    unfold thumbRange nbRange
    simp only [a1, a2]
    decide
  rw [e1, e2]
  have : ⌊((-4 / 5 : ℝ) - 0) / 1 - ((-1 : ℤ) : ℝ)⌋ = 0 := by
    rw [Int.floor_eq_iff]; norm_num
  rw [this]
  decide

/-- **C165_pixels_refuted.** With pixels that are not square even the center of a thumbnail is apodized, or the call fails:
the width of the apodization is counted in the smaller pixels along both axes. Radius 5, apodization 2 and pixels of 1/2 by
4: along x the part has 5 pixels and the apodization 4, more than half. With pixels of 1/4 by 4 the apodization is wider
than the part and apod raises an exception. -/
theorem C165_pixels_refuted :
    (thumbApod 2 (1 / 2) = 4 ∧ (thumbRange 0 4 0 (5 + 2)) = (-2, 3)) ∧
    (∀ ny med ext isz osz y x, 4 ≤ ny →
      ∃ a, apodMap apodProfileCos .median med ny 5 4 4 ext = some a ∧ thumbValue false ny 5 4 med ext isz osz y x
        = some (bilinConst ny 5 a y x) ∧ ∀ i < ny, ext i 2 ≠ med → a i 2 ≠ ext i 2) ∧
    (thumbApod 2 (1 / 4) = 8 ∧ ∀ ny med ext isz osz y x, 0 < ny → thumbValue false ny 5 8 med ext isz osz y x = none) := by
  refine ⟨⟨rintReal_eq (by norm_num) (by norm_num), ?_⟩, ?_, rintReal_eq (by norm_num) (by norm_num), ?_⟩
  · have a1 : rintReal ((0 - (5 + 2) - 0) / 4) = -2 := rintReal_eq (by norm_num) (by norm_num)
    have a2 : rintReal ((0 + (5 + 2) - 0) / 4) = 2 := rintReal_eq (by norm_num) (by norm_num)
    unfold thumbRange nbRange
    simp only [a1, a2]
    decide
  · intro ny med ext isz osz y x hn
    obtain ⟨a, ha, h⟩ := C128_taper apodProfileCos (C128_profile _ (Or.inr rfl)).2.1 .median (Or.inr (Or.inr rfl)) med ny 5
      4 4 (by exact_mod_cast hn) (by norm_num) ext
    refine ⟨a, ha, ?_, ?_⟩
    · simp only [thumbValue, Bool.false_eq_true, if_false, ha, Option.map_some]
    · intro i hi hne
      rw [h i 2 hi (by norm_num)]
      simp only [reduceCtorEq, if_false]
      obtain ⟨p1, p2, -, -⟩ := C128_taper_range apodProfileCos (Or.inr rfl) ny 4 i hi
      have q : taper apodProfileCos 5 4 2 < 1 := by
        obtain ⟨-, g1, mono, -⟩ := C128_profile apodProfileCos (Or.inr rfl)
        have e : taper apodProfileCos 5 4 2 = apodProfileCos (3 / 5) * apodProfileCos (3 / 5) := by
          unfold taper
          norm_num
        have l1 : apodProfileCos (3 / 5) < 1 := by rw [← g1]; exact mono _ _ (by norm_num) (by norm_num) le_rfl
        have l0 : 0 ≤ apodProfileCos (3 / 5) := (profile_unit _ (Or.inr rfl) _ (by norm_num) (by norm_num)).1
        rw [e]
        nlinarith
      have q0 := (C128_taper_range apodProfileCos (Or.inr rfl) 5 4 2 (by norm_num)).1
      intro hc
      have h2 : (ext i 2 - med) * (taper apodProfileCos ny 4 i * taper apodProfileCos 5 4 2 - 1) = 0 := by linarith
      rcases mul_eq_zero.1 h2 with h3 | h3
      · exact hne (by linarith)
      · nlinarith
  · intro ny med ext isz osz y x hn
    have := (C128_error apodProfileCos .median med ny 5 8 8 hn (by norm_num) ext).2 ⟨by decide, Or.inr (by norm_num)⟩
    simp only [thumbValue, Bool.false_eq_true, if_false, this, Option.map_none]

/-- Non-vacuity of the margin: square pixels of size one, radius 5, apodization 2, a place at distance 3. -/
example : |(3 : ℝ) - 0| + |(1 : ℝ)| < 5 ∧ (2 : ℝ) / 1 ≤ (7 - 5) / |(1 : ℝ)| := by
  constructor <;> norm_num

end Pixell
