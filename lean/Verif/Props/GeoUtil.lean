import Verif.Model.GeoUtil
import Verif.Props.Angles
import Mathlib.Tactic.Linarith
import Mathlib.Tactic.FieldSimp
import Mathlib.Tactic.LinearCombination

/-! C145 and C146: corners, positions and containment of a geometry, and the Geometry class. -/

namespace Pixell

/-! ### C145 -/

theorem linspaceEnd_get (a b : ℚ) (num i : ℕ) (hn : 2 ≤ num) (h : i < (linspaceEnd a b num).length) :
    (linspaceEnd a b num)[i] = a + i * ((b - a) / ((num : ℚ) - 1)) := by
  unfold linspaceEnd at *
  rw [List.getElem_map, List.getElem_range, if_neg (by omega)]

theorem unwind_linear (world lin : ℚ → ℚ) (hw : ∀ p, ∃ k : ℤ, world p = lin p + k * 360) (pix : List ℚ)
    (hs : ∀ i (h : i + 1 < pix.length), |lin pix[i+1] - lin pix[i]| < 180) (i : ℕ) (h : i < pix.length) :
    (unwind (pix.map world) 360 0 true)[i]'(by rw [unwind_length, List.length_map]; exact h) -
      (unwind (pix.map world) 360 0 true)[0]'(by rw [unwind_length, List.length_map]; omega) = lin pix[i] - lin pix[0] := by
  induction i with
  | zero => simp
  | succ i ih =>
    have ih := ih (by omega)
    have hl : (pix.map world).length = pix.length := List.length_map _
    obtain ⟨k1, h1⟩ := C19_congruent (pix.map world) 0 true (show (0:ℚ) < 360 by norm_num) i (by omega)
    obtain ⟨k2, h2⟩ := C19_congruent (pix.map world) 0 true (show (0:ℚ) < 360 by norm_num) (i + 1) (by omega)
    have hc := C19_continuous (pix.map world) 0 true (show (0:ℚ) < 360 by norm_num) i (by omega)
    have hstep := hs i h
    obtain ⟨m1, g1⟩ := hw pix[i]
    obtain ⟨m2, g2⟩ := hw pix[i + 1]
    rw [List.getElem_map] at h1 h2
    rw [g1] at h1
    rw [g2] at h2
    have hd : (unwind (pix.map world) 360 0 true)[i+1]'(by rw [unwind_length, hl]; exact h) -
        (unwind (pix.map world) 360 0 true)[i]'(by rw [unwind_length, hl]; omega) =
        lin pix[i+1] - lin pix[i] + ((m2 + k2 - m1 - k1 : ℤ) : ℚ) * 360 := by
      rw [h1, h2]; push_cast; ring
    rw [hd] at hc
    have hz : m2 + k2 - m1 - k1 = 0 := by
      by_contra hne
      have h1 : (1:ℚ) ≤ |((m2 + k2 - m1 - k1 : ℤ) : ℚ)| := by
        have := Int.one_le_abs hne
        exact_mod_cast this
      have h2 : |((m2 + k2 - m1 - k1 : ℤ) : ℚ) * 360| = |((m2 + k2 - m1 - k1 : ℤ) : ℚ)| * 360 := by
        rw [abs_mul]; norm_num
      have h3 := abs_sub_abs_le_abs_sub (((m2 + k2 - m1 - k1 : ℤ) : ℚ) * 360) (-(lin pix[i+1] - lin pix[i]))
      rw [abs_neg, sub_neg_eq_add, add_comm (((m2 + k2 - m1 - k1 : ℤ) : ℚ) * 360)] at h3
      linarith
    rw [hz] at hd
    push_cast at hd
    linarith

/-- C145: `enmap.corners` of a geometry whose coordinate is linear up to whole turns, as the cylindrical projections', gives
corners that differ by exactly the width of the map - `n` pixels, or `n-1` with `corner=False` - whatever turn each single
coordinate was on, as long as the points in between are less than half a turn apart; the first corner is the coordinate of the first pixel's edge (or
centre) up to whole turns. The default `npoint=10` is enough for every map narrower than 4.5 turns. -/
theorem C145_corners_partial (w : Axis) (world : ℚ → ℚ) (hw : ∀ p, ∃ k : ℤ, world p = w.pix2sky p + k * 360) (n npoint : ℕ) (corner : Bool)
    (hn : 2 ≤ npoint) (hwid : |w.cdelt| * n < 180 * ((npoint : ℚ) - 1)) (h1 : 1 ≤ n) :
    ∃ a b, cornersAxis world n npoint corner = some (a, b) ∧
      b - a = w.cdelt * (if corner then (n:ℚ) else n - 1) ∧
      ∃ k : ℤ, a = w.pix2sky (if corner then -1/2 else 0) + k * 360 := by
  have hnp : (0:ℚ) < (npoint:ℚ) - 1 := by
    have : (2:ℚ) ≤ npoint := by exact_mod_cast hn
    linarith
  have hn1 : (1:ℚ) ≤ n := by exact_mod_cast h1
  -- one statement for both cases
  have key : ∀ lo hi : ℚ, 0 ≤ hi - lo → hi - lo ≤ n → ∃ a b,
      ((unwind ((linspaceEnd lo hi npoint).map world) 360 0 true).head? = some a ∧
       (unwind ((linspaceEnd lo hi npoint).map world) 360 0 true).getLast? = some b) ∧
      b - a = w.cdelt * (hi - lo) ∧ ∃ k : ℤ, a = w.pix2sky lo + k * 360 := by
    intro lo hi h0 hle
    have hlen : (linspaceEnd lo hi npoint).length = npoint := by simp [linspaceEnd]
    have hul : (unwind ((linspaceEnd lo hi npoint).map world) 360 0 true).length = npoint := by
      rw [unwind_length, List.length_map, hlen]
    have hs : ∀ i (h : i + 1 < (linspaceEnd lo hi npoint).length),
        |w.pix2sky (linspaceEnd lo hi npoint)[i+1] - w.pix2sky (linspaceEnd lo hi npoint)[i]| < 180 := by
      intro i h
      rw [linspaceEnd_get _ _ _ _ hn, linspaceEnd_get _ _ _ _ hn]
      have : w.pix2sky (lo + ((i + 1 : ℕ) : ℚ) * ((hi - lo) / ((npoint:ℚ) - 1))) - w.pix2sky (lo + (i:ℚ) * ((hi - lo) / ((npoint:ℚ) - 1))) =
          w.cdelt * ((hi - lo) / ((npoint:ℚ) - 1)) := by
        unfold Axis.pix2sky; push_cast; ring
      rw [this, abs_mul, abs_div, abs_of_nonneg h0, abs_of_pos hnp, ← mul_div_assoc, div_lt_iff₀ hnp]
      have : |w.cdelt| * (hi - lo) ≤ |w.cdelt| * n := mul_le_mul_of_nonneg_left hle (abs_nonneg _)
      linarith
    have hlin := unwind_linear world w.pix2sky hw (linspaceEnd lo hi npoint) hs (npoint - 1) (by omega)
    obtain ⟨k, hk⟩ := C19_congruent ((linspaceEnd lo hi npoint).map world) 0 true (show (0:ℚ) < 360 by norm_num) 0
      (by rw [List.length_map]; omega)
    refine ⟨_, _, ⟨by rw [List.head?_eq_getElem?, List.getElem?_eq_getElem (by omega)],
      by rw [List.getLast?_eq_getElem?, List.getElem?_eq_getElem (by omega)]⟩, ?_, ?_⟩
    · have e : (unwind ((linspaceEnd lo hi npoint).map world) 360 0 true).length - 1 = npoint - 1 := by rw [hul]
      simp only [e]
      rw [hlin, linspaceEnd_get _ _ _ _ hn, linspaceEnd_get _ _ _ _ hn]
      unfold Axis.pix2sky
      rw [Nat.cast_sub (by omega)]
      push_cast
      field_simp
      ring
    · obtain ⟨m, hm⟩ := hw (linspaceEnd lo hi npoint)[0]
      refine ⟨m + k, ?_⟩
      rw [hk, List.getElem_map, hm, linspaceEnd_get _ _ _ _ hn]
      push_cast
      ring_nf
  unfold cornersAxis
  cases corner with
  | true =>
    obtain ⟨a, b, ⟨ha, hb⟩, h2, h3⟩ := key (-1/2) ((n:ℚ) - 1/2) (by linarith) (by linarith)
    refine ⟨a, b, ?_, ?_, ?_⟩
    · simp only [if_true, ha, hb]
    · rw [h2]; simp only [if_true]; ring
    · simpa using h3
  | false =>
    obtain ⟨a, b, ⟨ha, hb⟩, h2, h3⟩ := key 0 ((n:ℚ) - 1) (by linarith) (by linarith)
    refine ⟨a, b, ?_, ?_, ?_⟩
    · simp only [Bool.false_eq_true, if_false, ha, hb]
    · rw [h2]; simp only [Bool.false_eq_true, if_false]; ring
    · simpa using h3

/-- A map of 36 pixels of 10 degrees, with coordinates between -180 and 180. -/
example : cornersAxis (fun p => rewind (p * 10 + 170) 0 360) 36 10 true = some (-195, 165) := by decide +kernel

/-- **C145 refuted (few points).** With `npoint=2` the two corners of a map of the full sky are the same point. -/
theorem C145_corners_refuted : cornersAxis (fun p => rewind (p * 10 + 170) 0 360) 36 2 true = some (165, 165) := by decide +kernel

/-- C145: `sky2pix` undoes `pix2sky` on every coordinate within half a turn of the middle of the map, on whatever turn the
coordinate is given, and for every coordinate gives a pixel within half a turn of the middle that has this coordinate up to whole turns. -/
theorem C145_sky2pix (w : Axis) (n : ℕ) (hc : w.cdelt ≠ 0) (p : ℚ) (k : ℤ) :
    (((n:ℚ) / 2 - |360 / w.cdelt| / 2 ≤ p ∧ p < (n:ℚ) / 2 + |360 / w.cdelt| / 2) → sky2pixSafe w n (w.pix2sky p + k * 360) = p) ∧
    ∀ s, (n:ℚ) / 2 - |360 / w.cdelt| / 2 ≤ sky2pixSafe w n s ∧ sky2pixSafe w n s < (n:ℚ) / 2 + |360 / w.cdelt| / 2 ∧
      ∃ m : ℤ, w.pix2sky (sky2pixSafe w n s) = s + m * 360 := by
  have hp : 0 < |360 / w.cdelt| := abs_pos.2 (div_ne_zero (by norm_num) hc)
  have hsg : ∃ σ : ℤ, (σ = 1 ∨ σ = -1) ∧ |360 / w.cdelt| = σ * (360 / w.cdelt) := by
    rcases abs_choice (360 / w.cdelt) with h | h
    · exact ⟨1, Or.inl rfl, by rw [h]; simp⟩
    · exact ⟨-1, Or.inr rfl, by rw [h]; simp⟩
  obtain ⟨σ, hσ, hab⟩ := hsg
  have hσ2 : (σ:ℚ) * σ = 1 := by rcases hσ with rfl | rfl <;> norm_num
  constructor
  · rintro ⟨h1, h2⟩
    unfold sky2pixSafe
    simp only [Bool.false_eq_true, if_false, add_zero]
    symm
    apply C18_unique _ _ hp
    refine ⟨h1, h2, -k * σ, ?_⟩
    have : w.sky2pix (w.pix2sky p + k * 360) = p + k * (360 / w.cdelt) := by
      unfold Axis.sky2pix Axis.pix2sky
      field_simp
      ring
    rw [this, hab]
    push_cast
    linear_combination ((k:ℚ) * (360 / w.cdelt)) * hσ2
  · intro s
    have hr := C18_rewind (w.sky2pix s) ((n:ℚ) / 2) hp
    obtain ⟨h1, h2, m, hm⟩ := hr
    have e : sky2pixSafe w n s = rewind (w.sky2pix s) ((n:ℚ) / 2) |360 / w.cdelt| := by
      unfold sky2pixSafe
      simp only [Bool.false_eq_true, if_false, add_zero]
    rw [e]
    refine ⟨h1, h2, m * σ, ?_⟩
    rw [hm, hab]
    unfold Axis.pix2sky Axis.sky2pix
    push_cast
    field_simp
    ring

example : sky2pixSafe ⟨0, -1, 181⟩ 360 (-359) = 179 := by decide +kernel

/-- C145: `contains` is right about points that are not within the outermost half pixel: a point of the first pixel's lower half is said to be
outside and a point up to half a pixel beyond the last one inside. -/
theorem C145_contains_partial (n : ℕ) (p : ℚ) (h1 : ¬ (-1/2 ≤ p ∧ p < 0)) (h2 : ¬ ((n:ℚ) - 1/2 ≤ p ∧ p < n)) :
    containsAxis n p = true ↔ (-1/2 ≤ p ∧ p < (n:ℚ) - 1/2) := by
  unfold containsAxis
  rw [Bool.and_eq_true, decide_eq_true_iff, decide_eq_true_iff]
  constructor
  · rintro ⟨a, b⟩
    refine ⟨by linarith, ?_⟩
    by_contra hc
    exact h2 ⟨not_lt.1 hc, b⟩
  · rintro ⟨a, b⟩
    refine ⟨?_, by linarith⟩
    by_contra hc
    exact h1 ⟨a, not_le.1 hc⟩

/-- **C145 refuted (the edge).** In every map, a point a quarter pixel before the centre of the first pixel is in that pixel but not "contained", and a
point three quarters of a pixel beyond the centre of the last pixel is in no pixel but "contained". -/
theorem C145_contains_refuted (n : ℕ) (h : 1 ≤ n) : containsAxis n (-1/4) = false ∧ containsAxis n ((n:ℚ) - 1 + 3/4) = true := by
  have hn : (1:ℚ) ≤ n := by exact_mod_cast h
  unfold containsAxis
  constructor
  · have : ¬ ((0:ℚ) ≤ -1/4) := by norm_num
    simp [this]
  · rw [Bool.and_eq_true, decide_eq_true_iff, decide_eq_true_iff]
    constructor <;> linarith

/-! ### C146 -/

theorem posBlocks_row (world : ℕ → ℕ → ℚ × ℚ) (ny nx rowstep : ℕ) (hr : 0 < rowstep) (fuel i1 : ℕ) (res : ℕ → Option (List (ℚ × ℚ)))
    (hf : ny ≤ i1 + fuel) (y : ℕ) :
    posBlocks world ny nx rowstep fuel i1 res y = if i1 ≤ y ∧ y < ny then some (rowSky world nx y) else res y := by
  induction fuel generalizing i1 res with
  | zero => unfold posBlocks; rw [if_neg (by omega)]
  | succ fuel ih =>
    unfold posBlocks
    by_cases h : i1 < ny
    · rw [if_pos h]
      rw [ih _ _ (by omega)]
      by_cases h1 : i1 + rowstep ≤ y ∧ y < ny
      · rw [if_pos h1, if_pos (by omega)]
      · rw [if_neg h1]
        by_cases h2 : i1 ≤ y ∧ y < min (i1 + rowstep) ny
        · rw [if_pos h2, if_pos (by omega)]
        · rw [if_neg h2, if_neg (by omega)]
    · rw [if_neg h, if_neg (by omega)]

/-- C146: `posmap` fills every row, with the same values for every block size, and for coordinates in which declination depends
on the row only and right ascension on the column only, the fast and the slow calculation agree exactly. -/
theorem C146_posmap (world : ℕ → ℕ → ℚ × ℚ) (ny nx bsize : ℕ) (hn : 0 < nx) (hb : 0 < bsize) (y : ℕ) (hy : y < ny) :
    posmapRow false world ny nx bsize y = some (rowSky world nx y) ∧
    ((∀ y x, (world y x).1 = (world y 0).1) → (∀ y x, (world y x).2 = (world 0 x).2) →
      posmapRow true world ny nx bsize y = posmapRow false world ny nx bsize y) := by
  have hr : 0 < posRowstep bsize nx := Nat.div_pos (by omega) hn
  have h1 : posmapRow false world ny nx bsize y = some (rowSky world nx y) := by
    unfold posmapRow
    rw [if_neg (by simp), posBlocks_row world ny nx _ hr ny 0 _ (by omega), if_pos ⟨by omega, hy⟩]
  refine ⟨h1, ?_⟩
  intro hd hra
  rw [h1]
  unfold posmapRow rowSky
  rw [if_pos rfl, if_pos hy]
  dsimp only
  rw [List.map_map, List.map_map]
  congr 2
  · rw [show (Prod.fst ∘ world y) = fun _ => (world y 0).1 from funext fun x => hd y x]
    simp
  · congr 1
    apply List.map_congr_left
    intro x _
    exact (hra y x).symm

/-- C146: the declinations and right ascensions in `posmap` are those of the pixels, the latter up to whole turns, and neighbours in a row
differ by at most half a turn. -/
theorem C146_row (world : ℕ → ℕ → ℚ × ℚ) (nx y x : ℕ) (hx : x < nx) :
    ∃ k : ℤ, (rowSky world nx y)[x]? = some ((world y x).1, (world y x).2 + k * 360) := by
  have hl : (((List.range nx).map (world y)).map Prod.snd).length = nx := by simp
  obtain ⟨k, hk⟩ := C19_congruent (((List.range nx).map (world y)).map Prod.snd) 0 true (show (0:ℚ) < 360 by norm_num) x (by omega)
  refine ⟨k, ?_⟩
  unfold rowSky
  dsimp only
  rw [List.getElem?_zip_eq_some]
  constructor
  · rw [List.getElem?_map, List.getElem?_map, List.getElem?_range hx]
    rfl
  · rw [List.getElem?_eq_getElem (by rw [unwind_length]; omega), hk]
    simp

example : (rowSky (fun y x => ((y : ℚ), rewind (170 + 10 * (x:ℚ)) 0 360)) 4 2) = [(2, -190), (2, -180), (2, -170), (2, -160)] := by decide +kernel

/-- C146: a Geometry made of a shape and a wcs has these; leading axes can be dropped and replaced. -/
theorem C146_geometry_partial {W : Type} (shape pre : List ℕ) (w : W) (h : 2 ≤ shape.length) :
    geometryInit (.plain shape) (some w) = some (shape, w) ∧
    geoNopre (geoWithPre pre shape) = geoNopre shape ∧ (geoNopre shape).length = 2 ∧
    (geoWithPre pre shape).take pre.length = pre := by
  refine ⟨rfl, ?_, ?_, ?_⟩
  · unfold geoNopre geoWithPre geoNopre
    have hl : (shape.drop (shape.length - 2)).length = 2 := by rw [List.length_drop]; omega
    rw [List.length_append, hl, show pre.length + 2 - 2 = pre.length by omega, List.drop_left]
  · unfold geoNopre
    rw [List.length_drop]; omega
  · unfold geoWithPre
    rw [List.take_left]

/-- **C146 refuted (geometry from a geometry).** `Geometry(geo)` - "either a Geometry object or a shape, wcs pair" - fails for every object: the
check looks at the argument `wcs`, which is absent. With an object and a wcs, the wcs is ignored. -/
theorem C146_geometry_refuted {W : Type} (shape : List ℕ) (w w' : W) :
    geometryInit (.obj shape w) none = none ∧ geometryInit (.obj shape w) (some w') = some (shape, w) := ⟨rfl, rfl⟩

end Pixell
