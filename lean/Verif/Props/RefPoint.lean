import Verif.Model.RefPoint
import Verif.Props.Wcs
import Mathlib.Analysis.SpecialFunctions.Trigonometric.Bounds
import Mathlib.Analysis.Real.Pi.Bounds
import Mathlib.Analysis.SpecialFunctions.Trigonometric.Arctan
import Mathlib.Analysis.SpecialFunctions.Log.Basic

/-!
C166: recenter_geo moves the reference point without moving a pixel, fix_cdelt keeps pixels only without rotation, and the
extents of the full sky are those of the projections.
-/
namespace Pixell

/-- The projection is one of the cylindrical ones of FITS (cyp, cea, car, mer) and its reference latitude is the equator. -/
def AroundEquator (w : CylWcs) : Prop := (w.proj = "cyp" ∨ w.proj = "cea" ∨ w.proj = "car" ∨ w.proj = "mer") ∧ w.y.crval = 0

theorem isSep_iff (w : CylWcs) : w.isSep = true ↔ AroundEquator w := by
  unfold CylWcs.isSep CylWcs.isCyl AroundEquator
  simp

/-- **C166_recenter.** recenter_geo keeps the position of every pixel, also between the centers, and moves the reference
point to the middle of the map: no pixel is further from it than half the width of the map, so less than 180° if the map is
not wider than the sky. It raises only when told to recenter a geometry that is not cylindrical around the equator, and
changes nothing for False, or for such geometries. -/
theorem C166_recenter (nx : ℕ) (w : CylWcs) (mode : RecenterMode) :
    (∀ v, recenterGeo nx w mode = some v → v.proj = w.proj ∧ v.y = w.y ∧ ∀ p : ℚ, v.x.pix2sky p = w.x.pix2sky p) ∧
    (recenterGeo nx w mode = none ↔ mode = .yes ∧ ¬ AroundEquator w) ∧
    ((mode = .no ∨ (mode = .auto ∧ ¬ AroundEquator w)) → recenterGeo nx w mode = some w) ∧
    (mode ≠ .no → AroundEquator w → ∃ v, recenterGeo nx w mode = some v ∧
      ∀ p : ℚ, 0 ≤ p → p ≤ (nx : ℚ) - 1 → |v.x.pix2sky p - v.x.crval| ≤ ((nx : ℚ) - 1) / 2 * |w.x.cdelt|) := by
  rw [← isSep_iff, Bool.not_eq_true]
  refine ⟨?_, ?_, ?_, ?_⟩
  · intro v hv
    have key : v = w ∨ v = { w with x := recenterX w.x (((nx : ℚ) - 1) / 2 + 1) } := by
      unfold recenterGeo at hv
      cases mode <;> cases hs : w.isSep <;> simp_all
    rcases key with rfl | rfl
    · exact ⟨rfl, rfl, fun _ => rfl⟩
    · exact ⟨rfl, rfl, fun p => C15_recenter w.x _ p⟩
  · unfold recenterGeo
    cases mode <;> cases hs : w.isSep <;> simp
  · unfold recenterGeo
    rintro (rfl | ⟨rfl, hs⟩)
    · simp
    · simp [hs]
  · intro hm hs
    refine ⟨{ w with x := recenterX w.x (((nx : ℚ) - 1) / 2 + 1) }, ?_, ?_⟩
    · unfold recenterGeo
      cases mode <;> simp_all
    · intro p h0 h1
      have e : (recenterX w.x (((nx : ℚ) - 1) / 2 + 1)).pix2sky p - (recenterX w.x (((nx : ℚ) - 1) / 2 + 1)).crval =
          (p - ((nx : ℚ) - 1) / 2) * w.x.cdelt := by
        simp only [recenterX, Axis.pix2sky]; ring
      simp only
      rw [e, abs_mul]
      refine mul_le_mul_of_nonneg_right ?_ (abs_nonneg _)
      rw [abs_le]
      constructor <;> linarith

example : (recenterGeo 100 ⟨"car", ⟨0, -1, 1⟩, ⟨0, 1, 91⟩⟩ .auto).map (fun v => (v.x.crpix, v.x.crval)) =
    some (101 / 2, -99 / 2) := by decide +kernel

/-- **C166_fix_refuted.** fix_wcs can leave the reference point more than half a sky from a pixel of the map, which it is
there to prevent: it takes the first pixel to be pixel 0, but reference pixels count from 1. The reference point of this map
of the whole sky is at pixel 179, and the last of the 360 pixels is at 181°. -/
theorem C166_fix_refuted : ∃ w : Axis, w.cdelt = 1 ∧ w.crval = 0 ∧ fixWcs w (some 360) = w ∧ 180 < |w.pix2sky 359 - w.crval| :=
  ⟨⟨0, 1, 179⟩, by decide +kernel, by decide +kernel, by decide +kernel, by decide +kernel⟩

/-- **C166_cdelt_partial.** fix_cdelt keeps the position of every pixel if the matrices have no rotation (and a cd matrix has
steps of one, as wcslib sets them). -/
theorem C166_cdelt_partial (w : WcsLin) (hcd : ∀ m, w.cd = some m → m.xy = 0 ∧ m.yx = 0 ∧ w.dx = 1 ∧ w.dy = 1)
    (hpc : ∀ m, w.cd = none → w.pc = some m → m.xy = 0 ∧ m.yx = 0) (px py : ℚ) :
    (fixCdelt w).apply px py = w.apply px py ∧ (fixCdelt w).cd = none ∧ (fixCdelt w).pc = none := by
  obtain ⟨dx, dy, cd, pc⟩ := w
  cases cd with
  | some m =>
    obtain ⟨a, b, c, d⟩ := hcd m rfl
    simp only at c d
    subst c d
    simp [fixCdelt, WcsLin.apply, a, b]
  | none =>
    cases pc with
    | some m =>
      obtain ⟨a, b⟩ := hpc m rfl rfl
      simp [fixCdelt, WcsLin.apply, a, b, mul_assoc]
    | none => simp [fixCdelt, WcsLin.apply]

example : (fixCdelt ⟨1, 1, some ⟨-1 / 2, 0, 0, 1 / 2⟩, none⟩).apply 2 4 = (-1, 2) := by decide +kernel

/-- **C166_cdelt_refuted.** A rotation is dropped without notice; one by 90° leaves steps of zero, so that all pixels have the
same position. -/
theorem C166_cdelt_refuted : ∃ w : WcsLin, (∀ px py, w.apply px py = (-py, px)) ∧ ∀ px py, (fixCdelt w).apply px py = (0, 0) := by
  refine ⟨⟨1, 1, some ⟨0, -1, 1, 0⟩, none⟩, ?_, ?_⟩ <;> intro px py <;> simp [WcsLin.apply, fixCdelt]

section
open Real

/-- The projections. -/
inductive ProjName where
  | car | cea | arc | zea | sin | tan | mol | ait
deriving DecidableEq

/-- Their names. -/
def ProjName.name : ProjName → String
  | .car => "car" | .cea => "cea" | .arc => "arc" | .zea => "zea" | .sin => "sin" | .tan => "tan" | .mol => "mol"
  | .ait => "ait"

/-- FITS paper II (Calabretta & Greisen 2002): the coordinates of a native direction (φ,θ) in a projection, in radians (for
cea with λ = 1); for mol, γ is the solution of 2γ + sin 2γ = π sin θ. `none`: the direction is not seen. -/
inductive Projects : ProjName → ℝ → ℝ → ℝ × ℝ → Prop
  | car (φ θ) : Projects .car φ θ (φ, θ)
  | cea (φ θ) : Projects .cea φ θ (φ, sin θ)
  | arc (φ θ) : Projects .arc φ θ ((π / 2 - θ) * sin φ, -((π / 2 - θ) * cos φ))
  | zea (φ θ) : Projects .zea φ θ (√(2 * (1 - sin θ)) * sin φ, -(√(2 * (1 - sin θ)) * cos φ))
  | sin (φ θ) (h : 0 ≤ θ) : Projects .sin φ θ (cos θ * sin φ, -(cos θ * cos φ))
  | tan (φ θ) (h : 0 < θ) : Projects .tan φ θ (cos θ / sin θ * sin φ, -(cos θ / sin θ * cos φ))
  | mol (φ θ γ) (h : 2 * γ + sin (2 * γ) = π * sin θ) (hγ : |γ| ≤ π / 2) :
      Projects .mol φ θ (2 * √2 / π * φ * cos γ, √2 * sin γ)
  | ait (φ θ) : Projects .ait φ θ (2 * √(2 / (1 + cos θ * cos (φ / 2))) * cos θ * sin (φ / 2),
      √(2 / (1 + cos θ * cos (φ / 2))) * sin θ)

/-- All directions of the sky. -/
def OnSky (φ θ : ℝ) : Prop := |φ| ≤ π ∧ |θ| ≤ π / 2

theorem scale_bound {v e : ℝ} (h : |v| ≤ e * π / 360) : |v * (180 / π)| ≤ e / 2 := by
  have hp := pi_pos
  rw [abs_mul, abs_of_pos (by positivity : (0 : ℝ) < 180 / π)]
  calc |v| * (180 / π) ≤ e * π / 360 * (180 / π) := by gcongr
    _ = e / 2 := by field_simp; ring

theorem scale_eq {v e : ℝ} (h : v = e * π / 360) : v * (180 / π) = e / 2 := by
  have hp := pi_pos
  rw [h]; field_simp; ring

theorem mul_trig_bound {r e t : ℝ} (hr : 0 ≤ r) (h : r ≤ e) (ht : |t| ≤ 1) : |r * t| ≤ e := by
  rw [abs_mul, abs_of_nonneg hr]
  nlinarith [abs_nonneg t]

/-- **C166_extent.** For car, cea, arc, zea, sin, mol and ait every direction of the sky that the projection shows falls
within the extents of pixelization, and they are not larger than needed: along each axis some direction is at the very
edge. -/
theorem C166_extent (sys : ProjName) (hs : sys ≠ .tan) :
    ∃ ex ey, defaultExtent sys.name = some (ex, ey) ∧
      (∀ φ θ p, OnSky φ θ → Projects sys φ θ p → |p.1 * (180 / π)| ≤ ex / 2 ∧ |p.2 * (180 / π)| ≤ ey / 2) ∧
      (∃ φ θ p, OnSky φ θ ∧ Projects sys φ θ p ∧ p.1 * (180 / π) = ex / 2) ∧
      (∃ φ θ p, OnSky φ θ ∧ Projects sys φ θ p ∧ p.2 * (180 / π) = ey / 2) := by
  have hp := pi_pos
  have s2 : (0 : ℝ) ≤ √2 := sqrt_nonneg _
  have o1 : OnSky π 0 := ⟨by rw [abs_of_pos hp], by rw [abs_zero]; positivity⟩
  have o2 : OnSky 0 (π / 2) := ⟨by rw [abs_zero]; positivity, by rw [abs_of_pos (by positivity)]⟩
  have o3 : OnSky (π / 2) (-(π / 2)) := ⟨by rw [abs_of_pos (by positivity)]; linarith, by rw [abs_neg, abs_of_pos (by positivity)]⟩
  have o4 : OnSky π (-(π / 2)) := ⟨by rw [abs_of_pos hp], by rw [abs_neg, abs_of_pos (by positivity)]⟩
  have o5 : OnSky (π / 2) 0 := ⟨by rw [abs_of_pos (by positivity)]; linarith, by rw [abs_zero]; positivity⟩
  cases sys
  · refine ⟨360, 180, by simp [defaultExtent, ProjName.name], ?_, ⟨_, _, _, o1, .car π 0, scale_eq (by ring)⟩,
      ⟨_, _, _, o2, .car 0 (π / 2), scale_eq (by ring)⟩⟩
    rintro φ θ p ⟨h1, h2⟩ ⟨⟩
    exact ⟨scale_bound (by linarith), scale_bound (by linarith)⟩
  · refine ⟨360, 360 / π, by simp [defaultExtent, ProjName.name], ?_, ⟨_, _, _, o1, .cea π 0, scale_eq (by ring)⟩,
      ⟨_, _, _, o2, .cea 0 (π / 2), scale_eq (by rw [sin_pi_div_two]; field_simp)⟩⟩
    rintro φ θ p ⟨h1, h2⟩ ⟨⟩
    refine ⟨scale_bound (by linarith), scale_bound ?_⟩
    rw [show 360 / π * π / 360 = 1 by field_simp]
    exact abs_sin_le_one θ
  · refine ⟨360, 360, by simp [defaultExtent, ProjName.name], ?_, ⟨_, _, _, o3, .arc _ _, scale_eq (by rw [sin_pi_div_two]; ring)⟩,
      ⟨_, _, _, o4, .arc _ _, scale_eq (by rw [cos_pi]; ring)⟩⟩
    rintro φ θ p ⟨h1, h2⟩ ⟨⟩
    obtain ⟨a, b⟩ := abs_le.1 h2
    refine ⟨scale_bound ?_, scale_bound ?_⟩
    · exact mul_trig_bound (by linarith) (by linarith) (abs_sin_le_one φ)
    · rw [abs_neg]
      exact mul_trig_bound (by linarith) (by linarith) (abs_cos_le_one φ)
  · have e2 : √(2 * (1 - sin (-(π / 2)))) = 2 := by
      rw [sin_neg, sin_pi_div_two, show (2 * (1 - -1) : ℝ) = 2 ^ 2 by norm_num, sqrt_sq (by norm_num)]
    have hb : ∀ θ : ℝ, √(2 * (1 - sin θ)) ≤ 720 / π * π / 360 := by
      intro θ
      rw [show 720 / π * π / 360 = 2 by field_simp; norm_num]
      exact sqrt_le_iff.2 ⟨by norm_num, by linarith [neg_one_le_sin θ]⟩
    refine ⟨720 / π, 720 / π, by simp [defaultExtent, ProjName.name], ?_, ⟨_, _, _, o3, .zea _ _, scale_eq (by rw [e2, sin_pi_div_two]; field_simp; norm_num)⟩,
      ⟨_, _, _, o4, .zea _ _, scale_eq (by rw [e2, cos_pi]; field_simp; norm_num)⟩⟩
    rintro φ θ p ⟨h1, h2⟩ ⟨⟩
    refine ⟨scale_bound ?_, scale_bound ?_⟩
    · exact mul_trig_bound (sqrt_nonneg _) (hb θ) (abs_sin_le_one φ)
    · rw [abs_neg]
      exact mul_trig_bound (sqrt_nonneg _) (hb θ) (abs_cos_le_one φ)
  · refine ⟨360 / π, 360 / π, by simp [defaultExtent, ProjName.name], ?_, ⟨_, _, _, o5, .sin _ _ le_rfl, scale_eq (by rw [cos_zero, sin_pi_div_two]; field_simp)⟩,
      ⟨_, _, _, o1, .sin _ _ le_rfl, scale_eq (by rw [cos_zero, cos_pi]; field_simp)⟩⟩
    rintro φ θ p ⟨h1, h2⟩ h
    cases h with
    | sin _ _ h0 =>
      obtain ⟨a, b⟩ := abs_le.1 h2
      have c0 := cos_nonneg_of_neg_pi_div_two_le_of_le a b
      have e1 : cos θ ≤ 360 / π * π / 360 := by
        rw [show 360 / π * π / 360 = 1 by field_simp]
        exact cos_le_one θ
      refine ⟨scale_bound ?_, scale_bound ?_⟩
      · exact mul_trig_bound c0 e1 (abs_sin_le_one φ)
      · rw [abs_neg]
        exact mul_trig_bound c0 e1 (abs_cos_le_one φ)
  · exact absurd rfl hs
  · refine ⟨720 * √2 / π, 360 * √2 / π, by simp [defaultExtent, ProjName.name], ?_,
      ⟨_, _, _, o1, .mol π 0 0 (by simp) (by rw [abs_zero]; positivity), scale_eq (by rw [cos_zero]; field_simp; ring)⟩,
      ⟨_, _, _, o2, .mol 0 (π / 2) (π / 2) (by rw [sin_pi_div_two, show 2 * (π / 2) = π by ring, sin_pi]; ring)
        (by rw [abs_of_pos (by positivity)]), scale_eq (by rw [sin_pi_div_two]; field_simp)⟩⟩
    rintro φ θ p ⟨h1, h2⟩ h
    cases h with
    | mol _ _ γ h0 hg =>
      refine ⟨scale_bound ?_, scale_bound ?_⟩
      · rw [abs_mul, abs_mul, abs_of_nonneg (by positivity : (0 : ℝ) ≤ 2 * √2 / π)]
        have : |φ| * |cos γ| ≤ π := by nlinarith [abs_cos_le_one γ, abs_nonneg (cos γ), abs_nonneg φ]
        calc 2 * √2 / π * |φ| * |cos γ| = 2 * √2 / π * (|φ| * |cos γ|) := by ring
          _ ≤ 2 * √2 / π * π := by gcongr
          _ = 720 * √2 / π * π / 360 := by field_simp; ring
      · refine mul_trig_bound s2 (le_of_eq ?_) (abs_sin_le_one γ)
        field_simp
  · have e1 : 720 * √2 / π * π / 360 = 2 * √2 := by field_simp; ring
    have e2 : 360 * √2 / π * π / 360 = √2 := by field_simp
    refine ⟨720 * √2 / π, 360 * √2 / π, by simp [defaultExtent, ProjName.name], ?_,
      ⟨_, _, _, o1, .ait π 0, scale_eq (by rw [e1, cos_zero, cos_pi_div_two, sin_pi_div_two]; norm_num)⟩,
      ⟨_, _, _, o2, .ait 0 (π / 2), scale_eq (by rw [e2, cos_pi_div_two, sin_pi_div_two]; norm_num)⟩⟩
    rintro φ θ p ⟨h1, h2⟩ ⟨⟩
    obtain ⟨a, b⟩ := abs_le.1 h2
    obtain ⟨a', b'⟩ := abs_le.1 h1
    have c0 := cos_nonneg_of_neg_pi_div_two_le_of_le a b
    have c1 : 0 ≤ cos (φ / 2) := cos_nonneg_of_neg_pi_div_two_le_of_le (by linarith) (by linarith)
    have c2 := cos_le_one θ
    have c3 := cos_le_one (φ / 2)
    have t1 := sin_sq_add_cos_sq θ
    have t2 := sin_sq_add_cos_sq (φ / 2)
    have q0 : 0 ≤ cos θ * cos (φ / 2) := by positivity
    have d0 : 0 < 1 + cos θ * cos (φ / 2) := by linarith
    have sq2 : √2 ^ 2 = 2 := sq_sqrt (by norm_num)
    have sg : √(2 / (1 + cos θ * cos (φ / 2))) ^ 2 = 2 / (1 + cos θ * cos (φ / 2)) := sq_sqrt (by positivity)
    refine ⟨scale_bound ?_, scale_bound ?_⟩
    · rw [e1]
      refine abs_le_of_sq_le_sq ?_ (by positivity)
      rw [mul_pow, mul_pow, mul_pow, mul_pow, sg, sq2]
      have : 2 ^ 2 * (2 / (1 + cos θ * cos (φ / 2))) * cos θ ^ 2 * sin (φ / 2) ^ 2 =
          8 * (cos θ ^ 2 * sin (φ / 2) ^ 2) / (1 + cos θ * cos (φ / 2)) := by ring
      rw [this, div_le_iff₀ d0]
      nlinarith [mul_nonneg c0 c0, mul_nonneg q0 q0]
    · rw [e2]
      refine abs_le_of_sq_le_sq ?_ s2
      rw [mul_pow, sg, sq2]
      rw [div_mul_eq_mul_div, div_le_iff₀ d0]
      nlinarith

/-- **C166_tan_refuted.** The full-sky geometry of tan does not go down to 0.158° above the horizon, as its comment says: a
direction 10° above the horizon is outside the map. -/
theorem C166_tan_refuted : ∃ ex ey φ p, defaultExtent ProjName.tan.name = some (ex, ey) ∧ Projects .tan φ (π / 18) p ∧
    ex / 2 < p.1 * (180 / π) := by
  have hp := pi_pos
  refine ⟨360, 360, π / 2, _, by simp [defaultExtent, ProjName.name], .tan _ _ (by positivity), ?_⟩
  have h3 := pi_lt_d2
  rw [sin_pi_div_two, mul_one]
  have s1 : sin (π / 18) ≤ π / 18 := sin_le (by positivity)
  have s0 : 0 < sin (π / 18) := sin_pos_of_pos_of_lt_pi (by positivity) (by linarith)
  have c1 : 1 - (π / 18) ^ 2 / 2 ≤ cos (π / 18) := one_sub_sq_div_two_le_cos
  have : π < cos (π / 18) / sin (π / 18) := by
    rw [lt_div_iff₀ s0]
    nlinarith
  calc (360 : ℝ) / 2 = π * (180 / π) := by field_simp; norm_num
    _ < cos (π / 18) / sin (π / 18) * (180 / π) := by gcongr

end

end Pixell
