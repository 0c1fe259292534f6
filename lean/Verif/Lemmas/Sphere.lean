import Mathlib.Analysis.SpecialFunctions.Trigonometric.Bounds
import Mathlib.Analysis.SpecialFunctions.Trigonometric.Inverse
import Mathlib.Analysis.SpecialFunctions.Complex.Arg
import Mathlib.Analysis.SpecialFunctions.Trigonometric.Deriv
import Mathlib.Tactic.Linarith
import Mathlib.Tactic.Ring
import Mathlib.Tactic.Positivity

/-
Angles between points of the sphere, and what happens to them when moving by one pixel on a cylindrical grid.
-/
namespace Pixell
open Real

/-- The scalar product of the unit vectors towards `(dec1,ra1)` and `(dec2,ra2)`. -/
noncomputable def sphDot (dec1 ra1 dec2 ra2 : ℝ) : ℝ :=
  cos dec1 * cos ra1 * (cos dec2 * cos ra2) + cos dec1 * sin ra1 * (cos dec2 * sin ra2) + sin dec1 * sin dec2

/-- The great-circle angle between two directions: the angle between their unit vectors. -/
noncomputable def sphAngle (dec1 ra1 dec2 ra2 : ℝ) : ℝ := arccos (sphDot dec1 ra1 dec2 ra2)

theorem sphDot_eq (d1 r1 d2 r2 : ℝ) : sphDot d1 r1 d2 r2 = sin d1 * sin d2 + cos d1 * cos d2 * cos (r1 - r2) := by
  unfold sphDot; rw [cos_sub]; ring

theorem sphDot_sq (d1 r1 d2 r2 : ℝ) : sphDot d1 r1 d2 r2 ^ 2 + ((cos d1 * sin (r2 - r1)) ^ 2 +
    (cos d2 * sin d1 - sin d2 * cos d1 * cos (r2 - r1)) ^ 2) = 1 := by
  have hc : cos (r1 - r2) = cos (r2 - r1) := by rw [← cos_neg]; congr 1; ring
  rw [sphDot_eq, hc]
  have h1 := sin_sq_add_cos_sq d1
  have h2 := sin_sq_add_cos_sq d2
  have h3 := sin_sq_add_cos_sq (r2 - r1)
  generalize cos (r2 - r1) = C at *
  generalize sin (r2 - r1) = S at *
  generalize sin d1 = s1 at *
  generalize cos d1 = c1 at *
  generalize sin d2 = s2 at *
  generalize cos d2 = c2 at *
  have e3 : S ^ 2 = 1 - C ^ 2 := by linarith
  have e1 : s1 ^ 2 = 1 - c1 ^ 2 := by linarith
  have e2 : s2 ^ 2 = 1 - c2 ^ 2 := by linarith
  calc _ = s1 ^ 2 * s2 ^ 2 + c1 ^ 2 * c2 ^ 2 * C ^ 2 + c1 ^ 2 * S ^ 2 + c2 ^ 2 * s1 ^ 2 + s2 ^ 2 * c1 ^ 2 * C ^ 2 := by ring
    _ = 1 := by rw [e3, e1, e2]; ring

theorem sphDot_bounds (d1 r1 d2 r2 : ℝ) : -1 ≤ sphDot d1 r1 d2 r2 ∧ sphDot d1 r1 d2 r2 ≤ 1 := by
  have h := sphDot_sq d1 r1 d2 r2
  have h1 := sq_nonneg (cos d1 * sin (r2 - r1))
  have h2 := sq_nonneg (cos d2 * sin d1 - sin d2 * cos d1 * cos (r2 - r1))
  exact abs_le.mp (by rw [← sq_le_one_iff_abs_le_one]; linarith)

theorem sphAngle_nonneg (d1 r1 d2 r2 : ℝ) : 0 ≤ sphAngle d1 r1 d2 r2 := arccos_nonneg _

theorem sphAngle_comm (d1 r1 d2 r2 : ℝ) : sphAngle d1 r1 d2 r2 = sphAngle d2 r2 d1 r1 := by
  unfold sphAngle sphDot; congr 1; ring

theorem sphAngle_self (d r : ℝ) : sphAngle d r d r = 0 := by
  unfold sphAngle
  rw [sphDot_eq, sub_self, cos_zero]
  have : sin d * sin d + cos d * cos d * 1 = 1 := by have := sin_sq_add_cos_sq d; nlinarith
  rw [this, arccos_one]

/-- A larger scalar product is a smaller angle. -/
theorem sphAngle_lt {d1 r1 d2 r2 d3 r3 d4 r4 : ℝ} :
    sphAngle d1 r1 d2 r2 < sphAngle d3 r3 d4 r4 ↔ sphDot d3 r3 d4 r4 < sphDot d1 r1 d2 r2 := by
  unfold sphAngle
  exact strictAntiOn_arccos.lt_iff_gt (sphDot_bounds _ _ _ _) (sphDot_bounds _ _ _ _)

/-- One step along a row towards or around the circle brings us closer: `k` pixels away, steps of `b`. -/
theorem cos_step (b : ℝ) (hb : 0 < b) (k n : ℕ) (hk : 0 < k) (hn : b * n ≤ 2 * π) (hkn : k + 1 ≤ n ∨ b * k ≤ π) :
    (b * k ≤ π → cos (b * k) < cos (b * (k - 1 : ℕ))) ∧ (π < b * k → cos (b * k) < cos (b * (k + 1 : ℕ))) := by
  constructor
  · intro h
    apply cos_lt_cos_of_nonneg_of_le_pi (by positivity) h
    have : ((k - 1 : ℕ) : ℝ) = k - 1 := by rw [Nat.cast_sub hk]; simp
    rw [this]; nlinarith
  · intro h
    have hk1 : k + 1 ≤ n := by
      rcases hkn with h' | h'
      · exact h'
      · exact absurd h' (not_le.mpr h)
    have e1 : cos (b * k) = cos (2 * π - b * k) := by rw [cos_two_pi_sub]
    have e2 : cos (b * (k + 1 : ℕ)) = cos (2 * π - b * (k + 1 : ℕ)) := by rw [cos_two_pi_sub]
    rw [e1, e2]
    have h2 : b * ((k + 1 : ℕ) : ℝ) ≤ 2 * π := le_trans (by gcongr) hn
    have h3 : b * ((k + 1 : ℕ) : ℝ) = b * k + b := by push_cast; ring
    apply cos_lt_cos_of_nonneg_of_le_pi
    · linarith
    · linarith
    · linarith

/-- A cylindrical grid: one declination per row, strictly monotone and within the poles, and equally spaced right ascensions
spanning at most a full turn. All of pixell's cylindrical projections (CAR, CEA, MER) are of this form. -/
structure CylGrid where
  ny : ℕ
  nx : ℕ
  dec : ℕ → ℝ
  ra0 : ℝ
  step : ℝ
  mono : (∀ y z, y < z → z < ny → dec y < dec z) ∨ (∀ y z, y < z → z < ny → dec z < dec y)
  range : ∀ y < ny, -(π / 2) ≤ dec y ∧ dec y ≤ π / 2
  step_ne : step ≠ 0
  turn : |step| * (nx - 1 : ℕ) ≤ 2 * π

/-- Distance between pixels `(y,x)` and `(z,w)`. -/
noncomputable def CylGrid.dist (g : CylGrid) (y x z w : ℕ) : ℝ :=
  sphAngle (g.dec y) (g.ra0 + g.step * x) (g.dec z) (g.ra0 + g.step * w)

theorem CylGrid.cos_eq (g : CylGrid) (x w k : ℕ) (h : x = w + k ∨ w = x + k) :
    cos ((g.ra0 + g.step * x) - (g.ra0 + g.step * w)) = cos (|g.step| * k) := by
  have e : (g.ra0 + g.step * x) - (g.ra0 + g.step * w) = g.step * k ∨
      (g.ra0 + g.step * x) - (g.ra0 + g.step * w) = -(g.step * k) := by
    rcases h with h | h
    · left; rw [h]; push_cast; ring
    · right; rw [h]; push_cast; ring
  have e2 : |g.step| * k = g.step * k ∨ |g.step| * k = -(g.step * k) := by
    rcases abs_choice g.step with h | h
    · left; rw [h]
    · right; rw [h]; ring
  rcases e with e | e <;> rcases e2 with e2 | e2 <;> rw [e, e2] <;> simp [cos_neg]

theorem CylGrid.dec_interior (g : CylGrid) (y : ℕ) (h1 : 0 < y) (h2 : y + 1 < g.ny) :
    -(π / 2) < g.dec y ∧ g.dec y < π / 2 := by
  rcases g.mono with h | h
  · exact ⟨lt_of_le_of_lt (g.range 0 (by omega)).1 (h 0 y h1 (by omega)),
      lt_of_lt_of_le (h y (y + 1) (by omega) h2) (g.range (y + 1) h2).2⟩
  · exact ⟨lt_of_le_of_lt (g.range (y + 1) h2).1 (h y (y + 1) (by omega) h2),
      lt_of_lt_of_le (h 0 y h1 (by omega)) (g.range 0 (by omega)).2⟩

/-- The row next to `z` towards row `y`. -/
theorem CylGrid.row_step (g : CylGrid) (y z : ℕ) (hy : y < g.ny) (hz1 : 0 < z) (hz2 : z + 1 < g.ny) (hne : z ≠ y) :
    ∃ z', (z' + 1 = z ∨ z' = z + 1) ∧ ((g.dec y ≤ g.dec z' ∧ g.dec z' < g.dec z) ∨
      (g.dec z < g.dec z' ∧ g.dec z' ≤ g.dec y)) := by
  have mle : ∀ a b, a ≤ b → b < g.ny → (∀ y z, y < z → z < g.ny → g.dec y < g.dec z) → g.dec a ≤ g.dec b := by
    intro a b hab hb h
    rcases hab.eq_or_lt with e | e
    · rw [e]
    · exact (h a b e hb).le
  have mle' : ∀ a b, a ≤ b → b < g.ny → (∀ y z, y < z → z < g.ny → g.dec z < g.dec y) → g.dec b ≤ g.dec a := by
    intro a b hab hb h
    rcases hab.eq_or_lt with e | e
    · rw [e]
    · exact (h a b e hb).le
  rcases lt_or_gt_of_ne hne with hlt | hlt
  · refine ⟨z + 1, Or.inr rfl, ?_⟩
    rcases g.mono with h | h
    · right; exact ⟨h z (z + 1) (by omega) hz2, mle _ _ (by omega) hy h⟩
    · left; exact ⟨mle' _ _ (by omega) hy h, h z (z + 1) (by omega) hz2⟩
  · refine ⟨z - 1, Or.inl (by omega), ?_⟩
    rcases g.mono with h | h
    · left; exact ⟨mle _ _ (by omega) (by omega) h, h (z - 1) z (by omega) (by omega)⟩
    · right; exact ⟨h (z - 1) z (by omega) (by omega), mle' _ _ (by omega) (by omega) h⟩

/-- From any pixel not on the border, one of the four neighbours is strictly closer to any given other pixel. -/
theorem CylGrid.descent (g : CylGrid) (y x z w : ℕ) (hy : y < g.ny) (hx : x < g.nx) (hz1 : 0 < z) (hz2 : z + 1 < g.ny)
    (hw1 : 0 < w) (hw2 : w + 1 < g.nx) (hne : (z, w) ≠ (y, x)) :
    ∃ z' w', ((z' = z ∧ (w' + 1 = w ∨ w' = w + 1)) ∨ (w' = w ∧ (z' + 1 = z ∨ z' = z + 1))) ∧
      g.dist z' w' y x < g.dist z w y x := by
  have hcz : 0 < cos (g.dec z) := cos_pos_of_mem_Ioo (g.dec_interior z hz1 hz2)
  have hcy : 0 ≤ cos (g.dec y) := cos_nonneg_of_mem_Icc (g.range y hy)
  have hb : 0 < |g.step| := abs_pos.mpr g.step_ne
  by_cases hwx : w = x
  · subst hwx
    have hzy : z ≠ y := fun e => hne (by rw [e])
    obtain ⟨z', hz', hd⟩ := g.row_step y z hy hz1 hz2 hzy
    refine ⟨z', w, Or.inr ⟨rfl, hz'⟩, ?_⟩
    unfold CylGrid.dist
    rw [sphAngle_lt, sphDot_eq, sphDot_eq, sub_self, cos_zero, mul_one, mul_one]
    have e : ∀ a b : ℝ, sin a * sin b + cos a * cos b = cos (a - b) := fun a b => by rw [cos_sub]; ring
    rw [e, e, ← cos_abs (g.dec z - g.dec y), ← cos_abs (g.dec z' - g.dec y)]
    have r1 := g.range y hy
    have r2 := g.dec_interior z hz1 hz2
    apply cos_lt_cos_of_nonneg_of_le_pi (abs_nonneg _)
    · rw [abs_le]; constructor <;> linarith [pi_pos]
    · rcases hd with ⟨a, b⟩ | ⟨a, b⟩
      · rw [abs_of_nonneg (by linarith), abs_of_nonneg (by linarith)]; linarith
      · rw [abs_of_nonpos (by linarith), abs_of_nonpos (by linarith)]; linarith
  · rcases hcy.eq_or_lt with h0 | hcy
    · -- the other pixel is at a pole
      have hzy : z ≠ y := by
        intro e; rw [← e] at h0; linarith
      obtain ⟨z', hz', hd⟩ := g.row_step y z hy hz1 hz2 hzy
      refine ⟨z', w, Or.inr ⟨rfl, hz'⟩, ?_⟩
      unfold CylGrid.dist
      rw [sphAngle_lt, sphDot_eq, sphDot_eq, ← h0, mul_zero, mul_zero, zero_mul, add_zero, add_zero]
      have r1 := g.range y hy
      have r2 := g.dec_interior z hz1 hz2
      have hpole : g.dec y = π / 2 ∨ g.dec y = -(π / 2) := by
        by_contra hcon
        push Not at hcon
        have := cos_pos_of_mem_Ioo ⟨lt_of_le_of_ne r1.1 (Ne.symm hcon.2), lt_of_le_of_ne r1.2 hcon.1⟩
        linarith
      rcases hpole with hp | hp
      · rw [hp, sin_pi_div_two, mul_one, mul_one]
        rcases hd with ⟨a, b⟩ | ⟨a, b⟩
        · rw [hp] at a; linarith
        · exact strictMonoOn_sin ⟨r2.1.le, r2.2.le⟩ ⟨by linarith, by linarith⟩ a
      · rw [hp, sin_neg, sin_pi_div_two]
        rcases hd with ⟨a, b⟩ | ⟨a, b⟩
        · have := strictMonoOn_sin (a := g.dec z') (b := g.dec z) ⟨by linarith, by linarith⟩ ⟨r2.1.le, r2.2.le⟩ b
          linarith
        · rw [hp] at b; linarith
    · obtain ⟨k, hk0, hk⟩ : ∃ k, 0 < k ∧ (w = x + k ∨ x = w + k) := by
        rcases lt_or_gt_of_ne hwx with h | h
        · exact ⟨x - w, by omega, Or.inr (by omega)⟩
        · exact ⟨w - x, by omega, Or.inl (by omega)⟩
      obtain ⟨c1, c2⟩ := cos_step |g.step| hb k (g.nx - 1) hk0 g.turn (by left; omega)
      have key : ∀ w' k', (w' = x + k' ∨ x = w' + k') → cos (|g.step| * k) < cos (|g.step| * k') →
          g.dist z w' y x < g.dist z w y x := by
        intro w' k' hk' hlt
        unfold CylGrid.dist
        rw [sphAngle_lt, sphDot_eq, sphDot_eq, g.cos_eq w' x k' hk', g.cos_eq w x k hk]
        have := mul_pos hcz hcy
        nlinarith
      rcases le_or_gt (|g.step| * k) π with h | h
      · rcases hk with hk | hk
        · exact ⟨z, w - 1, Or.inl ⟨rfl, Or.inl (by omega)⟩, key (w - 1) (k - 1) (Or.inl (by omega)) (c1 h)⟩
        · exact ⟨z, w + 1, Or.inl ⟨rfl, Or.inr rfl⟩, key (w + 1) (k - 1) (Or.inr (by omega)) (c1 h)⟩
      · rcases hk with hk | hk
        · exact ⟨z, w + 1, Or.inl ⟨rfl, Or.inr rfl⟩, key (w + 1) (k + 1) (Or.inl (by omega)) (c2 h)⟩
        · exact ⟨z, w - 1, Or.inl ⟨rfl, Or.inl (by omega)⟩, key (w - 1) (k + 1) (Or.inr (by omega)) (c2 h)⟩

end Pixell
