import Verif.Model.Ducc
import Verif.Model.MapOps
import Verif.Props.Sht
import Verif.Lemmas.Num
import Mathlib.Tactic.Linarith
import Mathlib.Tactic.FieldSimp
import Mathlib.Tactic.Positivity
import Mathlib.Analysis.SpecialFunctions.Trigonometric.Basic

/-
Properties C81, C82 and C83: recognising the pixel grids of the harmonic transforms, the weight of each row, and the ring
tables of the general transforms.
-/
namespace Pixell
open PySpec

/-! ### Specification: ducc's grids -/

/-- The colatitude of ring `j` of a ducc grid with `n` rings, as a fraction of pi (ducc0 documentation of
`synthesis_2d`, parameter geometry). -/
def ringFraction (name : DuccName) (n j : ℤ) : ℚ :=
  match name with
  | .CC => j / (n - 1)
  | .F1 => (2 * j + 1) / (2 * n)
  | .MW => (2 * j + 1) / (2 * n - 1)
  | .MWflip => 2 * j / (2 * n - 1)
  | .DH => j / n
  | .F2 => (j + 1) / (n + 1)

/-! ### Helpers -/

theorem hasoff_elim {v o tol : ℚ} (h : hasoff v o tol = true) : ∃ k : ℤ, |v - o - k| < tol := by
  refine ⟨⌊v - o + 1/2⌋, ?_⟩
  have := of_decide_eq_true h
  rwa [show v - o + 1/2 - (⌊v - o + 1/2⌋ : ℚ) - 1/2 = v - o - ⌊v - o + 1/2⌋ by ring] at this

theorem hasoff_intro {v o tol : ℚ} (ht : 0 < tol) (k : ℤ) (h : v - o = k) : hasoff v o tol = true := by
  unfold hasoff
  have e : ⌊v - o + 1/2⌋ = k := by
    rw [h, Int.floor_eq_iff]; constructor <;> linarith
  rw [e, h]
  apply decide_eq_true
  rw [show (k : ℚ) + 1/2 - k - 1/2 = 0 by ring, abs_zero]
  exact ht

theorem hasoff_half_false {v tol : ℚ} (ht : tol ≤ 1/2) (k : ℤ) (h : v = k + 1/2) : hasoff v 0 tol = false := by
  unfold hasoff
  have e : ⌊v - 0 + 1/2⌋ = k + 1 := by
    rw [h, Int.floor_eq_iff]; push_cast; constructor <;> linarith
  rw [e, h]
  apply decide_eq_false
  push_cast
  rw [show (k : ℚ) + 1/2 - 0 + 1/2 - (k + 1) - 1/2 = -(1/2) by ring, abs_neg, abs_of_pos (by norm_num)]
  linarith

theorem flip_geom (n : Nat) (w : Axis) (f : Bool) : sliceGeometry n w (flipSlice f) =
    ((n : ℤ), ⟨w.crval, if f then -w.cdelt else w.cdelt, if f then n + 1 - w.crpix else w.crpix⟩) := by
  cases f
  · have e : sliceGeometry n w (flipSlice false) = (((n : ℤ) - 0 + 1 - 1).fdiv 1, sliceWcs w 0 1) := by
      simp [sliceGeometry, flipSlice, expandSlice, effStep, cycle]
    rw [e]
    obtain ⟨a, b, c⟩ := w
    simp [sliceWcs]
  · have e : sliceGeometry n w (flipSlice true) = ((-1 - ((n:ℤ) - 1) + -1 - -1).fdiv (-1), sliceWcs w (n - 1) (-1)) := by
      simp [sliceGeometry, flipSlice, expandSlice, effStep, cycle]
      rcases Nat.eq_zero_or_pos n with rfl | hn
      · simp
      · rw [if_pos (by omega)]
    rw [e, show (-1 - ((n:ℤ) - 1) + -1 - -1) = -(n:ℤ) by ring, Int.neg_fdiv_neg]
    simp only [Int.fdiv_one, sliceWcs, Prod.mk.injEq, Axis.mk.injEq, if_true, true_and]
    refine ⟨by push_cast; ring, ?_⟩
    rw [if_neg (by omega)]
    push_cast
    ring

/-- The flipped axis, with the orientation the transforms want. -/
theorem flip_down (w : Axis) (n : Nat) (h : w.cdelt ≠ 0) :
    (sliceGeometry n w (flipSlice (decide (0 < w.cdelt)))).2.cdelt = -|w.cdelt| := by
  rw [flip_geom]
  by_cases hp : 0 < w.cdelt
  · simp [hp, abs_of_pos hp]
  · have : w.cdelt < 0 := lt_of_le_of_ne (not_lt.mp hp) h
    simp [hp, abs_of_neg this]

theorem flip_up (w : Axis) (n : Nat) (h : w.cdelt ≠ 0) :
    (sliceGeometry n w (flipSlice (decide (w.cdelt < 0)))).2.cdelt = |w.cdelt| := by
  rw [flip_geom]
  by_cases hp : w.cdelt < 0
  · simp [hp, abs_of_neg hp]
  · have : 0 < w.cdelt := lt_of_le_of_ne (not_lt.mp hp) (Ne.symm h)
    simp [hp, abs_of_pos this]

theorem flip_false_id (w : Axis) (n : Nat) : sliceGeometry n w (flipSlice false) = ((n : ℤ), w) := by
  rw [flip_geom]; simp

theorem flip_pix (n : Nat) (w : Axis) (f : Bool) (r : Nat) (hr : r < n) :
    (sliceGeometry n w (flipSlice f)).2.pix2sky (((if f then n - 1 - r else r) : Nat) : ℚ) = w.pix2sky r := by
  rw [flip_geom]
  cases f
  · simp [Axis.pix2sky]
  · simp only [Axis.pix2sky, if_true]
    rw [Nat.cast_sub (by omega), Nat.cast_sub (by omega)]
    push_cast
    ring

/-- The numerical core: grid positions agree with pixel positions to three tolerances. -/
theorem grid_close {y1 y2 o1 o2 tol : ℚ} {a b p : ℤ} (ht : tol ≤ 1/8) (ho1 : 0 ≤ o1) (ho2 : 0 ≤ o2)
    (ha : |-y1 - o1 - a| < tol) (hb : |y2 - y1 + 1 - o1 - o2 - b| < 2 * tol) (hS : 1 ≤ y2 - y1)
    (h0 : 0 ≤ p + a) (h1 : p + a ≤ b - 1) :
    |y1 + (((p + a : ℤ) : ℚ) + o1) / (b - 1 + o1 + o2) * (y2 - y1) - p| ≤ 3 * tol := by
  set D : ℚ := b - 1 + o1 + o2 with hD
  have h0' : (0 : ℚ) ≤ ((p + a : ℤ) : ℚ) := by exact_mod_cast h0
  have h1' : ((p + a : ℤ) : ℚ) ≤ b - 1 := by exact_mod_cast h1
  have hb' : |y2 - y1 - D| < 2 * tol := by rw [hD]; convert hb using 2; ring
  have hDpos : 0 < D := by
    have := (abs_lt.mp hb').2; linarith
  set f : ℚ := (((p + a : ℤ) : ℚ) + o1) / D with hf
  have f0 : 0 ≤ f := div_nonneg (by linarith) hDpos.le
  have f1 : f ≤ 1 := by rw [hf, div_le_one hDpos]; linarith
  have hfD : f * D = ((p + a : ℤ) : ℚ) + o1 := div_mul_cancel₀ _ hDpos.ne'
  have e : y1 + f * (y2 - y1) - p = -(-y1 - o1 - a) + f * (y2 - y1 - D) := by
    have : f * (y2 - y1 - D) = f * (y2 - y1) - f * D := by ring
    rw [this, hfD]; push_cast; ring
  rw [e]
  have k1 : |f * (y2 - y1 - D)| ≤ 2 * tol := by
    rw [abs_mul, abs_of_nonneg f0]
    calc f * |y2 - y1 - D| ≤ 1 * |y2 - y1 - D| := mul_le_mul_of_nonneg_right f1 (abs_nonneg _)
      _ ≤ 2 * tol := by rw [one_mul]; exact hb'.le
  calc _ ≤ |-(-y1 - o1 - a)| + |f * (y2 - y1 - D)| := abs_add_le _ _
    _ ≤ 3 * tol := by rw [abs_neg]; linarith

theorem grid_range {y1 y2 o1 o2 tol : ℚ} {a b p : ℤ} (ht : tol ≤ 1/8) (ho1 : o1 ≤ 1/2) (ho2 : o2 ≤ 1/2)
    (ha : |-y1 - o1 - a| < tol) (hb : |y2 - y1 + 1 - o1 - o2 - b| < 2 * tol) (hp1 : y1 ≤ p) (hp2 : (p : ℚ) ≤ y2) :
    0 ≤ p + a ∧ p + a ≤ b - 1 := by
  obtain ⟨a1, a2⟩ := abs_lt.mp ha
  obtain ⟨b1, b2⟩ := abs_lt.mp hb
  constructor
  · have : (-1 : ℚ) < ((p + a : ℤ) : ℚ) := by push_cast; linarith
    have : (-1 : ℤ) < p + a := by exact_mod_cast this
    omega
  · have : ((p + a : ℤ) : ℚ) < b := by push_cast; linarith
    have : p + a < b := by exact_mod_cast this
    omega

/-- The recognised grid, in pixel coordinates. -/
theorem name_core {y1 y2 tol : ℚ} {Ny : Nat} (ht : tol ≤ 1/8) {t : DuccName × ℚ × ℚ} (h : duccName y1 y2 Ny tol = some t)
    (hne : t.1 ≠ .DH) (hS : 1 ≤ y2 - y1) {p : Nat} (hpN : p < Ny) (hp1 : y1 ≤ p) (hp2 : (p : ℚ) ≤ y2) :
    0 ≤ (p : ℤ) + rint (-y1 - t.2.1) ∧ (p : ℤ) + rint (-y1 - t.2.1) < rint (y2 - y1 + 1 - t.2.1 - t.2.2) ∧
    |y1 + ringFraction t.1 (rint (y2 - y1 + 1 - t.2.1 - t.2.2)) (p + rint (-y1 - t.2.1)) * (y2 - y1) - p| ≤ 3 * tol := by
  have key : ∀ (o1 o2 : ℚ) (a b : ℤ), 0 ≤ o1 → 0 ≤ o2 → |-y1 - o1 - a| < tol → |y2 - y1 + 1 - o1 - o2 - b| < 2 * tol →
      (0 ≤ (p : ℤ) + a ∧ (p : ℤ) + a ≤ b - 1) →
      0 ≤ (p : ℤ) + rint (-y1 - o1) ∧ (p : ℤ) + rint (-y1 - o1) < rint (y2 - y1 + 1 - o1 - o2) ∧
      rint (-y1 - o1) = a ∧ rint (y2 - y1 + 1 - o1 - o2) = b ∧
      |y1 + ((((p : ℤ) + a : ℤ) : ℚ) + o1) / (b - 1 + o1 + o2) * (y2 - y1) - p| ≤ 3 * tol := by
    intro o1 o2 a b ho1 ho2 ha hb hr
    have e1 : rint (-y1 - o1) = a := rint_eq_of_lt (by linarith)
    have e2 : rint (y2 - y1 + 1 - o1 - o2) = b := rint_eq_of_lt (by linarith)
    refine ⟨by rw [e1]; exact hr.1, by rw [e1, e2]; omega, e1, e2, ?_⟩
    have := grid_close (p := (p : ℤ)) ht ho1 ho2 ha hb hS hr.1 hr.2
    exact_mod_cast this
  have hp1' : y1 ≤ ((p : ℤ) : ℚ) := by exact_mod_cast hp1
  have hp2' : (((p : ℤ) : ℚ)) ≤ y2 := by exact_mod_cast hp2
  unfold duccName at h
  by_cases c1 : (hasoff y1 0 tol && hasoff y2 0 tol) = true
  · rw [if_pos c1] at h
    rw [Bool.and_eq_true] at c1
    by_cases c2 : |y1 - -1| < tol ∧ |y2 - (Ny : ℚ)| < tol
    · rw [if_pos c2, Option.some.injEq] at h
      subst h
      have ha : |-y1 - 1 - ((0 : ℤ) : ℚ)| < tol := by
        have := c2.1; rw [← abs_neg] at this; convert this using 2; push_cast; ring
      have hb : |y2 - y1 + 1 - 1 - 1 - ((Ny : ℤ) : ℚ)| < 2 * tol := by
        obtain ⟨q1, q2⟩ := abs_lt.mp c2.1
        obtain ⟨q3, q4⟩ := abs_lt.mp c2.2
        rw [abs_lt]; push_cast; constructor <;> linarith
      obtain ⟨k1, k2, k3, k4, k5⟩ := key 1 1 0 Ny (by norm_num) (by norm_num) ha hb (by omega)
      refine ⟨k1, k2, ?_⟩
      simp only [k3, k4]
      convert k5 using 4
      unfold ringFraction
      simp only
      congr 1
      ring
    · rw [if_neg c2] at h
      by_cases c3 : |y1 - 0| < tol ∧ |y2 - (Ny : ℚ)| < tol
      · rw [if_pos c3, Option.some.injEq] at h
        subst h; exact absurd rfl hne
      · rw [if_neg c3, Option.some.injEq] at h
        subst h
        obtain ⟨u, hu⟩ := hasoff_elim c1.1
        obtain ⟨v, hv⟩ := hasoff_elim c1.2
        obtain ⟨q1, q2⟩ := abs_lt.mp hu
        obtain ⟨q3, q4⟩ := abs_lt.mp hv
        have ha : |-y1 - 0 - ((-u : ℤ) : ℚ)| < tol := by rw [abs_lt]; push_cast; constructor <;> linarith
        have hb : |y2 - y1 + 1 - 0 - 0 - ((v - u + 1 : ℤ) : ℚ)| < 2 * tol := by rw [abs_lt]; push_cast; constructor <;> linarith
        obtain ⟨k1, k2, k3, k4, k5⟩ := key 0 0 (-u) (v - u + 1) (by norm_num) (by norm_num) ha hb
          (grid_range ht (by norm_num) (by norm_num) ha hb hp1' hp2')
        refine ⟨k1, k2, ?_⟩
        simp only [k3, k4]
        convert k5 using 4
        unfold ringFraction
        simp only
        congr 1 <;> ring
  · rw [if_neg c1] at h
    by_cases c2 : (hasoff y1 (1/2) tol && hasoff y2 (1/2) tol) = true
    · rw [if_pos c2, Option.some.injEq] at h
      subst h
      rw [Bool.and_eq_true] at c2
      obtain ⟨u, hu⟩ := hasoff_elim c2.1
      obtain ⟨v, hv⟩ := hasoff_elim c2.2
      obtain ⟨q1, q2⟩ := abs_lt.mp hu
      obtain ⟨q3, q4⟩ := abs_lt.mp hv
      have ha : |-y1 - 1/2 - ((-u - 1 : ℤ) : ℚ)| < tol := by rw [abs_lt]; push_cast; constructor <;> linarith
      have hb : |y2 - y1 + 1 - 1/2 - 1/2 - ((v - u : ℤ) : ℚ)| < 2 * tol := by rw [abs_lt]; push_cast; constructor <;> linarith
      obtain ⟨k1, k2, k3, k4, k5⟩ := key (1/2) (1/2) (-u - 1) (v - u) (by norm_num) (by norm_num) ha hb
        (grid_range ht (by norm_num) (by norm_num) ha hb hp1' hp2')
      refine ⟨k1, k2, ?_⟩
      simp only [k3, k4]
      convert k5 using 4
      unfold ringFraction
      simp only
      rw [eq_comm, ← mul_div_mul_left _ _ (two_ne_zero (α := ℚ))]
      congr 1 <;> ring
    · rw [if_neg c2] at h
      by_cases c3 : (hasoff y1 (1/2) tol && hasoff y2 0 tol) = true
      · rw [if_pos c3, Option.some.injEq] at h
        subst h
        rw [Bool.and_eq_true] at c3
        obtain ⟨u, hu⟩ := hasoff_elim c3.1
        obtain ⟨v, hv⟩ := hasoff_elim c3.2
        obtain ⟨q1, q2⟩ := abs_lt.mp hu
        obtain ⟨q3, q4⟩ := abs_lt.mp hv
        have ha : |-y1 - 1/2 - ((-u - 1 : ℤ) : ℚ)| < tol := by rw [abs_lt]; push_cast; constructor <;> linarith
        have hb : |y2 - y1 + 1 - 1/2 - 0 - ((v - u : ℤ) : ℚ)| < 2 * tol := by rw [abs_lt]; push_cast; constructor <;> linarith
        obtain ⟨k1, k2, k3, k4, k5⟩ := key (1/2) 0 (-u - 1) (v - u) (by norm_num) (by norm_num) ha hb
          (grid_range ht (by norm_num) (by norm_num) ha hb hp1' hp2')
        refine ⟨k1, k2, ?_⟩
        simp only [k3, k4]
        convert k5 using 4
        unfold ringFraction
        simp only
        rw [eq_comm, ← mul_div_mul_left _ _ (two_ne_zero (α := ℚ))]
        congr 1 <;> ring
      · rw [if_neg c3] at h
        by_cases c4 : (hasoff y1 0 tol && hasoff y2 (1/2) tol) = true
        · rw [if_pos c4, Option.some.injEq] at h
          subst h
          rw [Bool.and_eq_true] at c4
          obtain ⟨u, hu⟩ := hasoff_elim c4.1
          obtain ⟨v, hv⟩ := hasoff_elim c4.2
          obtain ⟨q1, q2⟩ := abs_lt.mp hu
          obtain ⟨q3, q4⟩ := abs_lt.mp hv
          have ha : |-y1 - 0 - ((-u : ℤ) : ℚ)| < tol := by rw [abs_lt]; push_cast; constructor <;> linarith
          have hb : |y2 - y1 + 1 - 0 - 1/2 - ((v - u + 1 : ℤ) : ℚ)| < 2 * tol := by rw [abs_lt]; push_cast; constructor <;> linarith
          obtain ⟨k1, k2, k3, k4, k5⟩ := key 0 (1/2) (-u) (v - u + 1) (by norm_num) (by norm_num) ha hb
            (grid_range ht (by norm_num) (by norm_num) ha hb hp1' hp2')
          refine ⟨k1, k2, ?_⟩
          simp only [k3, k4]
          convert k5 using 4
          unfold ringFraction
          simp only
          rw [eq_comm, ← mul_div_mul_left _ _ (two_ne_zero (α := ℚ))]
          congr 1 <;> ring
        · rw [if_neg c4] at h; cases h

/-- What analyse_geometry returns for a cylindrical map, in one place. -/
theorem analyse_spec {pole : ℚ} {ny nx : Nat} {wy wx : Axis} {tol : ℚ} (ht : tol ≤ 1) (hy0 : wy.cdelt ≠ 0) (hx0 : wx.cdelt ≠ 0)
    {g : DuccGeo} (hg : (analyseGeometry true pole ny nx wy wx tol).geo = some g) :
    ∃ t, duccName ((sliceGeometry ny wy (flipSlice (decide (0 < wy.cdelt)))).2.sky2pix pole)
        ((sliceGeometry ny wy (flipSlice (decide (0 < wy.cdelt)))).2.sky2pix (-pole)) ny tol = some t ∧ g.name = t.1 ∧
      g.ny = rint ((sliceGeometry ny wy (flipSlice (decide (0 < wy.cdelt)))).2.sky2pix (-pole) -
        (sliceGeometry ny wy (flipSlice (decide (0 < wy.cdelt)))).2.sky2pix pole + 1 - t.2.1 - t.2.2) ∧
      (analyseGeometry true pole ny nx wy wx tol).ypad.1 =
        rint (-(sliceGeometry ny wy (flipSlice (decide (0 < wy.cdelt)))).2.sky2pix pole - t.2.1) ∧
      ny + (analyseGeometry true pole ny nx wy wx tol).ypad.1 + (analyseGeometry true pole ny nx wy wx tol).ypad.2 = g.ny := by
  have hneg : ¬ (0 < (sliceGeometry ny wy (flipSlice (decide (0 < wy.cdelt)))).2.cdelt) := by
    rw [flip_down wy ny hy0]
    have := abs_pos.mpr hy0; linarith
  have hpos : ¬ ((sliceGeometry nx wx (flipSlice (decide (wx.cdelt < 0)))).2.cdelt < 0) := by
    rw [flip_up wx nx hx0]
    have := abs_pos.mpr hx0; linarith
  have hgeo : getDuccGeo pole (sliceGeometry ny wy (flipSlice (decide (0 < wy.cdelt)))).1.toNat
      (sliceGeometry nx wx (flipSlice (decide (wx.cdelt < 0)))).1.toNat (sliceGeometry ny wy (flipSlice (decide (0 < wy.cdelt)))).2
      (sliceGeometry nx wx (flipSlice (decide (wx.cdelt < 0)))).2 tol = some g := by
    unfold analyseGeometry at hg
    simp only at hg
    split_ifs at hg with a b c
    · exact hg
    · exact hg
    · exact hg
  have hn : (sliceGeometry ny wy (flipSlice (decide (0 < wy.cdelt)))).1.toNat = ny := by rw [flip_geom]; simp
  have hgeo' := hgeo
  unfold getDuccGeo at hgeo'
  simp only [hneg, hpos, decide_false, flip_false_id, hn] at hgeo'
  split_ifs at hgeo' with h1
  rw [Option.map_eq_some_iff] at hgeo'
  obtain ⟨t, ht', hgt⟩ := hgeo'
  refine ⟨t, ht', by rw [← hgt], by rw [← hgt], ?_, ?_⟩
  · have hy : g.yoff = rint (-(sliceGeometry ny wy (flipSlice (decide (0 < wy.cdelt)))).2.sky2pix pole - t.2.1) := by rw [← hgt]
    rw [← hy]
    unfold analyseGeometry
    simp only [hgeo]
    split_ifs with a b c
    · unfold analyseGeometry at hg
      simp only [a, if_true] at hg
      cases hg
    · simp only [Option.any_some, Bool.and_eq_true, decide_eq_true_eq] at b
      have hb := b.2
      have : |g.yoff| < 1 := by
        have h' : ((|g.yoff| : ℤ) : ℚ) < 1 := by rw [Int.cast_abs]; linarith
        exact_mod_cast h'
      have := Int.abs_lt_one_iff.mp this
      simp [this]
    · simp
    · simp
  · unfold analyseGeometry
    simp only [hgeo]
    split_ifs with a b c
    · unfold analyseGeometry at hg
      simp only [a, if_true] at hg
      cases hg
    · simp only [Option.any_some, Bool.and_eq_true, decide_eq_true_eq] at b
      simp [b.1.1]
    · simp only [Option.map_some, Option.getD_some]; ring
    · simp only [Option.map_some, Option.getD_some]; ring

/-- C81 (partial): whenever a plate carree map is found to follow one of ducc's grids (other than DH), the padding found for
it makes a full grid, and every row of the map, once flipped and padded, sits at the latitude of the grid's ring to within
three tolerances of a pixel. What is missing: DH, for which `C81_dh_refuted` shows the claim to fail, and maps of another
projection (`C81_equal_area_refuted`). -/
theorem C81_rows_partial (ny nx : Nat) (wy wx : Axis) (tol : ℚ) (ht : tol ≤ 1/8) (hv : wy.crval = 0) (hy0 : wy.cdelt ≠ 0)
    (hy1 : |wy.cdelt| ≤ 180) (hx0 : wx.cdelt ≠ 0) (hsky : ∀ r < ny, |wy.pix2sky (r : ℚ)| ≤ 90) (g : DuccGeo)
    (hg : (analyseGeometry true 90 ny nx wy wx tol).geo = some g) (hne : g.name ≠ .DH) :
    ny + (analyseGeometry true 90 ny nx wy wx tol).ypad.1 + (analyseGeometry true 90 ny nx wy wx tol).ypad.2 = g.ny ∧
    ∀ r < ny, ∀ j : ℤ, j = (if 0 < wy.cdelt then ny - 1 - r else r : Nat) + (analyseGeometry true 90 ny nx wy wx tol).ypad.1 →
      0 ≤ j ∧ j < g.ny ∧ |wy.pix2sky r - (90 - 180 * ringFraction g.name g.ny j)| ≤ 3 * tol * |wy.cdelt| := by
  obtain ⟨t, ht', hn1, hn2, hn3, hn4⟩ := analyse_spec (by linarith) hy0 hx0 hg
  refine ⟨hn4, fun r hr j hj => ?_⟩
  have hpx := flip_pix ny wy (decide (0 < wy.cdelt)) r hr
  have hcd := flip_down wy ny hy0
  have hcv : (sliceGeometry ny wy (flipSlice (decide (0 < wy.cdelt)))).2.crval = 0 := by rw [flip_geom]; exact hv
  set W := (sliceGeometry ny wy (flipSlice (decide (0 < wy.cdelt)))).2 with hW
  set p : Nat := if (decide (0 < wy.cdelt)) = true then ny - 1 - r else r with hp
  have hpN : p < ny := by rw [hp]; split_ifs <;> omega
  have hpos : 0 < |wy.cdelt| := abs_pos.mpr hy0
  set c := |wy.cdelt| with hc
  have sky : ∀ q : ℚ, W.pix2sky q = -(q - (W.crpix - 1)) * c := by
    intro q; unfold Axis.pix2sky; rw [hcd, hcv]; ring
  have y1e : W.sky2pix 90 = -(90 / c) + (W.crpix - 1) := by
    unfold Axis.sky2pix; rw [hcd, hcv, div_neg]; ring
  have y2e : W.sky2pix (-90) = 90 / c + (W.crpix - 1) := by
    unfold Axis.sky2pix; rw [hcd, hcv]; field_simp; ring
  have hS : 1 ≤ W.sky2pix (-90) - W.sky2pix 90 := by
    rw [y1e, y2e]
    have : 1 ≤ 180 / c := by rw [le_div_iff₀ hpos]; linarith
    have e : 90 / c + (W.crpix - 1) - (-(90 / c) + (W.crpix - 1)) = 180 / c := by ring
    rw [e]; exact this
  have hin := hsky r hr
  rw [← hpx, sky] at hin
  obtain ⟨b1, b2⟩ := abs_le.mp hin
  have c9 : 90 / c * c = 90 := div_mul_cancel₀ _ hpos.ne'
  have hp1 : W.sky2pix 90 ≤ p := by
    rw [y1e]; nlinarith
  have hp2 : (p : ℚ) ≤ W.sky2pix (-90) := by
    rw [y2e]; nlinarith
  obtain ⟨k1, k2, k3⟩ := name_core ht ht' (by rw [← hn1]; exact hne) hS hpN hp1 hp2
  have hjp : j = (p : ℤ) + rint (-W.sky2pix 90 - t.2.1) := by
    rw [hj, hn3, hp]
    simp only [decide_eq_true_eq]
  rw [hjp, hn1, hn2]
  refine ⟨k1, k2, ?_⟩
  rw [← hpx, sky]
  set f := ringFraction t.1 (rint (W.sky2pix (-90) - W.sky2pix 90 + 1 - t.2.1 - t.2.2)) (p + rint (-W.sky2pix 90 - t.2.1)) with hf
  have e : -((p : ℚ) - (W.crpix - 1)) * c - (90 - 180 * f) =
      (W.sky2pix 90 + f * (W.sky2pix (-90) - W.sky2pix 90) - p) * c := by
    rw [y1e, y2e]
    have : f * (90 / c + (W.crpix - 1) - (-(90 / c) + (W.crpix - 1))) * c = f * 180 := by
      have : f * (90 / c + (W.crpix - 1) - (-(90 / c) + (W.crpix - 1))) * c = f * (2 * (90 / c * c)) := by ring
      rw [this, c9]; ring
    have h2 : (-(90 / c) + (W.crpix - 1) + f * (90 / c + (W.crpix - 1) - (-(90 / c) + (W.crpix - 1))) - p) * c =
        -(90 / c * c) + (W.crpix - 1 - p) * c + f * (90 / c + (W.crpix - 1) - (-(90 / c) + (W.crpix - 1))) * c := by ring
    rw [h2, this, c9]; ring
  rw [e, abs_mul, abs_of_pos hpos]
  exact mul_le_mul_of_nonneg_right k3 hpos.le

/-- C81, columns: the columns of a map that is not sent to the general method, once flipped and padded, number as many as the
grid's and sit at equal steps around the sky from the longitude phi0 of the first, to within one tolerance of a pixel. -/
theorem C81_columns (pole : ℚ) (ny nx : Nat) (wy wx : Axis) (tol : ℚ) (ht : tol ≤ 1/8) (hx0 : wx.cdelt ≠ 0)
    (hx1 : |wx.cdelt| ≤ 180) (m : MapInfo) (hm : m = analyseGeometry true pole ny nx wy wx tol) (hc : m.case ≠ .general) :
    let n := nx + m.xpad.1 + m.xpad.2
    m.xpad.1 = 0 ∧ 0 < n ∧ |360 / |wx.cdelt| - n| < tol ∧ (∀ g, m.geo = some g → g.nx = n) ∧
    ∀ c < nx, ((nx : ℤ) ≤ n) → ∀ k : Nat, k = (if wx.cdelt < 0 then nx - 1 - c else c) →
      |wx.pix2sky c - (m.phi0 + 360 * k / n)| ≤ tol * |wx.cdelt| := by
  have hpos : 0 < |wx.cdelt| := abs_pos.mpr hx0
  have hcd := flip_up wx nx hx0
  have hdiv : hasoff (360 / |wx.cdelt|) 0 tol = true := by
    by_contra hno
    apply hc
    rw [hm]; unfold analyseGeometry
    rw [if_pos]
    rw [Bool.not_eq_true] at hno
    rw [hno]; rfl
  obtain ⟨q, hq⟩ := hasoff_elim hdiv
  rw [sub_zero] at hq
  have hr : rint (360 / |wx.cdelt|) = q := rint_eq_of_lt (by linarith)
  have hgeo : ∀ g, m.geo = some g → g.nx = q := by
    intro g hg
    have hposn : ¬ ((sliceGeometry nx wx (flipSlice (decide (wx.cdelt < 0)))).2.cdelt < 0) := by
      rw [hcd]; linarith
    rw [hm] at hg
    have hg' : getDuccGeo pole (sliceGeometry ny wy (flipSlice (decide (0 < wy.cdelt)))).1.toNat
        (sliceGeometry nx wx (flipSlice (decide (wx.cdelt < 0)))).1.toNat (sliceGeometry ny wy (flipSlice (decide (0 < wy.cdelt)))).2
        (sliceGeometry nx wx (flipSlice (decide (wx.cdelt < 0)))).2 tol = some g := by
      unfold analyseGeometry at hg
      simp only at hg
      split_ifs at hg
      · exact hg
      · exact hg
      · exact hg
    unfold getDuccGeo at hg'
    simp only [hposn, decide_false, flip_false_id] at hg'
    split_ifs at hg'
    rw [Option.map_eq_some_iff] at hg'
    obtain ⟨t, -, hgt⟩ := hg'
    rw [← hgt]
    simp only [hcd]
    exact hr
  have hx : m.xpad.1 = 0 ∧ nx + m.xpad.1 + m.xpad.2 = q := by
    rw [hm] at hgeo ⊢
    unfold analyseGeometry at hgeo ⊢
    simp only [hdiv, hcd, hr] at hgeo ⊢
    simp only [Bool.not_true, Bool.or_false, Bool.false_eq_true, if_false] at hgeo ⊢
    split_ifs at hgeo ⊢ with a b
    · rw [Option.any_eq_true] at a
      obtain ⟨g, hg, hd⟩ := a
      simp only [Bool.and_eq_true, decide_eq_true_eq] at hd
      have := hgeo g hg
      exact ⟨rfl, by simp [hd.1.2, this]⟩
    · exact ⟨rfl, by simp [b]⟩
    · exact ⟨rfl, by simp⟩
  have hphi : m.phi0 = (sliceGeometry nx wx (flipSlice (decide (wx.cdelt < 0)))).2.pix2sky 0 := by
    rw [hm]
    unfold analyseGeometry
    simp only [hdiv]
    simp only [Bool.not_true, Bool.or_false, Bool.false_eq_true, if_false]
    split_ifs <;> rfl
  intro n
  have hn : n = q := hx.2
  have hq2 : 2 ≤ 360 / |wx.cdelt| := by rw [le_div_iff₀ hpos]; linarith
  have hqpos : (0 : ℚ) < q := by
    have := (abs_lt.mp hq).2; linarith
  refine ⟨hx.1, by rw [hn]; exact_mod_cast hqpos, by rw [hn]; exact hq, by rw [hn]; exact hgeo, ?_⟩
  intro c hcn hle k hk
  have hpx := flip_pix nx wx (decide (wx.cdelt < 0)) c hcn
  have hkk : (if decide (wx.cdelt < 0) = true then nx - 1 - c else c) = k := by rw [hk]; simp only [decide_eq_true_eq]
  rw [hkk] at hpx
  rw [← hpx, hphi, hn]
  have hkq : (k : ℚ) ≤ q := by
    have h1 : (k : ℤ) < nx := by rw [hk]; split_ifs <;> omega
    have h2 : (k : ℤ) ≤ q := by rw [hn] at hle; omega
    exact_mod_cast h2
  set W := (sliceGeometry nx wx (flipSlice (decide (wx.cdelt < 0)))).2 with hW
  have e : W.pix2sky k - (W.pix2sky 0 + 360 * k / q) = -((k : ℚ) / q) * |wx.cdelt| * (360 / |wx.cdelt| - q) := by
    unfold Axis.pix2sky
    rw [hcd]
    field_simp
    ring
  rw [e, abs_mul, abs_mul, abs_neg, abs_abs, abs_of_nonneg (div_nonneg (Nat.cast_nonneg _) hqpos.le)]
  have f1 : (k : ℚ) / q ≤ 1 := by rw [div_le_one hqpos]; exact hkq
  have f0 : (0 : ℚ) ≤ k / q := div_nonneg (Nat.cast_nonneg _) hqpos.le
  calc (k : ℚ) / q * |wx.cdelt| * |360 / |wx.cdelt| - q| ≤ 1 * |wx.cdelt| * |360 / |wx.cdelt| - q| := by
        apply mul_le_mul_of_nonneg_right (mul_le_mul_of_nonneg_right f1 hpos.le) (abs_nonneg _)
    _ ≤ 1 * |wx.cdelt| * tol := by
        apply mul_le_mul_of_nonneg_left hq.le; linarith
    _ = tol * |wx.cdelt| := by ring

/-- C81 refuted for the Driscoll-Healy grid: a map with the north pole in its first row and the south pole one row past its last
is found to be a DH grid, but with the rows shifted by one: the first row of the map would be put before the first ring. -/
theorem C81_dh_refuted :
    ∃ g, (analyseGeometry true 90 4 8 ⟨0, -45, 3⟩ ⟨0, 45, 1⟩ (1/1000000)).geo = some g ∧ g.name = .DH ∧
      (analyseGeometry true 90 4 8 ⟨0, -45, 3⟩ ⟨0, 45, 1⟩ (1/1000000)).ypad = (-1, 1) ∧
      (∀ r < 4, (⟨0, -45, 3⟩ : Axis).pix2sky (r : Nat) = 90 - 180 * ringFraction g.name g.ny r) := by
  refine ⟨⟨.DH, 8, 4, 1, 0, -1, 1⟩, by decide +kernel, rfl, by decide +kernel, ?_⟩
  intro r hr
  have : r = 0 ∨ r = 1 ∨ r = 2 ∨ r = 3 := by omega
  rcases this with rfl | rfl | rfl | rfl <;> norm_num [Axis.pix2sky, ringFraction]

/-- C81 refuted for other cylindrical projections: a full-sky equal-area map (here 3 rows, with lambda = 3/pi, so that the pole
is at 60 in the plane and row y is at the latitude whose sine is its coordinate over 60) is taken for the F1 grid and sent to
the 2d transform, although the latitude of its first row is not that of the grid's first ring. -/
theorem C81_equal_area_refuted :
    ∃ g, (analyseGeometry true 60 3 8 ⟨0, -40, 2⟩ ⟨0, 45, 1⟩ (1/1000000)).geo = some g ∧ g.name = .F1 ∧ g.ny = 3 ∧
      getMethod (analyseGeometry true 60 3 8 ⟨0, -40, 2⟩ ⟨0, 45, 1⟩ (1/1000000)) = .twoD ∧
      Real.sin (Real.pi / 2 - Real.pi * (ringFraction g.name g.ny 0 : ℚ)) ≠ (((⟨0, -40, 2⟩ : Axis).pix2sky 0 / 60 : ℚ) : ℝ) := by
  refine ⟨⟨.F1, 8, 3, 1/2, 1/2, 0, 2⟩, by decide +kernel, rfl, rfl, by decide +kernel, ?_⟩
  have e1 : (⟨0, -40, 2⟩ : Axis).pix2sky 0 / 60 = 2/3 := by norm_num [Axis.pix2sky]
  have e2 : ringFraction .F1 3 0 = 1/6 := by norm_num [ringFraction]
  rw [e1]
  simp only [e2]
  rw [Real.sin_pi_div_two_sub]
  have e3 : Real.pi * (((1/6 : ℚ)) : ℝ) = Real.pi / 6 := by push_cast; ring
  rw [e3, Real.cos_pi_div_six]
  intro h
  have h3 : Real.sqrt 3 * Real.sqrt 3 = 3 := Real.mul_self_sqrt (by norm_num)
  have h4 : Real.sqrt 3 = 4/3 := by push_cast at h; linarith
  rw [h4] at h3
  norm_num at h3

theorem geo_of_name (ny nx : Nat) (wy wx : Axis) (tol : ℚ) (hy : wy.cdelt ≠ 0) (hx : wx.cdelt ≠ 0)
    (hd : hasoff (360 / |wx.cdelt|) 0 tol = true) (n : DuccName) (o1 o2 : ℚ)
    (hn : duccName ((sliceGeometry ny wy (flipSlice (decide (0 < wy.cdelt)))).2.sky2pix 90)
        ((sliceGeometry ny wy (flipSlice (decide (0 < wy.cdelt)))).2.sky2pix (-90)) ny tol = some (n, o1, o2))
    (hny : rint ((sliceGeometry ny wy (flipSlice (decide (0 < wy.cdelt)))).2.sky2pix (-90) -
        (sliceGeometry ny wy (flipSlice (decide (0 < wy.cdelt)))).2.sky2pix 90 + 1 - o1 - o2) = ny)
    (hyo : rint (-(sliceGeometry ny wy (flipSlice (decide (0 < wy.cdelt)))).2.sky2pix 90 - o1) = 0)
    (hnx : rint (360 / |wx.cdelt|) = nx) (ht : 0 < tol) :
    (analyseGeometry true 90 ny nx wy wx tol).case = .twoD ∧
    (analyseGeometry true 90 ny nx wy wx tol).geo.map (·.name) = some n := by
  have hneg : ¬ (0 < (sliceGeometry ny wy (flipSlice (decide (0 < wy.cdelt)))).2.cdelt) := by
    rw [flip_down wy ny hy]
    have := abs_pos.mpr hy; linarith
  have hpos : ¬ ((sliceGeometry nx wx (flipSlice (decide (wx.cdelt < 0)))).2.cdelt < 0) := by
    rw [flip_up wx nx hx]
    have := abs_pos.mpr hx; linarith
  have hcd := flip_up wx nx hx
  have h1 : (sliceGeometry ny wy (flipSlice (decide (0 < wy.cdelt)))).1.toNat = ny := by rw [flip_geom]; simp
  have hgeo : getDuccGeo 90 (sliceGeometry ny wy (flipSlice (decide (0 < wy.cdelt)))).1.toNat
      (sliceGeometry nx wx (flipSlice (decide (wx.cdelt < 0)))).1.toNat (sliceGeometry ny wy (flipSlice (decide (0 < wy.cdelt)))).2
      (sliceGeometry nx wx (flipSlice (decide (wx.cdelt < 0)))).2 tol = some ⟨n, nx, ny, o1, o2, 0, duccMaxLmax n ny⟩ := by
    unfold getDuccGeo
    simp only [hneg, hpos, decide_false, flip_false_id, h1]
    simp only [hcd, hd, Bool.true_eq_false, if_false, hn, Option.map_some, hny, hyo, hnx]
  unfold analyseGeometry
  simp only [hd, hgeo]
  simp [ht]

/-- C81: every full-sky map made by fullsky_geometry, of either variant, is recognised as the grid it is meant to be (CC with the
poles in the first and last row, F1 with the poles at the outer edges), and is sent to the 2d transform. -/
theorem C81_fullsky (ny nx yo : Nat) (hyo : yo ≤ 1) (hy : yo < ny) (hx : 0 < nx) (tol : ℚ) (ht0 : 0 < tol) (ht : tol ≤ 1/2) :
    let m := analyseGeometry true 90 ny nx (fullskyGeometry ny nx yo).1 (fullskyGeometry ny nx yo).2 tol
    m.geo.map (·.name) = some (if yo = 1 then .CC else .F1) ∧ getMethod m = .twoD := by
  intro m
  have hd : (0 : ℚ) < (ny : ℚ) - yo := by
    have : (yo : ℚ) < ny := by exact_mod_cast hy
    linarith
  have hX : (0 : ℚ) < nx := by exact_mod_cast hx
  have hyp : 0 < (fullskyGeometry ny nx yo).1.cdelt := by unfold fullskyGeometry; exact div_pos (by norm_num) hd
  have hxn : (fullskyGeometry ny nx yo).2.cdelt < 0 := by
    unfold fullskyGeometry; exact div_neg_of_neg_of_pos (by norm_num) hX
  have hxa : 360 / |(fullskyGeometry ny nx yo).2.cdelt| = nx := by
    rw [abs_of_neg hxn]; unfold fullskyGeometry; simp only; field_simp
  have y1 : (sliceGeometry ny (fullskyGeometry ny nx yo).1 (flipSlice (decide (0 < (fullskyGeometry ny nx yo).1.cdelt)))).2.sky2pix 90 =
      -(1 - (yo : ℚ)) / 2 := by
    rw [flip_geom]
    simp only [hyp, decide_true, if_true]
    unfold Axis.sky2pix fullskyGeometry
    simp only
    field_simp
    ring
  have y2 : (sliceGeometry ny (fullskyGeometry ny nx yo).1 (flipSlice (decide (0 < (fullskyGeometry ny nx yo).1.cdelt)))).2.sky2pix (-90) =
      ny - ((yo : ℚ) + 1) / 2 := by
    rw [flip_geom]
    simp only [hyp, decide_true, if_true]
    unfold Axis.sky2pix fullskyGeometry
    simp only
    field_simp
    ring
  have hdx : hasoff (360 / |(fullskyGeometry ny nx yo).2.cdelt|) 0 tol = true := by
    rw [hxa]; exact hasoff_intro ht0 nx (by push_cast; ring)
  have hnx : rint (360 / |(fullskyGeometry ny nx yo).2.cdelt|) = nx := by
    rw [hxa]; exact_mod_cast rint_int (nx : ℤ)
  have hN : (1 : ℚ) ≤ ny := by exact_mod_cast (by omega : 1 ≤ ny)
  obtain ⟨hc, hn⟩ : m.case = .twoD ∧ m.geo.map (·.name) = some (if yo = 1 then DuccName.CC else .F1) := by
    have : yo = 1 ∨ yo = 0 := by omega
    rcases this with h | h
    · subst h
      simp only [Nat.cast_one, sub_self, neg_zero, zero_div] at y1
      have y2' : (sliceGeometry ny (fullskyGeometry ny nx 1).1 (flipSlice (decide (0 < (fullskyGeometry ny nx 1).1.cdelt)))).2.sky2pix (-90) =
          ((ny - 1 : ℤ) : ℚ) := by rw [y2]; push_cast; ring
      refine geo_of_name ny nx _ _ tol hyp.ne' hxn.ne hdx _ 0 0 ?_ ?_ ?_ hnx ht0
      · rw [y1, y2']
        unfold duccName
        have z1 : hasoff 0 0 tol = true := hasoff_intro ht0 0 (by norm_num)
        have z2 : hasoff (((ny : ℤ) - 1 : ℤ) : ℚ) 0 tol = true := hasoff_intro ht0 ((ny : ℤ) - 1) (by push_cast; ring)
        rw [if_pos (show (hasoff 0 0 tol && hasoff (((ny : ℤ) - 1 : ℤ) : ℚ) 0 tol) = true by rw [z1, z2]; rfl), if_neg, if_neg]
        · rfl
        · intro hh
          have := hh.2
          push_cast at this
          rw [show (ny : ℚ) - 1 - ny = -1 by ring, abs_neg, abs_one] at this
          linarith
        · intro hh
          have := hh.1
          norm_num at this
          linarith
      · rw [y1, y2', show (((ny : ℤ) - 1 : ℤ) : ℚ) - 0 + 1 - 0 - 0 = ((ny : ℤ) : ℚ) by push_cast; ring]
        exact rint_int _
      · rw [y1]; simpa using rint_int 0
    · subst h
      simp only [Nat.cast_zero, sub_zero, zero_add] at y1 y2
      refine geo_of_name ny nx _ _ tol hyp.ne' hxn.ne hdx _ (1/2) (1/2) ?_ ?_ ?_ hnx ht0
      · rw [y1, y2]
        unfold duccName
        rw [hasoff_half_false ht (-1) (by push_cast; norm_num), hasoff_intro (o := 1/2) ht0 (-1) (by push_cast; norm_num),
          hasoff_intro (o := 1/2) ht0 ((ny : ℤ) - 1) (by push_cast; ring)]
        rfl
      · rw [y1, y2, show (ny : ℚ) - 1/2 - -1/2 + 1 - 1/2 - 1/2 = ((ny : ℤ) : ℚ) by push_cast; ring]
        exact rint_int _
      · rw [y1]
        have : (-(-1/2) - 1/2 : ℚ) = ((0 : ℤ) : ℚ) := by norm_num
        rw [this]; exact rint_int 0
  refine ⟨hn, ?_⟩
  unfold getMethod
  rw [hc]

/-! ### C82 -/

theorem trimWeights_eq (l : List ℚ) (a b : Nat) (n : Nat) (h : l.length = a + n + b) :
    trimWeights l ((a : ℤ), (b : ℤ)) = some ((l.drop a).take n) := by
  unfold trimWeights
  rw [npGet_unit (i := a) (j := a + n)]
  · rw [show a + n - a = n by omega]
  · unfold lo; simp only [adjust]; split_ifs <;> omega
  · unfold hi; simp only [adjust]; split_ifs <;> omega
  · omega

theorem C82_core (grid : DuccName → ℤ → List ℚ) (hlen : ∀ nm k, (grid nm k).length = k.toNat) (m : MapInfo) (g : DuccGeo)
    (hg : m.geo = some g) (ny : Nat) (h0 : 0 ≤ m.ypad.1) (h1 : 0 ≤ m.ypad.2) :
    ∃ w, trimWeights (grid g.name (ny + (m.ypad.1 + m.ypad.2))) m.ypad = some w ∧ w.length = ny ∧
      ∀ k < ny, w[k]? = (grid g.name (ny + m.ypad.1 + m.ypad.2))[k + m.ypad.1.toNat]? := by
  obtain ⟨a, ha⟩ := Int.eq_ofNat_of_zero_le h0
  obtain ⟨b, hb⟩ := Int.eq_ofNat_of_zero_le h1
  have e : m.ypad = ((a : ℤ), (b : ℤ)) := Prod.ext ha hb
  have hl : (grid g.name (ny + (m.ypad.1 + m.ypad.2))).length = a + ny + b := by
    rw [hlen, ha, hb]; omega
  refine ⟨_, by rw [e] at hl ⊢; exact trimWeights_eq _ a b ny hl, by rw [List.length_take, List.length_drop, ← ha, ← hb] ; simp only [hlen]; omega, ?_⟩
  intro k hk
  rw [List.getElem?_take_of_lt hk, List.getElem?_drop, ha, hb, Int.toNat_natCast, Nat.add_comm, ← add_assoc]

/-- C82: the weights that map2alm hands to the transform of the flipped map, for a map on one of ducc's grids: buffer row `k`
gets the weight of its ring. -/
theorem C82_transform (grid : DuccName → ℤ → List ℚ) (hlen : ∀ nm k, (grid nm k).length = k.toNat) (pix : List ℚ) (m : MapInfo)
    (g : DuccGeo) (hg : m.geo = some g) (ny : Nat) (h0 : 0 ≤ m.ypad.1) (h1 : 0 ≤ m.ypad.2) :
    ∃ w, cylWeights grid pix m ny = some w ∧ w.length = ny ∧
      ∀ k < ny, w[k]? = (grid g.name (ny + m.ypad.1 + m.ypad.2))[k + m.ypad.1.toNat]?.map (· / (g.nx : ℚ)) := by
  obtain ⟨w, hw, hl, hv⟩ := C82_core grid hlen m g hg ny h0 h1
  refine ⟨w.map (· / (g.nx : ℚ)), ?_, by simpa using hl, fun k hk => ?_⟩
  · unfold cylWeights
    rw [hg]
    simp only [hw, Option.map_some]
  · rw [List.getElem?_map, hv k hk]

/-- C82 (partial): quad_weights gives row `r` of a map whose declination increases with the row the weight of its ring (row
`ny-1-r` of the flipped map). What is missing: maps whose declination decreases; for them the result is reversed all the
same, see `C82_quad_refuted`. -/
theorem C82_quad_partial (grid : DuccName → ℤ → List ℚ) (hlen : ∀ nm k, (grid nm k).length = k.toNat) (pole : ℚ) (ny nx : Nat)
    (wy wx : Axis) (tol : ℚ) (m : MapInfo) (hm : m = analyseGeometry true pole ny nx wy wx tol) (g : DuccGeo) (hg : m.geo = some g)
    (h0 : 0 ≤ m.ypad.1) (h1 : 0 ≤ m.ypad.2) (hup : 0 < wy.cdelt) :
    ∃ w, quadWeights grid m ny = some w ∧ w.length = ny ∧ ∀ r < ny, w[r]? =
      (grid g.name (ny + m.ypad.1 + m.ypad.2))[(if 0 < wy.cdelt then ny - 1 - r else r) + m.ypad.1.toNat]?.map (· / (g.nx : ℚ)) := by
  obtain ⟨w, hw, hl, hv⟩ := C82_core grid hlen m g hg ny h0 h1
  have hf : m.flip ≠ [] := by
    rw [hm]; unfold analyseGeometry; simp only; split_ifs <;> simp
  refine ⟨w.reverse.map (· / (g.nx : ℚ)), ?_, by simpa using hl, fun r hr => ?_⟩
  · unfold quadWeights
    rw [hg]
    simp only [Option.bind_eq_bind, Option.bind_some, hw, Option.pure_def, if_pos hf]
  · rw [List.getElem?_map, List.getElem?_reverse (by omega), hl, hv _ (by omega), if_pos hup]

/-- C82 (partial): for a map on none of ducc's grids whose declination increases with the row, map2alm weights every row of the
flipped map by the area of its pixels. What is missing: maps whose declination decreases, see `C82_area_refuted`. -/
theorem C82_area_partial (grid : DuccName → ℤ → List ℚ) (pix : List ℚ) (pole : ℚ) (ny nx : Nat) (wy wx : Axis) (tol : ℚ)
    (m : MapInfo) (hm : m = analyseGeometry true pole ny nx wy wx tol) (hg : m.geo = none) (hl : pix.length = ny) (hup : 0 < wy.cdelt) :
    ∃ w, cylWeights grid pix m ny = some w ∧ w.length = ny ∧
      ∀ r < ny, w[if 0 < wy.cdelt then ny - 1 - r else r]? = pix[r]? := by
  have hf : m.flip ≠ [] := by
    rw [hm]; unfold analyseGeometry; simp only; split_ifs <;> simp
  refine ⟨pix.reverse, by unfold cylWeights; rw [hg]; simp only [if_pos hf], by simpa using hl, fun r hr => ?_⟩
  rw [if_pos hup, List.getElem?_reverse (by omega)]
  congr 1
  omega

/-- Ducc's weights for a grid of which the rows can be told apart: ring `j` has weight `j`. -/
def countGrid : DuccName → ℤ → List ℚ := fun _ k => (List.range k.toNat).map fun (i : Nat) => (i : ℚ)

/-- C82 refuted: on a band of the F1 grid with declination decreasing (the order ducc wants, so nothing is flipped) quad_weights
returns the weights in reverse: row 0 of the map, which is ring 1 of the grid, gets the weight of ring 2. -/
theorem C82_quad_refuted :
    let m := analyseGeometry true 90 2 8 ⟨0, -45, 3/2⟩ ⟨0, 45, 1⟩ (1/1000000)
    m.flip = [false, false] ∧ m.ypad = (1, 1) ∧ m.geo.map (·.name) = some .F1 ∧
    quadWeights countGrid m 2 = some [2/8, 1/8] ∧ cylWeights countGrid [] m 2 = some [1/8, 2/8] := by
  decide +kernel

/-- C82 refuted for maps that are on none of ducc's grids: the pixel areas are reversed even when the map is not flipped, so on a
band with declination decreasing map2alm weights the rows in the wrong order. -/
theorem C82_area_refuted :
    let m := analyseGeometry true 90 2 8 ⟨0, -44, 3/2⟩ ⟨0, 45, 1⟩ (1/1000000)
    m.case = .cyl ∧ m.flip = [false, false] ∧ m.geo = none ∧ cylWeights countGrid [5, 7] m 2 = some [7, 5] := by
  decide +kernel

/-- C82 refuted for a Clenshaw-Curtis map without its last ring: it is taken for a DH grid and gets no weights at all. -/
theorem C82_dh_refuted :
    let m := analyseGeometry true 90 4 8 ⟨0, -45, 3⟩ ⟨0, 45, 1⟩ (1/1000000)
    getMethod m = .cyl ∧ cylWeights countGrid [] m 4 = some [] := by
  decide +kernel

-- C81_rows_partial and C81_columns on a band of the CC grid with 15 degree pixels, flipped on both axes.
example : analyseGeometry true 90 5 10 ⟨0, 15, 2⟩ ⟨0, -15, 4⟩ (1/1000000) =
    ⟨.part, [true, true], some ⟨.CC, 24, 13, 0, 0, 3, 11⟩, (3, 5), (0, 14), -90⟩ := by decide +kernel

-- C82_quad_partial: the same band, rows increasing in declination.
example : quadWeights countGrid (analyseGeometry true 90 5 10 ⟨0, 15, 2⟩ ⟨0, -15, 4⟩ (1/1000000)) 5 =
    some [7/24, 6/24, 5/24, 4/24, 3/24] := by decide +kernel

/-! ### C83 -/

/-- C83: in the ring table of a cylindrical map every row is a ring of `nx` pixels, and every pixel of the flattened map is in
exactly one ring, at its column. -/
theorem C83_cylindrical (ny nx : Nat) (hx : 0 < nx) :
    let t := ringInfoCyl ny nx
    t.1.length = ny ∧ t.2.1.length = ny ∧ (∀ r < ny, t.1[r]? = some nx ∧ t.2.1[r]? = some (r * nx)) ∧ t.2.2.1 = ny * nx ∧
    t.2.2.2 = ny ∧ ∀ p < ny * nx, ∃! rc : Nat × Nat, rc.1 < ny ∧ rc.2 < t.1.getD rc.1 0 ∧ p = t.2.1.getD rc.1 0 + rc.2 := by
  intro t
  have e1 : t.1 = List.replicate ny nx := by
    show List.replicate ny (if nx = 0 then 2 * ny else nx) = _
    rw [if_neg (by omega)]
  have e2 : t.2.1 = cumsum0 (List.replicate ny nx) false := by
    show cumsum0 (List.replicate ny (if nx = 0 then 2 * ny else nx)) false = _
    rw [if_neg (by omega)]
  obtain ⟨o1, o2⟩ : t.2.1.length = ny ∧ ∀ r < ny, t.2.1[r]? = some (r * nx) := by
    rw [e2]
    rw [(C73_cumsum _).2]
    refine ⟨by simp, fun r hr => ?_⟩
    simp only [List.length_replicate, List.getElem?_map, List.getElem?_range hr, Option.map_some, List.take_replicate,
      List.sum_replicate, smul_eq_mul, min_eq_left hr.le]
  have g1 : ∀ r < ny, t.1[r]? = some nx := by intro r hr; rw [e1]; simp [hr]
  refine ⟨by rw [e1]; simp, o1, fun r hr => ⟨g1 r hr, o2 r hr⟩, ?_, rfl, ?_⟩
  · show (List.replicate ny (if nx = 0 then 2 * ny else nx)).sum = _
    rw [if_neg (by omega)]; simp
  · intro p hp
    refine ⟨(p / nx, p % nx), ⟨?_, ?_, ?_⟩, ?_⟩
    · exact Nat.div_lt_of_lt_mul (by rwa [Nat.mul_comm])
    · simp only [List.getD_eq_getElem?_getD, g1 _ (Nat.div_lt_of_lt_mul (by rwa [Nat.mul_comm] : p < nx * ny)), Option.getD_some]
      exact Nat.mod_lt _ hx
    · simp only [List.getD_eq_getElem?_getD, o2 _ (Nat.div_lt_of_lt_mul (by rwa [Nat.mul_comm] : p < nx * ny)), Option.getD_some]
      exact (Nat.div_add_mod' p nx).symm
    · rintro ⟨r, c⟩ ⟨h1, h2, h3⟩
      simp only at h1 h2 h3
      simp only [List.getD_eq_getElem?_getD, g1 r h1, o2 r h1, Option.getD_some] at h2 h3
      rw [h3]
      have d := Nat.add_mul_div_right c r hx
      have m := Nat.add_mul_mod_self_right c r nx
      rw [Nat.add_comm] at d m
      rw [Prod.mk.injEq, d, m, Nat.div_eq_of_lt h2, Nat.mod_eq_of_lt h2]
      exact ⟨by omega, rfl⟩

/-- Whether a colatitude is inside the limits. -/
def withinLim (lo hi : Option ℚ) (v : ℚ) : Bool := lo.all (fun a => decide (a ≤ v)) && hi.all (fun b => decide (v ≤ b))

/-- The table that keeps exactly the rings inside the limits, in order, with all that belongs to each. -/
def limSpec (t : RingTab) (lo hi : Option ℚ) : List (ℚ × Nat × ℚ × Nat) :=
  (t.theta.zip (t.nphi.zip (t.phi0.zip t.offsets))).filter (fun e => withinLim lo hi e.1)

theorem maskList_map {α : Type} (f : ℚ → Bool) : ∀ (th : List ℚ) (l : List α), l.length = th.length →
    maskList (th.map f) l = ((th.zip l).filter (fun e => f e.1)).map (·.2)
  | [], l, h => by cases l <;> simp [maskList]
  | a :: th, [], h => by simp at h
  | a :: th, b :: l, h => by
      have ih := maskList_map f th l (by simpa using h)
      unfold maskList at ih ⊢
      simp only [List.map_cons, List.zip_cons_cons, List.filter_cons]
      cases hf : f a <;> simp [ih]

theorem lim_mask (th : List ℚ) (lo hi : Option ℚ) : thetaMask th.length th lo hi = th.map (withinLim lo hi) := by
  have h1 : ∀ (g : Bool → ℚ → Bool) (l : List ℚ),
      List.zipWith g (List.replicate l.length true) l = l.map (g true) := by
    intro g l; induction l with
    | nil => rfl
    | cons a l ih => simp [List.replicate_succ, ih]
  have h2 : ∀ (g : Bool → ℚ → Bool) (f : ℚ → Bool) (l : List ℚ), List.zipWith g (l.map f) l = l.map (fun v => g (f v) v) := by
    intro g f l; induction l with
    | nil => rfl
    | cons a l ih => simp [ih]
  have h3 : ∀ l : List ℚ, List.replicate l.length true = l.map (withinLim none none) := by
    intro l; induction l with
    | nil => rfl
    | cons a l ih => simp [List.replicate_succ, ih, withinLim]
  cases lo with
  | none => cases hi with
    | none => exact h3 th
    | some b => simp only [thetaMask, h1]; simp [withinLim]
  | some a => cases hi with
    | none => simp only [thetaMask, h1]; simp [withinLim]
    | some b => simp only [thetaMask, h1, h2]; simp [withinLim]

/-- C83 (partial: the offsets are missing, see `C83_limit_refuted`): limiting a ring table keeps, in order, exactly the rings
whose colatitude is inside the limits, each with its own pixel count and first longitude; without limits nothing changes. -/
theorem C83_limit_partial (t : RingTab) (lo hi : Option ℚ) (hn : t.nrow = t.theta.length) (h1 : t.nphi.length = t.theta.length)
    (h2 : t.phi0.length = t.theta.length) (h3 : t.offsets.length = t.theta.length) :
    (thetaLim t lo hi).theta = (limSpec t lo hi).map (·.1) ∧ (thetaLim t lo hi).nphi = (limSpec t lo hi).map (·.2.1) ∧
    (thetaLim t lo hi).phi0 = (limSpec t lo hi).map (·.2.2.1) ∧
    ((∀ v ∈ t.theta, withinLim lo hi v = true) → (thetaLim t lo hi).offsets = (limSpec t lo hi).map (·.2.2.2)) := by
  obtain ⟨th, np, ph, of, nr⟩ := t
  simp only at hn h1 h2 h3
  subst hn
  have key : (thetaLim ⟨th, np, ph, of, th.length⟩ lo hi).theta = maskList (th.map (withinLim lo hi)) th ∧
      (thetaLim ⟨th, np, ph, of, th.length⟩ lo hi).nphi = maskList (th.map (withinLim lo hi)) np ∧
      (thetaLim ⟨th, np, ph, of, th.length⟩ lo hi).phi0 = maskList (th.map (withinLim lo hi)) ph ∧
      (thetaLim ⟨th, np, ph, of, th.length⟩ lo hi).offsets = of := by
    by_cases hh : lo = none ∧ hi = none
    · have full : ∀ {α : Type} (l : List α), l.length = th.length → maskList (th.map (withinLim none none)) l = l := by
        intro α l hl
        rw [maskList_map _ _ _ hl]
        rw [List.filter_eq_self.mpr (by intro e _; rfl)]
        rw [show (fun x : ℚ × α => x.2) = Prod.snd from rfl, List.map_snd_zip (by omega)]
      obtain ⟨rfl, rfl⟩ := hh
      unfold thetaLim
      rw [if_pos ⟨rfl, rfl⟩]
      exact ⟨(full th rfl).symm, (full np h1).symm, (full ph h2).symm, rfl⟩
    · unfold thetaLim
      rw [if_neg hh]
      simp [lim_mask th lo hi]
  have gen : ∀ (f : ℚ → Bool) (th : List ℚ) (np : List Nat) (ph : List ℚ) (of : List Nat), np.length = th.length →
      ph.length = th.length → of.length = th.length →
      maskList (th.map f) th = ((th.zip (np.zip (ph.zip of))).filter (fun e => f e.1)).map (·.1) ∧
      maskList (th.map f) np = ((th.zip (np.zip (ph.zip of))).filter (fun e => f e.1)).map (·.2.1) ∧
      maskList (th.map f) ph = ((th.zip (np.zip (ph.zip of))).filter (fun e => f e.1)).map (·.2.2.1) ∧
      maskList (th.map f) of = ((th.zip (np.zip (ph.zip of))).filter (fun e => f e.1)).map (·.2.2.2) := by
    intro f th
    induction th with
    | nil => intro np ph of _ _ _; simp [maskList]
    | cons a th ih =>
      intro np ph of e1 e2 e3
      cases np with
      | nil => simp at e1
      | cons n np =>
        cases ph with
        | nil => simp at e2
        | cons q ph =>
          cases of with
          | nil => simp at e3
          | cons o of =>
            obtain ⟨i1, i2, i3, i4⟩ := ih np ph of (by simpa using e1) (by simpa using e2) (by simpa using e3)
            unfold maskList at i1 i2 i3 i4 ⊢
            simp only [List.map_cons, List.zip_cons_cons, List.filter_cons]
            cases hf : f a <;> simp [i1, i2, i3, i4]
  obtain ⟨k1, k2, k3, k4⟩ := key
  obtain ⟨g1, g2, g3, g4⟩ := gen (withinLim lo hi) th np ph of h1 h2 h3
  refine ⟨k1.trans g1, k2.trans g2, k3.trans g3, fun hall => ?_⟩
  rw [k4]
  refine Eq.trans ?_ g4
  rw [maskList_map _ _ _ h3, List.filter_eq_self.mpr (by
    rintro ⟨e1, e2⟩ he; exact hall e1 (List.of_mem_zip he).1)]
  rw [show (fun x : ℚ × Nat => x.2) = Prod.snd from rfl, List.map_snd_zip (by omega)]

/-- C83, refuted: for every table with distinct offsets and a limit that removes its first ring but not its second one, the
first ring kept gets the offset of the ring that was removed. -/
theorem C83_limit_refuted (t : RingTab) (a : ℚ) (v w : ℚ) (th : List ℚ) (n m : Nat) (np : List Nat) (q s : ℚ) (ph : List ℚ)
    (o o' : Nat) (of : List Nat) (ht : t = ⟨v :: w :: th, n :: m :: np, q :: s :: ph, o :: o' :: of, th.length + 2⟩)
    (h1 : v < a) (h2 : a ≤ w) (hne : o ≠ o') :
    (thetaLim t (some a) none).offsets.head? = some o ∧
    ((limSpec t (some a) none).map (·.2.2.2)).head? = some o' ∧
    (thetaLim t (some a) none).offsets ≠ (limSpec t (some a) none).map (·.2.2.2) := by
  subst ht
  have e1 : (thetaLim ⟨v :: w :: th, n :: m :: np, q :: s :: ph, o :: o' :: of, th.length + 2⟩ (some a) none).offsets =
      o :: o' :: of := by
    unfold thetaLim; rw [if_neg (by simp)]
  have e2 : ((limSpec ⟨v :: w :: th, n :: m :: np, q :: s :: ph, o :: o' :: of, th.length + 2⟩ (some a) none).map
      (·.2.2.2)).head? = some o' := by
    unfold limSpec
    simp [withinLim, h2, not_le.mpr h1]
  refine ⟨by rw [e1]; rfl, e2, fun h => hne ?_⟩
  rw [← h, e1] at e2
  simpa using e2

/-- The polar rings of an nside-1 healpix map cut at the equator. -/
example : (thetaLim ⟨[1/2, 3/2, 5/2], [4, 4, 4], [1, 0, 1], [0, 4, 8], 3⟩ (some 1) none).theta = [3/2, 5/2] ∧
    (thetaLim ⟨[1/2, 3/2, 5/2], [4, 4, 4], [1, 0, 1], [0, 4, 8], 3⟩ (some 1) none).offsets = [0, 4, 8] ∧
    (limSpec ⟨[1/2, 3/2, 5/2], [4, 4, 4], [1, 0, 1], [0, 4, 8], 3⟩ (some 1) none).map (·.2.2.2) = [4, 8] := by decide +kernel

end Pixell
