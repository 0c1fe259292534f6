import Verif.Model.EdgeDist
import Mathlib.Tactic.Linarith
import Mathlib.Tactic.FieldSimp
import Mathlib.Tactic.LinearCombination
import Mathlib.Tactic.Ring
import Mathlib.Tactic.FinCases

/-
Property C120: distances from the edges of spherical polygons.
-/
namespace Pixell
open Real

theorem dotV_comm (a b : Fin 3 → ℝ) : dotV a b = dotV b a := by unfold dotV; ring

/-- The arc between two points of the sphere: the points of the sphere that are combinations of both with coefficients that
are not negative. -/
def OnArc (v1 v2 q : Fin 3 → ℝ) : Prop := dotV q q = 1 ∧ ∃ α β : ℝ, 0 ≤ α ∧ 0 ≤ β ∧ ∀ i, q i = α * v1 i + β * v2 i

theorem dotV_self_nonneg (a : Fin 3 → ℝ) : 0 ≤ dotV a a := by
  unfold dotV
  nlinarith [mul_self_nonneg (a 0), mul_self_nonneg (a 1), mul_self_nonneg (a 2)]

theorem dotV_self_eq_zero {a : Fin 3 → ℝ} (h : dotV a a = 0) : a = 0 := by
  unfold dotV at h
  have h0 : a 0 = 0 := by nlinarith [mul_self_nonneg (a 0), mul_self_nonneg (a 1), mul_self_nonneg (a 2)]
  have h1 : a 1 = 0 := by nlinarith [mul_self_nonneg (a 0), mul_self_nonneg (a 1), mul_self_nonneg (a 2)]
  have h2 : a 2 = 0 := by nlinarith [mul_self_nonneg (a 0), mul_self_nonneg (a 1), mul_self_nonneg (a 2)]
  funext i
  fin_cases i
  · exact h0
  · exact h1
  · exact h2

/-- The frame of an edge: the second axis is orthogonal to the first, both have length one, and the second end is in
their plane, on the positive side of the second axis. -/
theorem frame {v1 v2 : Fin 3 → ℝ} (h1 : dotV v1 v1 = 1) (hne : cross3 v1 v2 ≠ 0) :
    ∃ s : ℝ, 0 < s ∧ s = √(dotV (cross3 v1 v2) (cross3 v1 v2)) ∧
      (∀ i, normalize3 (cross3 (normalize3 (cross3 v1 v2)) v1) i = (v2 i - dotV v1 v2 * v1 i) / s) := by
  have hpos : 0 < dotV (cross3 v1 v2) (cross3 v1 v2) := by
    rcases lt_or_eq_of_le (dotV_self_nonneg (cross3 v1 v2)) with h | h
    · exact h
    · exact absurd (dotV_self_eq_zero h.symm) hne
  set s := √(dotV (cross3 v1 v2) (cross3 v1 v2)) with hs
  have hs0 : 0 < s := Real.sqrt_pos.2 hpos
  have hss : s * s = dotV (cross3 v1 v2) (cross3 v1 v2) := Real.mul_self_sqrt hpos.le
  refine ⟨s, hs0, rfl, ?_⟩
  have hc : ∀ i, cross3 (normalize3 (cross3 v1 v2)) v1 i = (v2 i - dotV v1 v2 * v1 i) / s := by
    have h1' : v1 0 * v1 0 + v1 1 * v1 1 + v1 2 * v1 2 = 1 := h1
    have hnz : ∀ i, normalize3 (cross3 v1 v2) i = cross3 v1 v2 i / s := fun i => rfl
    have x0 : cross3 v1 v2 0 = v1 1 * v2 2 - v1 2 * v2 1 := rfl
    have x1 : cross3 v1 v2 1 = v1 2 * v2 0 - v1 0 * v2 2 := rfl
    have x2 : cross3 v1 v2 2 = v1 0 * v2 1 - v1 1 * v2 0 := rfl
    generalize normalize3 (cross3 v1 v2) = n at hnz
    have hsne := hs0.ne'
    have hms : ∀ a b : ℝ, a / s * b * s = a * b := fun a b => by field_simp
    intro i
    rw [eq_div_iff hs0.ne']
    fin_cases i
    · show (n 1 * v1 2 - n 2 * v1 1) * s = v2 0 - dotV v1 v2 * v1 0
      rw [hnz, hnz, x1, x2]
      unfold dotV
      rw [sub_mul, hms, hms]
      linear_combination (v2 0) * h1'
    · show (n 2 * v1 0 - n 0 * v1 2) * s = v2 1 - dotV v1 v2 * v1 1
      rw [hnz, hnz, x2, x0]
      unfold dotV
      rw [sub_mul, hms, hms]
      linear_combination (v2 1) * h1'
    · show (n 0 * v1 1 - n 1 * v1 0) * s = v2 2 - dotV v1 v2 * v1 2
      rw [hnz, hnz, x0, x1]
      unfold dotV
      rw [sub_mul, hms, hms]
      linear_combination (v2 2) * h1'
  have hn : dotV (cross3 (normalize3 (cross3 v1 v2)) v1) (cross3 (normalize3 (cross3 v1 v2)) v1) = 1 := by
    unfold dotV
    rw [hc 0, hc 1, hc 2]
    have e : dotV (cross3 v1 v2) (cross3 v1 v2) = dotV v1 v1 * dotV v2 v2 - dotV v1 v2 ^ 2 := by
      simp only [cross3, dotV, Matrix.cons_val_zero, Matrix.cons_val_one, Matrix.cons_val]; ring
    rw [e, h1] at hss
    field_simp
    unfold dotV at *
    linear_combination -hss + ((v1 0 * v2 0 + v1 1 * v2 1 + v1 2 * v2 2) ^ 2) * h1
  intro i
  unfold normalize3 at hn ⊢
  rw [hn, Real.sqrt_one, div_one]
  exact hc i

/-- The greatest value of the cosine on an interval of angles shorter than half a turn. -/
theorem cos_max {φ ψ A : ℝ} (hA : A < π) (h0 : 0 ≤ ψ) (hψ : ψ ≤ A) (hl : -π < φ) (hu : φ ≤ π) (hout : ¬ (0 ≤ φ ∧ φ < A)) :
    cos (φ - ψ) ≤ max (cos φ) (cos (φ - A)) := by
  by_cases hφ : 0 ≤ φ
  · have hφA : A ≤ φ := by
      by_contra h
      exact hout ⟨hφ, not_le.1 h⟩
    apply le_max_of_le_right
    exact cos_le_cos_of_nonneg_of_le_pi (by linarith) (by linarith) (by linarith)
  · rw [not_le] at hφ
    rcases le_total (ψ - φ) π with h | h
    · apply le_max_of_le_left
      rw [← cos_neg φ, ← cos_neg (φ - ψ)]
      exact cos_le_cos_of_nonneg_of_le_pi (by linarith) (by linarith) (by linarith)
    · apply le_max_of_le_right
      have e1 : cos (φ - ψ) = cos (2 * π - (ψ - φ)) := by rw [cos_two_pi_sub, ← cos_neg]; congr 1; ring
      have e2 : cos (φ - A) = cos (2 * π - (A - φ)) := by rw [cos_two_pi_sub, ← cos_neg]; congr 1; ring
      rw [e1, e2]
      exact cos_le_cos_of_nonneg_of_le_pi (by linarith) (by linarith) (by linarith)

theorem acosClip_anti {x y : ℝ} (h : x ≤ y) : acosClip y ≤ acosClip x := by
  unfold acosClip
  exact Real.arccos_le_arccos (min_le_min_right _ (max_le_max_right _ h))

theorem atan2R_polar (y x : ℝ) : √(x ^ 2 + y ^ 2) * cos (atan2R y x) = x ∧ √(x ^ 2 + y ^ 2) * sin (atan2R y x) = y ∧ -π < atan2R y x ∧ atan2R y x ≤ π := by
  have hn : ‖(⟨x, y⟩ : ℂ)‖ = √(x ^ 2 + y ^ 2) := by
    rw [Complex.norm_def, Complex.normSq_mk]; congr 1; ring
  refine ⟨?_, ?_, (Complex.arg_mem_Ioc _).1, (Complex.arg_mem_Ioc _).2⟩
  · have := Complex.norm_mul_cos_arg (⟨x, y⟩ : ℂ)
    rw [hn] at this; exact this
  · have := Complex.norm_mul_sin_arg (⟨x, y⟩ : ℂ)
    rw [hn] at this; exact this

/-- C120: the distance from an edge is the least angle between the point and the points of the arc between the ends, for all
ends that are not parallel. -/
theorem C120_edge (p v1 v2 : Fin 3 → ℝ) (hp : dotV p p = 1) (h1 : dotV v1 v1 = 1) (h2 : dotV v2 v2 = 1) (hne : cross3 v1 v2 ≠ 0) :
    ∃ d, edgeDist p v1 v2 = some d ∧ (∃ q, OnArc v1 v2 q ∧ d = Real.arccos (dotV p q)) ∧ ∀ q, OnArc v1 v2 q → d ≤ Real.arccos (dotV p q) := by
  obtain ⟨s, hs0, hs, hvy⟩ := frame h1 hne
  set vz := normalize3 (cross3 v1 v2) with hvz
  set vy := normalize3 (cross3 vz v1) with hvy'
  set c := dotV v1 v2 with hc
  have hss : s ^ 2 = 1 - c ^ 2 := by
    have e : dotV (cross3 v1 v2) (cross3 v1 v2) = dotV v1 v1 * dotV v2 v2 - dotV v1 v2 ^ 2 := by
      simp only [cross3, dotV, Matrix.cons_val_zero, Matrix.cons_val_one, Matrix.cons_val]; ring
    rw [hs, Real.sq_sqrt (dotV_self_nonneg _), e, h1, h2, ← hc]; ring
  have hsne := hs0.ne'
  -- products with the second axis
  have dvy : ∀ q, dotV q vy = (dotV q v2 - c * dotV q v1) / s := by
    intro q
    unfold dotV
    rw [hvy 0, hvy 1, hvy 2]
    field_simp
    ring
  have hv2y : dotV v2 vy = s := by
    rw [dvy, h2, dotV_comm v2 v1, ← hc, div_eq_iff hsne]
    linear_combination -hss
  have hv2x : dotV v2 v1 = c := dotV_comm v2 v1
  -- the angle of the second end
  obtain ⟨hA1, hA2, hA3, hA4⟩ := atan2R_polar (dotV v2 vy) (dotV v2 v1)
  obtain ⟨hP1, hP2, hP3, hP4⟩ := atan2R_polar (dotV p vy) (dotV p v1)
  set A := atan2R (dotV v2 vy) (dotV v2 v1) with hA
  set φ := atan2R (dotV p vy) (dotV p v1) with hφ
  set ρ := √(dotV p v1 ^ 2 + dotV p vy ^ 2) with hρ
  have hρ0 : 0 ≤ ρ := Real.sqrt_nonneg _
  have hr1 : √(dotV v2 v1 ^ 2 + dotV v2 vy ^ 2) = 1 := by
    rw [hv2x, hv2y, hss, show c ^ 2 + (1 - c ^ 2) = 1 by ring, Real.sqrt_one]
  rw [hr1, one_mul, hv2x] at hA1
  rw [hr1, one_mul, hv2y] at hA2
  have hA0 : 0 < A := by
    by_contra h
    have := Real.sin_nonpos_of_nonpos_of_neg_pi_le (not_lt.1 h) hA3.le
    linarith
  have hApi : A < π := by
    rcases lt_or_eq_of_le hA4 with h | h
    · exact h
    · rw [h, Real.sin_pi] at hA2; linarith
  -- the product of the point with the points of the arc
  have harc : ∀ q, OnArc v1 v2 q → ∃ ψ, 0 ≤ ψ ∧ ψ ≤ A ∧ dotV p q = ρ * cos (φ - ψ) := by
    rintro q ⟨hq, α, β, hα, hβ, hqi⟩
    have ex : dotV q v1 = α + β * c := by
      unfold dotV; rw [hqi 0, hqi 1, hqi 2]; unfold dotV at h1 hc; rw [hc]; linear_combination α * h1
    have e2 : dotV q v2 = α * c + β := by
      unfold dotV; rw [hqi 0, hqi 1, hqi 2]; unfold dotV at h2 hc; rw [hc]; linear_combination β * h2
    have ey : dotV q vy = β * s := by
      rw [dvy, ex, e2, div_eq_iff hsne]; linear_combination -β * hss
    have epq : dotV p q = α * dotV p v1 + β * dotV p v2 := by
      unfold dotV; rw [hqi 0, hqi 1, hqi 2]; ring
    have epv2 : dotV p v2 = dotV p v1 * c + dotV p vy * s := by
      rw [dvy]; field_simp; ring
    have eqq : dotV q v1 ^ 2 + dotV q vy ^ 2 = 1 := by
      have : dotV q q = α * dotV q v1 + β * dotV q v2 := by
        conv_lhs => unfold dotV
        conv_lhs => rw [hqi 0, hqi 1, hqi 2]
        rw [ex, e2]
        unfold dotV at h1 h2 hc; rw [hc]
        linear_combination α ^ 2 * h1 + β ^ 2 * h2
      rw [hq, ex, e2] at this
      rw [ex, ey]
      linear_combination -this + β ^ 2 * hss
    obtain ⟨k1, k2, k3, k4⟩ := atan2R_polar (dotV q vy) (dotV q v1)
    have hψ0 : 0 ≤ atan2R (dotV q vy) (dotV q v1) := by
      unfold atan2R
      rw [Complex.arg_nonneg_iff]
      show 0 ≤ dotV q vy
      rw [ey]; positivity
    generalize atan2R (dotV q vy) (dotV q v1) = ψ at *
    rw [eqq, Real.sqrt_one, one_mul, ex] at k1
    rw [eqq, Real.sqrt_one, one_mul, ey] at k2
    refine ⟨ψ, hψ0, ?_, ?_⟩
    · by_contra h
      rw [not_le] at h
      have hsin : sin (ψ - A) = -(α * s) := by
        rw [Real.sin_sub, k1, k2, hA1, hA2]; ring
      rcases lt_or_eq_of_le (show ψ - A ≤ π by linarith) with h' | h'
      · have := Real.sin_pos_of_pos_of_lt_pi (by linarith : 0 < ψ - A) h'
        have : 0 ≤ α * s := by positivity
        linarith
      · linarith
    · rw [Real.cos_sub, k1, k2, mul_add, ← mul_assoc, ← mul_assoc, hP1, hP2, epq, epv2]
      ring
  -- the point in the frame
  have hz : dotV p vz ^ 2 = 1 - ρ ^ 2 := by
    have e1 : dotV p vz = (p 0 * (v1 1 * v2 2 - v1 2 * v2 1) + p 1 * (v1 2 * v2 0 - v1 0 * v2 2) + p 2 * (v1 0 * v2 1 - v1 1 * v2 0)) / s := by
      rw [hvz, hs]
      simp only [dotV, normalize3, cross3, Matrix.cons_val_zero, Matrix.cons_val_one, Matrix.cons_val]
      ring
    rw [hρ, Real.sq_sqrt (by positivity), e1, dvy, div_pow, div_pow, eq_sub_iff_add_eq]
    rw [show ∀ X Y Z : ℝ, X / s ^ 2 + (Y + Z / s ^ 2) = (X + Y * s ^ 2 + Z) / s ^ 2 from fun X Y Z => by field_simp; ring, div_eq_one_iff_eq (by positivity), hss, hc]
    unfold dotV at hp h1 h2 ⊢
    linear_combination (1 - (v1 0 * v2 0 + v1 1 * v2 1 + v1 2 * v2 2) ^ 2) * hp + ((p 0 * p 0 + p 1 * p 1 + p 2 * p 2) * (v2 0 * v2 0 + v2 1 * v2 1 + v2 2 * v2 2) - (p 0 * v2 0 + p 1 * v2 1 + p 2 * v2 2) ^ 2) * h1 + ((p 0 * p 0 + p 1 * p 1 + p 2 * p 2) - (p 0 * v1 0 + p 1 * v1 1 + p 2 * v1 2) ^ 2) * h2
  have hρ1 : ρ ≤ 1 := by nlinarith [sq_nonneg (dotV p vz)]
  have clip : ∀ x : ℝ, -1 ≤ x → x ≤ 1 → acosClip x = Real.arccos x := by
    intro x ha hb
    unfold acosClip
    rw [max_eq_left ha, min_eq_left hb]
  have onv1 : OnArc v1 v2 v1 := ⟨h1, 1, 0, by norm_num, le_refl _, fun i => by ring⟩
  have onv2 : OnArc v1 v2 v2 := ⟨h2, 0, 1, le_refl _, by norm_num, fun i => by ring⟩
  have bnd : ∀ q, OnArc v1 v2 q → -1 ≤ dotV p q ∧ dotV p q ≤ 1 := by
    intro q hq
    obtain ⟨ψ, -, -, e⟩ := harc q hq
    rw [e]
    have := Real.neg_one_le_cos (φ - ψ)
    have := Real.cos_le_one (φ - ψ)
    constructor <;> nlinarith
  unfold edgeDist
  rw [if_neg hne]
  simp only []
  rw [← hvz, ← hvy', ← hA, ← hφ]
  by_cases hb : 0 ≤ φ ∧ φ < A
  · rw [if_pos hb]
    -- the nearest point is at the angle of the point
    have hval : |acosClip (dotV p vz) - π / 2| = Real.arccos ρ := by
      have hz1 : |dotV p vz| ≤ 1 := by
        rw [← sq_le_one_iff_abs_le_one]; nlinarith [sq_nonneg ρ]
      rw [clip _ (abs_le.1 hz1).1 (abs_le.1 hz1).2, Real.arccos_eq_pi_div_two_sub_arcsin, show π / 2 - arcsin (dotV p vz) - π / 2 = -arcsin (dotV p vz) by ring, abs_neg]
      have hab : |arcsin (dotV p vz)| = arcsin |dotV p vz| := by
        rcases le_total 0 (dotV p vz) with h | h
        · rw [abs_of_nonneg h, abs_of_nonneg (Real.arcsin_nonneg.2 h)]
        · rw [abs_of_nonpos h, abs_of_nonpos (Real.arcsin_nonpos.2 h), Real.arcsin_neg]
      rw [hab, Real.arcsin_eq_arccos (abs_nonneg _), sq_abs, hz, show 1 - (1 - ρ ^ 2) = ρ ^ 2 by ring, Real.sqrt_sq hρ0]
    refine ⟨_, rfl, ?_, ?_⟩
    · -- the point of the arc at angle φ
      have hsφ : 0 ≤ sin φ := Real.sin_nonneg_of_nonneg_of_le_pi hb.1 hP4
      have hsA : 0 ≤ sin (A - φ) := Real.sin_nonneg_of_nonneg_of_le_pi (by linarith) (by linarith)
      have hq : ∀ i, cos φ * v1 i + sin φ * vy i = (sin (A - φ) / s) * v1 i + (sin φ / s) * v2 i := by
        intro i
        rw [hvy i, Real.sin_sub, hA1, hA2]
        field_simp
        ring
      have hdot : ∀ x, dotV x (fun i => cos φ * v1 i + sin φ * vy i) = cos φ * dotV x v1 + sin φ * dotV x vy := by
        intro x; unfold dotV; ring
      have hvyy : dotV vy vy = 1 := by
        rw [dvy, dotV_comm vy v2, hv2y, dotV_comm vy v1, dvy, h1, ← hc]
        field_simp; ring
      have hvyx : dotV v1 vy = 0 := by rw [dvy, h1, ← hc]; ring
      refine ⟨fun i => cos φ * v1 i + sin φ * vy i, ⟨?_, _, _, div_nonneg hsA hs0.le, div_nonneg hsφ hs0.le, hq⟩, ?_⟩
      · rw [hdot, dotV_comm _ v1, dotV_comm _ vy, hdot, hdot, h1, hvyx, dotV_comm vy v1, hvyx, hvyy]
        have := Real.sin_sq_add_cos_sq φ
        linear_combination this
      · rw [hval, hdot]
        congr 1
        rw [← hP1, ← hP2]
        have := Real.sin_sq_add_cos_sq φ
        linear_combination -ρ * this
    · intro q hq
      rw [hval]
      obtain ⟨ψ, -, -, e⟩ := harc q hq
      apply Real.arccos_le_arccos
      rw [e]
      have := Real.cos_le_one (φ - ψ)
      nlinarith
  · rw [if_neg hb]
    have b1 := bnd v1 onv1
    have b2 := bnd v2 onv2
    rw [clip _ b1.1 b1.2, clip _ b2.1 b2.2]
    refine ⟨_, rfl, ?_, ?_⟩
    · rcases min_choice (Real.arccos (dotV p v1)) (Real.arccos (dotV p v2)) with h | h
      · exact ⟨v1, onv1, h⟩
      · exact ⟨v2, onv2, h⟩
    · intro q hq
      obtain ⟨ψ, hψ0, hψA, e⟩ := harc q hq
      have hmax := cos_max hApi hψ0 hψA hP3 hP4 hb
      have e1 : dotV p v1 = ρ * cos φ := hP1.symm
      have e2 : dotV p v2 = ρ * cos (φ - A) := by
        rw [Real.cos_sub, hA1, hA2, mul_add, ← mul_assoc, ← mul_assoc, hP1, hP2, dvy]
        field_simp; ring
      rcases le_max_iff.1 hmax with h | h
      · refine (min_le_left _ _).trans (Real.arccos_le_arccos ?_)
        rw [e, e1]; exact mul_le_mul_of_nonneg_left h hρ0
      · refine (min_le_right _ _).trans (Real.arccos_le_arccos ?_)
        rw [e, e2]; exact mul_le_mul_of_nonneg_left h hρ0

theorem minNan_cons (d e : Option ℝ) (es : List (Option ℝ)) : minNan (d :: e :: es) = (match d, minNan (e :: es) with
    | some a, some b => some (min a b)
    | _, _ => none) := rfl

theorem minNan_spec (ds : List (Option ℝ)) (hne : ds ≠ []) (h : ∀ d ∈ ds, d ≠ none) :
    ∃ m, minNan ds = some m ∧ some m ∈ ds ∧ ∀ x, some x ∈ ds → m ≤ x := by
  induction ds with
  | nil => exact absurd rfl hne
  | cons d ds ih =>
    obtain ⟨a, rfl⟩ := Option.ne_none_iff_exists'.1 (h d (by simp))
    cases ds with
    | nil =>
      refine ⟨a, rfl, by simp, ?_⟩
      intro x hx
      simp only [List.mem_singleton, Option.some.injEq] at hx
      rw [hx]
    | cons e es =>
      obtain ⟨m, h1, h2, h3⟩ := ih (by simp) fun x hx => h x (List.mem_cons_of_mem _ hx)
      refine ⟨min a m, by rw [minNan_cons, h1], ?_, ?_⟩
      · rcases min_choice a m with hm | hm
        · rw [hm]; simp
        · rw [hm]; exact List.mem_cons_of_mem _ h2
      · intro x hx
        rcases List.mem_cons.1 hx with hx | hx
        · rw [Option.some.injEq] at hx; rw [hx]; exact min_le_left _ _
        · exact (min_le_right _ _).trans (h3 x hx)

theorem minNan_none (ds : List (Option ℝ)) (h : none ∈ ds) : minNan ds = none := by
  induction ds with
  | nil => simp at h
  | cons d ds ih =>
    cases ds with
    | nil => simp only [List.mem_singleton] at h; rw [← h]; rfl
    | cons e es =>
      rcases List.mem_cons.1 h with h | h
      · rw [← h]; rfl
      · rw [minNan_cons, ih h]
        cases d <;> rfl

theorem ang2rect_dotV (phi theta : ℝ) : dotV (ang2rect false phi theta) (ang2rect false phi theta) = 1 := by
  unfold ang2rect dotV
  simp
  have h1 := Real.sin_sq_add_cos_sq phi
  have h2 := Real.sin_sq_add_cos_sq theta
  linear_combination cos theta ^ 2 * h1 + h2

/-- C120: poly_edge_dist is the least angle between the point and the points of the edges of the polygon, if no two consecutive
vertices are equal or opposite. -/
theorem C120_poly_partial (point : ℝ × ℝ) (poly : List (ℝ × ℝ)) (hne : poly ≠ [])
    (hreg : ∀ e ∈ polyEdges (poly.map fun v => ang2rect false v.1 v.2), cross3 e.1 e.2 ≠ 0) :
    ∃ d, polyEdgeDist point poly = some d ∧
      (∃ e ∈ polyEdges (poly.map fun v => ang2rect false v.1 v.2), ∃ q, OnArc e.1 e.2 q ∧ d = Real.arccos (dotV (ang2rect false point.1 point.2) q)) ∧
      ∀ e ∈ polyEdges (poly.map fun v => ang2rect false v.1 v.2), ∀ q, OnArc e.1 e.2 q → d ≤ Real.arccos (dotV (ang2rect false point.1 point.2) q) := by
  set E := polyEdges (poly.map fun v => ang2rect false v.1 v.2) with hE
  have hunit : ∀ e ∈ E, dotV e.1 e.1 = 1 ∧ dotV e.2 e.2 = 1 := by
    intro e he
    have := List.of_mem_zip (a := e.1) (b := e.2) (by rw [hE] at he; exact he)
    rw [List.mem_rotate] at this
    obtain ⟨h1, h2⟩ := this
    obtain ⟨v, _, hv⟩ := List.mem_map.1 h1
    obtain ⟨w, _, hw⟩ := List.mem_map.1 h2
    rw [← hv, ← hw]
    exact ⟨ang2rect_dotV _ _, ang2rect_dotV _ _⟩
  have hedge := fun e he => C120_edge (ang2rect false point.1 point.2) e.1 e.2 (ang2rect_dotV _ _) (hunit e he).1 (hunit e he).2 (hreg e he)
  have hEne : E ≠ [] := by
    intro h
    have := congrArg List.length h
    rw [hE] at this
    unfold polyEdges at this
    rw [List.length_zip, List.length_rotate, Nat.min_self, List.length_map] at this
    exact hne (List.length_eq_zero_iff.1 (by simpa using this))
  obtain ⟨m, h1, h2, h3⟩ := minNan_spec (E.map fun e => edgeDist (ang2rect false point.1 point.2) e.1 e.2) (by simpa using hEne) (by
    intro d hd
    obtain ⟨e, he, rfl⟩ := List.mem_map.1 hd
    obtain ⟨x, hx, -⟩ := hedge e he
    rw [hx]; simp)
  refine ⟨m, h1, ?_, ?_⟩
  · obtain ⟨e, he, hem⟩ := List.mem_map.1 h2
    obtain ⟨x, hx, ⟨q, hq, hxq⟩, -⟩ := hedge e he
    rw [hx, Option.some.injEq] at hem
    exact ⟨e, he, q, hq, by rw [← hem, hxq]⟩
  · intro e he q hq
    obtain ⟨x, hx, -, hall⟩ := hedge e he
    exact (h3 x (List.mem_map.2 ⟨e, he, hx⟩)).trans (hall q hq)

/-- The hypotheses hold for the octant of the sphere. -/
example : ∀ e ∈ polyEdges ([(0, 0), (π / 2, 0), (0, π / 2)].map fun v : ℝ × ℝ => ang2rect false v.1 v.2), cross3 e.1 e.2 ≠ 0 := by
  intro e he
  simp only [polyEdges, List.map_cons, List.map_nil, List.rotate_cons_succ, List.rotate_zero, List.cons_append, List.nil_append, List.zip_cons_cons,
    List.zip_nil_right, List.mem_cons, List.not_mem_nil, or_false] at he
  intro h
  rcases he with rfl | rfl | rfl
  · have := congrFun h 2
    simp [cross3, ang2rect] at this
  · have := congrFun h 0
    simp [cross3, ang2rect] at this
  · have := congrFun h 1
    simp [cross3, ang2rect] at this

/-- C120 fails for polygons with a repeated vertex, as for one closed by repeating the first: the distance is NaN for every
point. -/
theorem C120_repeated_refuted (point : ℝ × ℝ) (poly : List (ℝ × ℝ)) (v : ℝ × ℝ) : polyEdgeDist point (v :: v :: poly) = none ∧
    polyEdgeDist point (v :: (poly ++ [v])) = none := by
  have hz : ∀ a : Fin 3 → ℝ, cross3 a a = 0 := by
    intro a
    funext i
    fin_cases i <;> simp [cross3] <;> ring
  have hd : ∀ p a : Fin 3 → ℝ, edgeDist p a a = none := fun p a => by unfold edgeDist; rw [if_pos (hz a)]
  constructor
  · unfold polyEdgeDist
    apply minNan_none
    refine List.mem_map.2 ⟨(ang2rect false v.1 v.2, ang2rect false v.1 v.2), ?_, hd _ _⟩
    simp [polyEdges]
  · unfold polyEdgeDist
    apply minNan_none
    refine List.mem_map.2 ⟨(ang2rect false v.1 v.2, ang2rect false v.1 v.2), ?_, hd _ _⟩
    unfold polyEdges
    simp only [List.map_cons, List.map_append, List.map_nil, List.rotate_cons_succ, List.rotate_zero]
    rw [← List.cons_append, List.zip_append (by simp)]
    simp

end Pixell
