import Verif.Model.Coordinates
import Mathlib.LinearAlgebra.Matrix.Determinant.Basic
import Mathlib.Analysis.SpecialFunctions.Trigonometric.Inverse

/-
Properties C97 (angles and vectors, rotations, recentering), C98 (distances on the sphere) and C99 (chains of coordinate
systems).
-/
namespace Pixell
open Real

/-- Specification: the inner product of vectors. -/
def dot3 (v w : Fin 3 → ℝ) : ℝ := v 0 * w 0 + v 1 * w 1 + v 2 * w 2

/-! ### C97 -/

theorem cos_atan2 (y x : ℝ) : cos (atan2 y x) * √(x ^ 2 + y ^ 2) = x := by
  unfold atan2
  by_cases h : (⟨x, y⟩ : ℂ) = 0
  · have hx : x = 0 := congrArg Complex.re h
    have hy : y = 0 := congrArg Complex.im h
    subst hx hy; simp
  · rw [Complex.cos_arg h]
    have : ‖(⟨x, y⟩ : ℂ)‖ = √(x ^ 2 + y ^ 2) := by rw [Complex.norm_def, Complex.normSq_mk]; ring_nf
    rw [this]
    have hp : √(x ^ 2 + y ^ 2) ≠ 0 := by rw [← this]; exact norm_ne_zero_iff.2 h
    field_simp

theorem sin_atan2 (y x : ℝ) : sin (atan2 y x) * √(x ^ 2 + y ^ 2) = y := by
  unfold atan2
  have : ‖(⟨x, y⟩ : ℂ)‖ = √(x ^ 2 + y ^ 2) := by rw [Complex.norm_def, Complex.normSq_mk]; ring_nf
  by_cases h : (⟨x, y⟩ : ℂ) = 0
  · have hx : x = 0 := congrArg Complex.re h
    have hy : y = 0 := congrArg Complex.im h
    subst hx hy; simp
  · rw [Complex.sin_arg, this]
    have hp : √(x ^ 2 + y ^ 2) ≠ 0 := by rw [← this]; exact norm_ne_zero_iff.2 h
    field_simp

theorem atan2_polar (r t : ℝ) (hr : 0 < r) (h1 : -π < t) (h2 : t ≤ π) : atan2 (r * sin t) (r * cos t) = t := by
  unfold atan2
  have := Complex.arg_mul_cos_add_sin_mul_I hr ⟨h1, h2⟩
  conv_rhs => rw [← this]
  congr 1
  apply Complex.ext
  · simp [Complex.cos_ofReal_re, Complex.sin_ofReal_re, Complex.cos_ofReal_im, Complex.sin_ofReal_im]
  · simp [Complex.cos_ofReal_re, Complex.sin_ofReal_re, Complex.cos_ofReal_im, Complex.sin_ofReal_im]

/-- C97: every unit vector is the direction of its angles, in both conventions. -/
theorem C97_rect (zenith : Bool) (v : Fin 3 → ℝ) (hv : dot3 v v = 1) : ang2rect zenith (rect2ang zenith v).1 (rect2ang zenith v).2 = v := by
  have hr : √(v 0 ^ 2 + v 1 ^ 2) ^ 2 = v 0 ^ 2 + v 1 ^ 2 := Real.sq_sqrt (by positivity)
  have hd : √(√(v 0 ^ 2 + v 1 ^ 2) ^ 2 + v 2 ^ 2) = 1 := by
    rw [hr, show v 0 ^ 2 + v 1 ^ 2 + v 2 ^ 2 = dot3 v v by unfold dot3; ring, hv, Real.sqrt_one]
  have hd' : √(v 2 ^ 2 + √(v 0 ^ 2 + v 1 ^ 2) ^ 2) = 1 := by rw [add_comm]; exact hd
  have c1 := cos_atan2 (v 1) (v 0)
  have s1 := sin_atan2 (v 1) (v 0)
  cases zenith
  · have c2 := cos_atan2 (v 2) √(v 0 ^ 2 + v 1 ^ 2)
    have s2 := sin_atan2 (v 2) √(v 0 ^ 2 + v 1 ^ 2)
    rw [hd, mul_one] at c2 s2
    simp only [ang2rect, rect2ang, Bool.false_eq_true, if_false, c2, s2]
    funext i
    fin_cases i
    · simp; linarith
    · simp; linarith
    · simp
  · have c2 := cos_atan2 √(v 0 ^ 2 + v 1 ^ 2) (v 2)
    have s2 := sin_atan2 √(v 0 ^ 2 + v 1 ^ 2) (v 2)
    rw [hd', mul_one] at c2 s2
    simp only [ang2rect, rect2ang, if_true, c2, s2]
    funext i
    fin_cases i
    · simp; linarith
    · simp; linarith
    · simp

/-- C97: and angles come back from their direction, away from the poles. -/
theorem C97_ang (phi theta : ℝ) (h1 : -π < phi) (h2 : phi ≤ π) :
    (-(π / 2) < theta → theta < π / 2 → rect2ang false (ang2rect false phi theta) = (phi, theta)) ∧
    (0 < theta → theta < π → rect2ang true (ang2rect true phi theta) = (phi, theta)) := by
  constructor
  · intro h3 h4
    have hc : 0 < cos theta := cos_pos_of_mem_Ioo ⟨h3, h4⟩
    have hr : √((cos theta * cos phi) ^ 2 + (cos theta * sin phi) ^ 2) = cos theta := by
      rw [show (cos theta * cos phi) ^ 2 + (cos theta * sin phi) ^ 2 = cos theta ^ 2 * (sin phi ^ 2 + cos phi ^ 2) by ring,
        sin_sq_add_cos_sq, mul_one, Real.sqrt_sq hc.le]
    simp only [rect2ang, ang2rect, Bool.false_eq_true, if_false, Matrix.cons_val_zero, Matrix.cons_val_one, Matrix.cons_val]
    rw [hr, atan2_polar _ _ hc h1 h2]
    have := atan2_polar 1 theta one_pos (by linarith [pi_pos]) (by linarith [pi_pos])
    rw [one_mul, one_mul] at this
    rw [this]
  · intro h3 h4
    have hc : 0 < sin theta := sin_pos_of_pos_of_lt_pi h3 h4
    have hr : √((sin theta * cos phi) ^ 2 + (sin theta * sin phi) ^ 2) = sin theta := by
      rw [show (sin theta * cos phi) ^ 2 + (sin theta * sin phi) ^ 2 = sin theta ^ 2 * (sin phi ^ 2 + cos phi ^ 2) by ring,
        sin_sq_add_cos_sq, mul_one, Real.sqrt_sq hc.le]
    simp only [rect2ang, ang2rect, if_true, Matrix.cons_val_zero, Matrix.cons_val_one, Matrix.cons_val]
    rw [hr, atan2_polar _ _ hc h1 h2]
    have := atan2_polar 1 theta one_pos (by linarith [pi_pos]) (by linarith [pi_pos])
    rw [one_mul, one_mul] at this
    rw [this]

theorem ang2rect_unit (zenith : Bool) (phi theta : ℝ) : dot3 (ang2rect zenith phi theta) (ang2rect zenith phi theta) = 1 := by
  have h1 := sin_sq_add_cos_sq phi
  have h2 := sin_sq_add_cos_sq theta
  cases zenith
  · simp only [dot3, ang2rect, Bool.false_eq_true, if_false, Matrix.cons_val_zero, Matrix.cons_val_one, Matrix.cons_val]
    linear_combination cos theta ^ 2 * h1 + h2
  · simp only [dot3, ang2rect, if_true, Matrix.cons_val_zero, Matrix.cons_val_one, Matrix.cons_val]
    linear_combination sin theta ^ 2 * h1 + h2

/-- C97, return_r: the radius returned is the distance from the axis; it is the length of the vector only in the equatorial
plane. -/
theorem C97_radius_refuted (v : Fin 3 → ℝ) (h : v 2 ≠ 0) : rect2angR v ≠ vlen v := by
  unfold rect2angR vlen
  intro e
  have h0 : 0 ≤ v 0 ^ 2 + v 1 ^ 2 := by positivity
  have := congrArg (· ^ 2) e
  rw [Real.sq_sqrt h0, Real.sq_sqrt (by positivity)] at this
  exact h (pow_eq_zero_iff (n := 2) (by norm_num) |>.1 (by linarith))

theorem rot_cancel (a : ℝ) (k : RAxis) : rotmatrix a k * rotmatrix (-a) k = 1 := by
  have h := sin_sq_add_cos_sq a
  cases k <;>
  · simp only [rotmatrix, cos_neg, sin_neg]
    ext i j
    fin_cases i <;> fin_cases j <;> simp [Matrix.mul_apply, Fin.sum_univ_three] <;> nlinarith

theorem rot_cancel' (a : ℝ) (k : RAxis) : rotmatrix (-a) k * rotmatrix a k = 1 := by
  have := rot_cancel (-a) k
  rwa [neg_neg] at this

theorem rot_transpose (a : ℝ) (k : RAxis) : (rotmatrix a k).transpose = rotmatrix (-a) k := by
  cases k <;>
  · simp only [rotmatrix, cos_neg, sin_neg]
    ext i j
    fin_cases i <;> fin_cases j <;> simp [Matrix.transpose_apply]

theorem euler_cancel (a b c : ℝ) (k0 k1 k2 : RAxis) : eulerMat a b c k0 k1 k2 * eulerMat (-c) (-b) (-a) k2 k1 k0 = 1 := by
  simp only [eulerMat]
  calc rotmatrix a k0 * rotmatrix b k1 * rotmatrix c k2 * (rotmatrix (-c) k2 * rotmatrix (-b) k1 * rotmatrix (-a) k0)
      = rotmatrix a k0 * (rotmatrix b k1 * (rotmatrix c k2 * rotmatrix (-c) k2) * rotmatrix (-b) k1) * rotmatrix (-a) k0 := by
        simp only [Matrix.mul_assoc]
    _ = 1 := by rw [rot_cancel, Matrix.mul_one, rot_cancel, Matrix.mul_one, rot_cancel]

theorem euler_transpose (a b c : ℝ) (k0 k1 k2 : RAxis) : (eulerMat a b c k0 k1 k2).transpose = eulerMat (-c) (-b) (-a) k2 k1 k0 := by
  simp only [eulerMat, Matrix.transpose_mul, rot_transpose, Matrix.mul_assoc]

theorem dot3_mulVec (M : Matrix (Fin 3) (Fin 3) ℝ) (v w : Fin 3 → ℝ) : dot3 (M.mulVec v) w = dot3 v (M.transpose.mulVec w) := by
  simp only [dot3, Matrix.mulVec, dotProduct, Fin.sum_univ_three, Matrix.transpose_apply]
  ring

theorem rot_det (a : ℝ) (k : RAxis) : (rotmatrix a k).det = 1 := by
  have h := sin_sq_add_cos_sq a
  cases k <;>
  · simp only [rotmatrix, Matrix.det_fin_three]
    simp
    nlinarith

/-- C97: every Euler matrix is a rotation: it keeps inner products and orientation. -/
theorem C97_rotation (a b c : ℝ) (k0 k1 k2 : RAxis) (v w : Fin 3 → ℝ) :
    dot3 ((eulerMat a b c k0 k1 k2).mulVec v) ((eulerMat a b c k0 k1 k2).mulVec w) = dot3 v w ∧ (eulerMat a b c k0 k1 k2).det = 1 := by
  constructor
  · rw [dot3_mulVec, euler_transpose, Matrix.mulVec_mulVec]
    have := euler_cancel (-c) (-b) (-a) k2 k1 k0
    simp only [neg_neg] at this
    rw [this, Matrix.one_mulVec]
  · simp only [eulerMat, Matrix.det_mul, rot_det, mul_one]

/-- The direction of a rotated position is the rotated direction. -/
theorem eulerRot_rect (a b c : ℝ) (k0 k1 k2 : RAxis) (p : ℝ × ℝ) :
    ang2rect false (eulerRot a b c k0 k1 k2 p).1 (eulerRot a b c k0 k1 k2 p).2 = (eulerMat a b c k0 k1 k2).mulVec (ang2rect false p.1 p.2) := by
  unfold eulerRot
  exact C97_rect false _ (by rw [(C97_rotation a b c k0 k1 k2 _ _).1, ang2rect_unit])

/-- C97: euler_rot keeps the inner product of the directions of any two positions. -/
theorem C97_rot_dot (a b c : ℝ) (k0 k1 k2 : RAxis) (p q : ℝ × ℝ) :
    dot3 (ang2rect false (eulerRot a b c k0 k1 k2 p).1 (eulerRot a b c k0 k1 k2 p).2)
      (ang2rect false (eulerRot a b c k0 k1 k2 q).1 (eulerRot a b c k0 k1 k2 q).2) = dot3 (ang2rect false p.1 p.2) (ang2rect false q.1 q.2) := by
  rw [eulerRot_rect, eulerRot_rect, (C97_rotation a b c k0 k1 k2 _ _).1]

/-- C97: the reversed, negated angles undo a rotation: always as a point on the sphere, and exactly for longitudes in
(−π,π] away from the poles. -/
theorem C97_rot_inverse (a b c : ℝ) (k0 k1 k2 : RAxis) (p : ℝ × ℝ) :
    eulerRot (-c) (-b) (-a) k2 k1 k0 (eulerRot a b c k0 k1 k2 p) = rect2ang false (ang2rect false p.1 p.2) ∧
    (-π < p.1 → p.1 ≤ π → -(π / 2) < p.2 → p.2 < π / 2 → eulerRot (-c) (-b) (-a) k2 k1 k0 (eulerRot a b c k0 k1 k2 p) = p) := by
  have key : eulerRot (-c) (-b) (-a) k2 k1 k0 (eulerRot a b c k0 k1 k2 p) = rect2ang false (ang2rect false p.1 p.2) := by
    conv_lhs => unfold eulerRot
    rw [show rect2ang false ((eulerMat a b c k0 k1 k2).mulVec (ang2rect false p.1 p.2)) = eulerRot a b c k0 k1 k2 p from rfl, eulerRot_rect,
      Matrix.mulVec_mulVec]
    have := euler_cancel (-c) (-b) (-a) k2 k1 k0
    simp only [neg_neg] at this
    rw [this, Matrix.one_mulVec]
  exact ⟨key, fun h1 h2 h3 h4 => by rw [key]; exact (C97_ang p.1 p.2 h1 h2).1 h3 h4⟩

/-- C97: decenter undoes recenter and recenter undoes decenter, for every center, with and without restore. -/
theorem C97_decenter (p : ℝ × ℝ) (center : Center) (restore : Bool) (h1 : -π < p.1) (h2 : p.1 ≤ π) (h3 : -(π / 2) < p.2) (h4 : p.2 < π / 2) :
    decenter (recenter p center restore) center restore = p ∧ recenter (decenter p center restore) center restore = p := by
  have a := (C97_rot_inverse (center.unpack restore).2.2.1 ((center.unpack restore).2.1 - (center.unpack restore).2.2.2) (-(center.unpack restore).1)
    .z .y .z p).2 h1 h2 h3 h4
  have b := (C97_rot_inverse (center.unpack restore).1 ((center.unpack restore).2.2.2 - (center.unpack restore).2.1) (-(center.unpack restore).2.2.1)
    .z .y .z p).2 h1 h2 h3 h4
  rw [neg_neg, neg_sub] at a b
  exact ⟨a, b⟩

theorem mulVec_recenter (ra0 d0 ra1 d1 : ℝ) :
    (eulerMat ra1 (d0 - d1) (-ra0) .z .y .z).mulVec (ang2rect false ra0 d0) = ang2rect false ra1 d1 := by
  have e1 : (rotmatrix (-ra0) .z).mulVec (ang2rect false ra0 d0) = ![cos d0, 0, sin d0] := by
    have h := sin_sq_add_cos_sq ra0
    simp only [rotmatrix, ang2rect, cos_neg, sin_neg, Bool.false_eq_true, if_false]
    funext i
    fin_cases i
    · simp [Matrix.mulVec, dotProduct, Fin.sum_univ_three]; linear_combination cos d0 * h
    · simp [Matrix.mulVec, dotProduct, Fin.sum_univ_three]; ring
    · simp [Matrix.mulVec, dotProduct, Fin.sum_univ_three]
  have e2 : (rotmatrix (d0 - d1) .y).mulVec ![cos d0, 0, sin d0] = ![cos d1, 0, sin d1] := by
    have h := sin_sq_add_cos_sq d0
    simp only [rotmatrix, cos_sub, sin_sub]
    funext i
    fin_cases i
    · simp [Matrix.mulVec, dotProduct, Fin.sum_univ_three]; linear_combination cos d1 * h
    · simp [Matrix.mulVec, dotProduct, Fin.sum_univ_three]
    · simp [Matrix.mulVec, dotProduct, Fin.sum_univ_three]; linear_combination sin d1 * h
  have e3 : (rotmatrix ra1 .z).mulVec ![cos d1, 0, sin d1] = ang2rect false ra1 d1 := by
    simp only [rotmatrix, ang2rect, Bool.false_eq_true, if_false]
    funext i
    fin_cases i
    · simp [Matrix.mulVec, dotProduct, Fin.sum_univ_three]; ring
    · simp [Matrix.mulVec, dotProduct, Fin.sum_univ_three]; ring
    · simp [Matrix.mulVec, dotProduct, Fin.sum_univ_three]
  simp only [eulerMat]
  rw [← Matrix.mulVec_mulVec, ← Matrix.mulVec_mulVec, e1, e2, e3]

/-- C97: recenter moves the center to the north pole, or to the given position; with restore, turned about the axis by the
longitude of the center. -/
theorem C97_recenter (ra0 d0 ra1 d1 : ℝ) :
    (recenter (ra0, d0) (.at2 ra0 d0) false).2 = π / 2 ∧ (recenter (ra0, d0) (.at2 ra0 d0) true).2 = π / 2 ∧
    (-π < ra1 → ra1 ≤ π → -(π / 2) < d1 → d1 < π / 2 → recenter (ra0, d0) (.at4 ra0 d0 ra1 d1) false = (ra1, d1)) ∧
    (-π < ra1 + ra0 → ra1 + ra0 ≤ π → -(π / 2) < d1 → d1 < π / 2 → recenter (ra0, d0) (.at4 ra0 d0 ra1 d1) true = (ra1 + ra0, d1)) := by
  have pole : ∀ r, (rect2ang false (ang2rect false r (π / 2))).2 = π / 2 := by
    intro r
    simp only [rect2ang, ang2rect, Bool.false_eq_true, if_false, Matrix.cons_val_zero, Matrix.cons_val_one, Matrix.cons_val, cos_pi_div_two, sin_pi_div_two]
    have := atan2_polar 1 (π / 2) one_pos (by linarith [pi_pos]) (by linarith [pi_pos])
    rw [sin_pi_div_two, cos_pi_div_two] at this
    simpa using this
  refine ⟨?_, ?_, ?_, ?_⟩
  · simp only [recenter, Center.unpack, eulerRot, Bool.false_eq_true, if_false, mul_zero, zero_add]
    rw [mulVec_recenter]; exact pole _
  · simp only [recenter, Center.unpack, eulerRot, if_true, mul_zero, zero_add]
    rw [mulVec_recenter]; exact pole _
  · intro h1 h2 h3 h4
    simp only [recenter, Center.unpack, eulerRot, Bool.false_eq_true, if_false]
    rw [mulVec_recenter]; exact (C97_ang ra1 d1 h1 h2).1 h3 h4
  · intro h1 h2 h3 h4
    simp only [recenter, Center.unpack, eulerRot, if_true]
    rw [mulVec_recenter]; exact (C97_ang (ra1 + ra0) d1 h1 h2).1 h3 h4

/-- C97 fails when the same array of centers is used again: with restore=True and a center array of four rows, the call
changes the caller's array, and the same call made again moves the center somewhere else. -/
theorem C97_restore_refuted : ∃ (p : ℝ × ℝ) (c : Center),
    recenter p c true ≠ recenter p (c.after true true) true ∧ decenter (recenter p c true) (c.after true true) true ≠ p := by
  have hp := pi_pos
  refine ⟨(1 / 2, 0), .at4 (1 / 2) 0 0 0, ?_, ?_⟩
  · have h1 := (C97_recenter (1 / 2) 0 0 0).2.2.2 (by linarith) (by linarith [two_le_pi]) (by linarith) (by linarith)
    have h2 := (C97_recenter (1 / 2) 0 (1 / 2) 0).2.2.2 (by linarith) (by linarith [two_le_pi]) (by linarith) (by linarith)
    rw [h1]
    simp only [Center.after, Bool.and_self, if_true, zero_add]
    rw [h2]
    intro h
    have := congrArg Prod.fst h
    norm_num at this
  · have h1 := (C97_recenter (1 / 2) 0 0 0).2.2.2 (by linarith) (by linarith [two_le_pi]) (by linarith) (by linarith)
    rw [h1]
    simp only [Center.after, Bool.and_self, if_true, zero_add]
    intro h
    have h2 := (C97_recenter (1 / 2) 0 (1 / 2) 0).2.2.2 (by linarith) (by linarith [two_le_pi]) (by linarith) (by linarith)
    have h3 := (C97_decenter (1 / 2, 0) (.at4 (1 / 2) 0 (1 / 2) 0) true (by linarith) (by simp only; linarith [two_le_pi]) (by simp only; linarith)
      (by simp only; linarith)).2
    rw [h, h2] at h3
    have := congrArg Prod.fst h3
    norm_num at this

/-- C97: hor2tele undoes tele2hor, and the reverse. -/
theorem C97_tele (az tilt : ℝ) (p : ℝ × ℝ) (h1 : -π < p.1) (h2 : p.1 ≤ π) (h3 : -(π / 2) < p.2) (h4 : p.2 < π / 2) :
    hor2tele az tilt (tele2hor az tilt p) = p ∧ tele2hor az tilt (hor2tele az tilt p) = p := by
  have a := (C97_rot_inverse az tilt (-az) .z .y .z p).2 h1 h2 h3 h4
  have b := (C97_rot_inverse az (-tilt) (-az) .z .y .z p).2 h1 h2 h3 h4
  rw [neg_neg] at a b
  rw [neg_neg] at b
  exact ⟨a, b⟩

/-! ### C98 -/

/-- Specification: the angle between two positions on the sphere. -/
noncomputable def sphereAngle (zenith : Bool) (a b : ℝ × ℝ) : ℝ := arccos (dot3 (ang2rect zenith a.1 a.2) (ang2rect zenith b.1 b.2))

theorem atan2_arccos (y x : ℝ) (hy : 0 ≤ y) (h : x ^ 2 + y ^ 2 = 1) : atan2 y x = arccos x := by
  have hx : -1 ≤ x ∧ x ≤ 1 := by constructor <;> nlinarith [sq_nonneg y, sq_nonneg (x - 1), sq_nonneg (x + 1)]
  have hs : sin (arccos x) = y := by
    rw [sin_arccos, show 1 - x ^ 2 = y ^ 2 by linarith, Real.sqrt_sq hy]
  have := atan2_polar 1 (arccos x) one_pos (by linarith [arccos_nonneg x, pi_pos]) (arccos_le_pi x)
  rw [one_mul, one_mul, hs, cos_arccos hx.1 hx.2] at this
  exact this

/-- C98: angdist is the angle between the two directions, in both conventions, for all positions. -/
theorem C98_angdist (zenith : Bool) (a b : ℝ × ℝ) : angdist zenith a b = sphereAngle zenith a b := by
  have h0 := sin_sq_add_cos_sq (a.1 - b.1)
  have h1 := sin_sq_add_cos_sq a.2
  have h2 := sin_sq_add_cos_sq b.2
  cases zenith
  · simp only [angdist, Bool.false_eq_true, if_false]
    rw [atan2_arccos _ _ (Real.sqrt_nonneg _)]
    · unfold sphereAngle
      congr 1
      simp only [dot3, ang2rect, Bool.false_eq_true, if_false, Matrix.cons_val_zero, Matrix.cons_val_one, Matrix.cons_val]
      rw [cos_sub]; ring
    · rw [Real.sq_sqrt (by positivity)]
      generalize sin (a.1 - b.1) = S at *
      generalize cos (a.1 - b.1) = C at *
      generalize sin a.2 = sa at *
      generalize cos a.2 = ca at *
      generalize sin b.2 = sb at *
      generalize cos b.2 = cb at *
      linear_combination (cb ^ 2) * h0 + (sb ^ 2 + C ^ 2 * cb ^ 2) * h1 + h2
  · simp only [angdist, if_true]
    rw [atan2_arccos _ _ (Real.sqrt_nonneg _)]
    · unfold sphereAngle
      congr 1
      simp only [dot3, ang2rect, if_true, Matrix.cons_val_zero, Matrix.cons_val_one, Matrix.cons_val]
      rw [cos_sub]; ring
    · rw [Real.sq_sqrt (by positivity)]
      generalize sin (a.1 - b.1) = S at *
      generalize cos (a.1 - b.1) = C at *
      generalize sin a.2 = sa at *
      generalize cos a.2 = ca at *
      generalize sin b.2 = sb at *
      generalize cos b.2 = cb at *
      linear_combination (sb ^ 2) * h0 + (cb ^ 2 + C ^ 2 * sb ^ 2) * h1 + h2

theorem dot3_comm (v w : Fin 3 → ℝ) : dot3 v w = dot3 w v := by unfold dot3; ring

/-- C98: the distance is symmetric, lies between 0 and π, is zero exactly if the directions agree, and is not changed by
any rotation. -/
theorem C98_metric (a b : ℝ × ℝ) (al be ga : ℝ) (k0 k1 k2 : RAxis) :
    angdist false a b = angdist false b a ∧ 0 ≤ angdist false a b ∧ angdist false a b ≤ π ∧
    (angdist false a b = 0 ↔ ang2rect false a.1 a.2 = ang2rect false b.1 b.2) ∧
    angdist false (eulerRot al be ga k0 k1 k2 a) (eulerRot al be ga k0 k1 k2 b) = angdist false a b := by
  simp only [C98_angdist, sphereAngle]
  refine ⟨by rw [dot3_comm], arccos_nonneg _, arccos_le_pi _, ?_, by rw [C97_rot_dot]⟩
  rw [arccos_eq_zero]
  have ha := ang2rect_unit false a.1 a.2
  have hb := ang2rect_unit false b.1 b.2
  constructor
  · intro h
    generalize ang2rect false a.1 a.2 = v at *
    generalize ang2rect false b.1 b.2 = w at *
    unfold dot3 at *
    have s : (v 0 - w 0) ^ 2 + (v 1 - w 1) ^ 2 + (v 2 - w 2) ^ 2 ≤ 0 := by nlinarith
    funext i
    fin_cases i
    · show v 0 = w 0; nlinarith [sq_nonneg (v 0 - w 0), sq_nonneg (v 1 - w 1), sq_nonneg (v 2 - w 2)]
    · show v 1 = w 1; nlinarith [sq_nonneg (v 0 - w 0), sq_nonneg (v 1 - w 1), sq_nonneg (v 2 - w 2)]
    · show v 2 = w 2; nlinarith [sq_nonneg (v 0 - w 0), sq_nonneg (v 1 - w 1), sq_nonneg (v 2 - w 2)]
  · intro h; rw [h, hb]

theorem two_arctan (t : ℝ) (h1 : -1 < t) (h2 : t ≤ 1) : 2 * arctan (√((1 - t) / (1 + t))) = arccos t := by
  have hlt : arccos t < π := by
    rcases (arccos_le_pi t).lt_or_eq with h | h
    · exact h
    · exact absurd (arccos_eq_pi.1 h) (by linarith)
  have h0 := arccos_nonneg t
  have hcos : 0 < cos (arccos t / 2) := cos_pos_of_mem_Ioo ⟨by linarith [pi_pos], by linarith⟩
  have hsin : 0 ≤ sin (arccos t / 2) := sin_nonneg_of_nonneg_of_le_pi (by linarith) (by linarith)
  have e : √((1 - t) / (1 + t)) = tan (arccos t / 2) := by
    have ht : t = cos (2 * (arccos t / 2)) := by rw [show 2 * (arccos t / 2) = arccos t by ring, cos_arccos h1.le h2]
    have hsc := sin_sq_add_cos_sq (arccos t / 2)
    rw [cos_two_mul] at ht
    have : (1 - t) / (1 + t) = tan (arccos t / 2) ^ 2 := by
      rw [tan_eq_sin_div_cos, div_pow]
      generalize sin (arccos t / 2) = S at *
      generalize cos (arccos t / 2) = C at *
      rw [ht, div_eq_div_iff (by nlinarith [sq_pos_of_pos hcos]) (by positivity)]
      linear_combination (-2 * C ^ 2) * hsc
    rw [this, Real.sqrt_sq]
    rw [tan_eq_sin_div_cos]; positivity
  rw [e, arctan_tan (by linarith [pi_pos]) (by linarith)]
  ring

/-- C98: vec_angdist is the angle between two vectors of any lengths that are neither zero nor opposite. -/
theorem C98_vec (v w : Fin 3 → ℝ) (hv : 0 < vlen v) (hw : 0 < vlen w) (hop : -(vlen v * vlen w) < dot3 v w) :
    vecAngdist v w = arccos (dot3 v w / (vlen v * vlen w)) := by
  have sv : vlen v ^ 2 = dot3 v v := by unfold vlen dot3; rw [Real.sq_sqrt (by positivity)]; ring
  have sw : vlen w ^ 2 = dot3 w w := by unfold vlen dot3; rw [Real.sq_sqrt (by positivity)]; ring
  have sc : vlen (v - w) ^ 2 = dot3 v v + dot3 w w - 2 * dot3 v w := by
    unfold vlen dot3; rw [Real.sq_sqrt (by positivity)]; simp only [Pi.sub_apply]; ring
  have hcs : dot3 v w ≤ vlen v * vlen w := by
    apply abs_le_of_sq_le_sq' _ (by positivity) |>.2
    rw [mul_pow, sv, sw]
    unfold dot3
    nlinarith [sq_nonneg (v 0 * w 1 - v 1 * w 0), sq_nonneg (v 0 * w 2 - v 2 * w 0), sq_nonneg (v 1 * w 2 - v 2 * w 1)]
  have hc : 0 ≤ vlen (v - w) := Real.sqrt_nonneg _
  have hp : 0 < vlen v * vlen w := mul_pos hv hw
  have h1 : -1 < dot3 v w / (vlen v * vlen w) := by rw [lt_div_iff₀ hp]; linarith
  have h2 : dot3 v w / (vlen v * vlen w) ≤ 1 := by rw [div_le_one hp]; exact hcs
  rw [← two_arctan _ h1 h2]
  simp only [vecAngdist]
  congr 3
  have hmu : (if vlen w ≥ vlen (v - w) then vlen (v - w) - (vlen v - vlen w) else vlen w - (vlen v - vlen (v - w))) = vlen w + vlen (v - w) - vlen v := by
    split_ifs <;> ring
  rw [hmu]
  generalize vlen v = a at *
  generalize vlen w = b at *
  generalize vlen (v - w) = c at *
  generalize dot3 v w = d at *
  have hs : (a + b) ^ 2 - c ^ 2 = 2 * (a * b + d) := by rw [sc]; nlinarith
  have hs2 : c ^ 2 - (a - b) ^ 2 = 2 * (a * b - d) := by rw [sc]; nlinarith
  have hden : (a + (b + c)) * ((a - c) + b) = 2 * (a * b + d) := by rw [← hs]; ring
  have hnum : ((a - b) + c) * (b + c - a) = 2 * (a * b - d) := by rw [← hs2]; ring
  rw [hden, hnum]
  have : 0 < a * b + d := by linarith
  rw [show (1 - d / (a * b)) = (a * b - d) / (a * b) by field_simp, show (1 + d / (a * b)) = (a * b + d) / (a * b) by field_simp,
    div_div_div_cancel_right₀ hp.ne', mul_div_mul_left _ _ (by norm_num)]

/-- A quarter turn. -/
example : angdist false (0, 0) (0, π / 2) = π / 2 := by
  rw [C98_angdist]
  simp [sphereAngle, dot3, ang2rect]

/-! ### C99 -/

/-- Specification: the chain of systems visited. -/
def sysPath : Nat → Sys → Sys → List Sys
  | 0, a, _ => [a]
  | f + 1, a, b => if a = b then [a] else a :: sysPath f (nextSys a b) b

/-- Every chain ends, after at most four steps, and the way back is the way there in reverse. -/
theorem sysPath_spec : ∀ a b : Sys, (sysPath 4 a b).length ≤ 5 ∧ (sysPath 4 a b).getLast? = some b ∧ sysPath 4 b a = (sysPath 4 a b).reverse := by
  intro a b
  cases a <;> cases b <;> decide

/-- C99: transform_raw's loop ends for every pair of systems (five passes suffice, and more change nothing). -/
theorem C99_ends {P : Type} (step : Sys → Sys → P → P) (f : Nat) (hf : 5 ≤ f) (a b : Sys) (p : P) :
    (transLoop step f a b p).isSome ∧ transLoop step f a b p = transLoop step 5 a b p := by
  obtain ⟨k, rfl⟩ := Nat.exists_eq_add_of_le' hf
  cases a <;> cases b <;> simp [transLoop, nextSys, nohor]

/-- C99: if each single step undoes the step the other way, transforming there and back gives the position back, for every
pair of systems and any reference points that are themselves undone. -/
theorem C99_there_and_back {P : Type} (step : Sys → Sys → P → P)
    (hinv : ∀ a b p, step b a (step a b p) = p) (a b : Sys) (ra rb : Option ((P → P) × (P → P)))
    (hra : ∀ re de, ra = some (re, de) → ∀ p, re (de p) = p) (hrb : ∀ re de, rb = some (re, de) → ∀ p, de (re p) = p) (p : P) :
    ∃ q, transRaw step 5 a ra b rb p = some q ∧ transRaw step 5 b rb a ra q = some p := by
  have loop : ∀ a b : Sys, ∀ p, ∃ q, transLoop step 5 a b p = some q ∧ transLoop step 5 b a q = some p := by
    intro a b p
    cases a <;> cases b <;> simp [transLoop, nextSys, nohor, hinv]
  cases ra with
  | none =>
    obtain ⟨q, h1, h2⟩ := loop a b p
    cases rb with
    | none => exact ⟨q, by simp [transRaw, h1], by simp [transRaw, h2]⟩
    | some r =>
      obtain ⟨re, de⟩ := r
      exact ⟨re q, by simp [transRaw, h1], by simp [transRaw, hrb re de rfl, h2]⟩
  | some r =>
    obtain ⟨re, de⟩ := r
    obtain ⟨q, h1, h2⟩ := loop a b (de p)
    cases rb with
    | none => exact ⟨q, by simp [transRaw, h1], by simp [transRaw, h2, hra re de rfl]⟩
    | some r' =>
      obtain ⟨re', de'⟩ := r'
      exact ⟨re' q, by simp [transRaw, h1], by simp [transRaw, hrb re' de' rfl, h2, hra re de rfl]⟩

/-- From galactic to boresight coordinates by way of four systems. -/
example : sysPath 4 .galactic .bore = [.galactic, .icrs, .altaz, .tele, .bore] := by decide

end Pixell
