import Verif.Model.TransMeta
import Verif.Props.Coordinates
import Mathlib.Analysis.Calculus.Deriv.Pi
import Mathlib.Analysis.SpecialFunctions.Trigonometric.Deriv
import Mathlib.Analysis.Calculus.FDeriv.Prod
import Mathlib.Analysis.Real.Pi.Bounds

/-!
C168: polarization angles and apparent areas follow the change of coordinates: the angle transform adds is that by which the
sky is turned with respect to north, in the healpix convention whatever the handedness of the systems, and the magnification
is the change of area of the coordinates.
-/
namespace Pixell
open Real Filter Topology

/-- The unit vector of a position (longitude, latitude). -/
noncomputable def skyVec (p : ℝ × ℝ) : Fin 3 → ℝ := ![cos p.2 * cos p.1, cos p.2 * sin p.1, sin p.2]

/-- T is a change between coordinate systems: positions near p are moved by the orthogonal matrix R of the unit vectors,
with determinant `eps` (1, or -1 between systems of different handedness). S is T followed continuously, T may jump by
multiples of 2π. L is the derivative at p. Neither position is a pole. -/
structure IsSkyMap (T S : ℝ × ℝ → ℝ × ℝ) (p : ℝ × ℝ) (L : ℝ × ℝ →L[ℝ] ℝ × ℝ) (R : Matrix (Fin 3) (Fin 3) ℝ) (eps : ℝ) : Prop where
  orth : R.transpose * R = 1
  det : R.det = eps
  moves : ∀ᶠ q in 𝓝 p, skyVec (S q) = R.mulVec (skyVec q)
  wraps : ∀ q, ∃ k : ℤ, T q = ((S q).1 + 2 * π * k, (S q).2)
  here : S p = T p
  deriv : HasFDerivAt S L p
  pole : 0 < cos p.2
  opole : 0 < cos (T p).2

/-- The unit vectors east, north and out, as columns. -/
noncomputable def skyFrame (p : ℝ × ℝ) : Matrix (Fin 3) (Fin 3) ℝ :=
  !![-sin p.1, -(sin p.2 * cos p.1), cos p.2 * cos p.1;
     cos p.1, -(sin p.2 * sin p.1), cos p.2 * sin p.1;
     0, cos p.2, sin p.2]

theorem skyFrame_orth (p : ℝ × ℝ) : (skyFrame p).transpose * skyFrame p = 1 := by
  have h1 := sin_sq_add_cos_sq p.1
  have h2 := sin_sq_add_cos_sq p.2
  ext i j
  fin_cases i <;> fin_cases j <;>
    simp [skyFrame, Matrix.mul_apply, Fin.sum_univ_three, Matrix.transpose_apply] <;>
    first
    | linear_combination h1
    | linear_combination sin p.2 ^ 2 * h1 + h2
    | linear_combination cos p.2 ^ 2 * h1 + h2
    | linear_combination (-(sin p.2 * cos p.2)) * h1
    | ring

theorem skyFrame_det (p : ℝ × ℝ) : (skyFrame p).det = 1 := by
  have h1 := sin_sq_add_cos_sq p.1
  have h2 := sin_sq_add_cos_sq p.2
  rw [Matrix.det_fin_three]
  simp [skyFrame]
  linear_combination (sin p.2 ^ 2 + cos p.2 ^ 2) * h1 + h2

/-- The derivative of the unit vector along a curve. -/
theorem skyVec_deriv {f g : ℝ → ℝ} {f' g' : ℝ} (hf : HasDerivAt f f' 0) (hg : HasDerivAt g g' 0) (i : Fin 3) :
    HasDerivAt (fun h => skyVec (f h, g h) i) (f' * cos (g 0) * skyFrame (f 0, g 0) i 0 + g' * skyFrame (f 0, g 0) i 1) 0 := by
  fin_cases i
  · change HasDerivAt (fun h => cos (g h) * cos (f h)) (f' * cos (g 0) * (-sin (f 0)) + g' * (-(sin (g 0) * cos (f 0)))) 0
    exact ((hg.cos).mul (hf.cos)).congr_deriv (by ring)
  · change HasDerivAt (fun h => cos (g h) * sin (f h)) (f' * cos (g 0) * cos (f 0) + g' * (-(sin (g 0) * sin (f 0)))) 0
    exact ((hg.cos).mul (hf.sin)).congr_deriv (by ring)
  · change HasDerivAt (fun h => sin (g h)) (f' * cos (g 0) * 0 + g' * cos (g 0)) 0
    exact hg.sin.congr_deriv (by ring)

variable {T S : ℝ × ℝ → ℝ × ℝ} {p : ℝ × ℝ} {L : ℝ × ℝ →L[ℝ] ℝ × ℝ} {R : Matrix (Fin 3) (Fin 3) ℝ} {eps : ℝ}

/-- The curves of constant declination and constant right ascension through p. -/
theorem curve_deriv (hL : HasFDerivAt S L p) (v : ℝ × ℝ) :
    HasDerivAt (fun h : ℝ => (S (p.1 + h * v.1, p.2 + h * v.2)).1) (L v).1 0 ∧
    HasDerivAt (fun h : ℝ => (S (p.1 + h * v.1, p.2 + h * v.2)).2) (L v).2 0 := by
  have hc : HasDerivAt (fun h : ℝ => (p.1 + h * v.1, p.2 + h * v.2)) v 0 := by
    have h1 : HasDerivAt (fun h : ℝ => p.1 + h * v.1) v.1 0 := by
      simpa using ((hasDerivAt_id (0 : ℝ)).mul_const v.1).const_add p.1
    have h2 : HasDerivAt (fun h : ℝ => p.2 + h * v.2) v.2 0 := by
      simpa using ((hasDerivAt_id (0 : ℝ)).mul_const v.2).const_add p.2
    exact h1.prodMk h2
  have e0 : (fun h : ℝ => (p.1 + h * v.1, p.2 + h * v.2)) 0 = p := by simp
  have h := (e0.symm ▸ hL : HasFDerivAt S L ((fun h : ℝ => (p.1 + h * v.1, p.2 + h * v.2)) 0)).comp_hasDerivAt 0 hc
  exact ⟨(ContinuousLinearMap.fst ℝ ℝ ℝ).hasFDerivAt.comp_hasDerivAt (0 : ℝ) h,
    (ContinuousLinearMap.snd ℝ ℝ ℝ).hasFDerivAt.comp_hasDerivAt (0 : ℝ) h⟩

/-- A tangent vector is turned by R. -/
theorem tangent_turned (H : IsSkyMap T S p L R eps) (v : ℝ × ℝ) (i : Fin 3) :
    (L v).1 * cos (S p).2 * skyFrame (S p) i 0 + (L v).2 * skyFrame (S p) i 1 =
      ∑ j, R i j * (v.1 * cos p.2 * skyFrame p j 0 + v.2 * skyFrame p j 1) := by
  obtain ⟨c1, c2⟩ := curve_deriv H.deriv v
  have d1 := skyVec_deriv c1 c2 i
  have d2 : ∀ j, HasDerivAt (fun h : ℝ => skyVec (p.1 + h * v.1, p.2 + h * v.2) j)
      (v.1 * cos p.2 * skyFrame p j 0 + v.2 * skyFrame p j 1) 0 := by
    intro j
    have h1 : HasDerivAt (fun h : ℝ => p.1 + h * v.1) v.1 0 := by
      simpa using ((hasDerivAt_id (0 : ℝ)).mul_const v.1).const_add p.1
    have h2 : HasDerivAt (fun h : ℝ => p.2 + h * v.2) v.2 0 := by
      simpa using ((hasDerivAt_id (0 : ℝ)).mul_const v.2).const_add p.2
    have := skyVec_deriv h1 h2 j
    simpa using this
  have d3 : HasDerivAt (fun h : ℝ => ∑ j, R i j * skyVec (p.1 + h * v.1, p.2 + h * v.2) j)
      (∑ j, R i j * (v.1 * cos p.2 * skyFrame p j 0 + v.2 * skyFrame p j 1)) 0 :=
    HasDerivAt.fun_sum fun j _ => (d2 j).const_mul (R i j)
  have hev : (fun h : ℝ => skyVec ((S (p.1 + h * v.1, p.2 + h * v.2)).1, (S (p.1 + h * v.1, p.2 + h * v.2)).2) i) =ᶠ[𝓝 0]
      fun h : ℝ => ∑ j, R i j * skyVec (p.1 + h * v.1, p.2 + h * v.2) j := by
    have hcont : Tendsto (fun h : ℝ => (p.1 + h * v.1, p.2 + h * v.2)) (𝓝 0) (𝓝 p) := by
      have : Continuous fun h : ℝ => (p.1 + h * v.1, p.2 + h * v.2) := by fun_prop
      have := this.tendsto 0
      simpa using this
    filter_upwards [hcont.eventually H.moves] with h hh
    have := congrFun hh i
    simpa [Matrix.mulVec, dotProduct] using this
  have := d1.unique (d3.congr_of_eventuallyEq hev)
  simpa using this

/-- The four numbers that describe the derivative: (A,B) is the image of east times cos dec, (C,D) the image of north. -/
theorem frame_turned (H : IsSkyMap T S p L R eps) :
    let A := (L (1, 0)).1 * cos (S p).2
    let B := (L (1, 0)).2
    let C := (L (0, 1)).1 * cos (S p).2
    let D := (L (0, 1)).2
    A ^ 2 + B ^ 2 = cos p.2 ^ 2 ∧ A * C + B * D = 0 ∧ C ^ 2 + D ^ 2 = 1 ∧ A * D - B * C = eps * cos p.2 := by
  intro A B C D
  have hv : skyVec (S p) = R.mulVec (skyVec p) := H.moves.self_of_nhds
  have hM : R * skyFrame p * !![cos p.2, 0, 0; 0, 1, 0; 0, 0, 1] = skyFrame (S p) * !![A, C, 0; B, D, 0; 0, 0, 1] := by
    ext i j
    have e1 := tangent_turned H (1, 0) i
    have e2 := tangent_turned H (0, 1) i
    have e3 := congrFun hv i
    have f1 : ∀ q : ℝ × ℝ, ∀ k : Fin 3, skyFrame q k 2 = skyVec q k := by
      intro q k
      fin_cases k <;> simp [skyFrame, skyVec]
    simp only [Matrix.mulVec, dotProduct, Fin.sum_univ_three, one_mul, zero_mul, add_zero, zero_add] at e1 e2 e3
    fin_cases j
    · simp [Matrix.mul_apply, Fin.sum_univ_three]
      linear_combination -e1
    · simp [Matrix.mul_apply, Fin.sum_univ_three]
      linear_combination -e2
    · simp [Matrix.mul_apply, Fin.sum_univ_three, f1]
      linear_combination -e3
  set K : Matrix (Fin 3) (Fin 3) ℝ := !![A, C, 0; B, D, 0; 0, 0, 1] with hK
  set Q : Matrix (Fin 3) (Fin 3) ℝ := !![cos p.2, 0, 0; 0, 1, 0; 0, 0, 1] with hQ
  have hKK : K.transpose * K = Q.transpose * Q := by
    have h1 : (skyFrame (S p) * K).transpose * (skyFrame (S p) * K) = K.transpose * K := by
      rw [Matrix.transpose_mul, Matrix.mul_assoc, ← Matrix.mul_assoc _ (skyFrame (S p)) K, skyFrame_orth, Matrix.one_mul]
    have h2 : (R * skyFrame p * Q).transpose * (R * skyFrame p * Q) = Q.transpose * Q := by
      rw [Matrix.transpose_mul, Matrix.transpose_mul]
      have : Q.transpose * ((skyFrame p).transpose * R.transpose) * (R * skyFrame p * Q) =
          Q.transpose * ((skyFrame p).transpose * (R.transpose * R) * skyFrame p) * Q := by
        simp only [Matrix.mul_assoc]
      rw [this, H.orth, Matrix.mul_one, skyFrame_orth, Matrix.mul_one]
    rw [← h1, ← hM, h2]
  have hdet : K.det = eps * cos p.2 := by
    have := congrArg Matrix.det hM
    rw [Matrix.det_mul, Matrix.det_mul, Matrix.det_mul, skyFrame_det, skyFrame_det, H.det, one_mul, mul_one] at this
    rw [← this]
    simp [hQ, Matrix.det_fin_three]
  have g := fun i j => congrFun (congrFun hKK i) j
  have g00 := g 0 0
  have g01 := g 0 1
  have g11 := g 1 1
  simp [hK, hQ, Matrix.mul_apply, Fin.sum_univ_three, Matrix.transpose_apply] at g00 g01 g11
  rw [Matrix.det_fin_three] at hdet
  simp [hK] at hdet
  refine ⟨by linear_combination g00, by linear_combination g01, by linear_combination g11, by linear_combination hdet⟩

/-- rewind removes the jumps. -/
theorem rewindPi_eq {x : ℝ} (k : ℤ) (h1 : -π ≤ x) (h2 : x < π) : rewindPi (x + 2 * π * k) = x := by
  have hp := pi_pos
  unfold rewindPi
  have : ⌊(x + 2 * π * k + π) / (2 * π)⌋ = k := by
    rw [Int.floor_eq_iff]
    constructor
    · rw [le_div_iff₀ (by positivity)]; linarith
    · rw [div_lt_iff₀ (by positivity)]; linarith
  rw [this]
  ring

/-- The differences of transform_meta divided by the offset tend to the derivatives. -/
theorem diff_tendsto (H : IsSkyMap T S p L R eps) (v : ℝ × ℝ) :
    Tendsto (fun h : ℝ => rewindPi ((T (p.1 + h * v.1, p.2 + h * v.2)).1 - (T p).1) / h) (𝓝[>] 0) (𝓝 (L v).1) ∧
    Tendsto (fun h : ℝ => rewindPi ((T (p.1 + h * v.1, p.2 + h * v.2)).2 - (T p).2) / h) (𝓝[>] 0) (𝓝 (L v).2) := by
  have hp := pi_pos
  obtain ⟨c1, c2⟩ := curve_deriv H.deriv v
  have hsub : 𝓝[>] (0 : ℝ) ≤ 𝓝[≠] 0 := nhdsWithin_mono _ fun x hx => ne_of_gt hx
  constructor
  · have hs := (hasDerivAt_iff_tendsto_slope.1 c1).mono_left hsub
    refine hs.congr' ?_
    have hc := c1.continuousAt
    have h1 : ∀ᶠ h : ℝ in 𝓝 0, |(S (p.1 + h * v.1, p.2 + h * v.2)).1 - (S p).1| < π := by
      have := Metric.tendsto_nhds.1 hc.tendsto π hp
      simpa [Real.dist_eq] using this
    filter_upwards [nhdsWithin_le_nhds h1] with h hh
    obtain ⟨k, hk⟩ := H.wraps (p.1 + h * v.1, p.2 + h * v.2)
    obtain ⟨a, b⟩ := abs_lt.1 hh
    have e : (T (p.1 + h * v.1, p.2 + h * v.2)).1 - (T p).1 = ((S (p.1 + h * v.1, p.2 + h * v.2)).1 - (S p).1) + 2 * π * k := by
      rw [hk, ← H.here]; ring
    rw [e, rewindPi_eq k a.le b, slope_def_field]
    simp
  · have hs := (hasDerivAt_iff_tendsto_slope.1 c2).mono_left hsub
    refine hs.congr' ?_
    have hc := c2.continuousAt
    have h1 : ∀ᶠ h : ℝ in 𝓝 0, |(S (p.1 + h * v.1, p.2 + h * v.2)).2 - (S p).2| < π := by
      have := Metric.tendsto_nhds.1 hc.tendsto π hp
      simpa [Real.dist_eq] using this
    filter_upwards [nhdsWithin_le_nhds h1] with h hh
    obtain ⟨k, hk⟩ := H.wraps (p.1 + h * v.1, p.2 + h * v.2)
    obtain ⟨a, b⟩ := abs_lt.1 hh
    have e : (T (p.1 + h * v.1, p.2 + h * v.2)).2 - (T p).2 = ((S (p.1 + h * v.1, p.2 + h * v.2)).2 - (S p).2) + 2 * π * (0 : ℤ) := by
      rw [hk, ← H.here]; push_cast; ring
    rw [e, rewindPi_eq 0 a.le b, slope_def_field]
    simp

/-- **C168_angle.** As the offset goes to zero, the angle of transform_meta goes to the angle `a` by which the sky is turned:
a small displacement (x east, y north) becomes (x·cos a - e·y·sin a east, x·sin a + e·y·cos a north), where e is -1 between
systems of different handedness and 1 otherwise. -/
theorem C168_angle (H : IsSkyMap T S p L R eps) (he : eps = 1 ∨ eps = -1) :
    ∃ a : ℝ, Tendsto (fun h => (cos (metaAng T p h), sin (metaAng T p h))) (𝓝[>] 0) (𝓝 (cos a, sin a)) ∧
      ∀ x y : ℝ, ((L (x / cos p.2, y)).1 * cos (T p).2, (L (x / cos p.2, y)).2) =
        (x * cos a - eps * y * sin a, x * sin a + eps * y * cos a) := by
  obtain ⟨k1, k2, k3, k4⟩ := frame_turned H
  rw [H.here] at k1 k2 k3 k4
  have hc := H.pole
  set A := (L (1, 0)).1 * cos (T p).2 with hA
  set B := (L (1, 0)).2 with hB
  set C := (L (0, 1)).1 * cos (T p).2 with hC
  set D := (L (0, 1)).2 with hD
  have hsq : √(A ^ 2 + B ^ 2) = cos p.2 := by rw [k1, sqrt_sq hc.le]
  have ca : cos (atan2 B A) = A / cos p.2 := by
    rw [eq_div_iff hc.ne', ← hsq]; exact cos_atan2 B A
  have sa : sin (atan2 B A) = B / cos p.2 := by
    rw [eq_div_iff hc.ne', ← hsq]; exact sin_atan2 B A
  refine ⟨atan2 B A, ?_, ?_⟩
  · obtain ⟨t1, t2⟩ := diff_tendsto H (1, 0)
    simp only [mul_one, mul_zero, add_zero] at t1 t2
    set X : ℝ → ℝ := fun h => rewindPi ((T (p.1 + h, p.2)).1 - (T p).1) / h * cos (T p).2 with hX
    set Y : ℝ → ℝ := fun h => rewindPi ((T (p.1 + h, p.2)).2 - (T p).2) / h with hY
    have tX : Tendsto X (𝓝[>] 0) (𝓝 A) := t1.mul_const _
    have tn : Tendsto (fun h => √(X h ^ 2 + Y h ^ 2)) (𝓝[>] 0) (𝓝 (cos p.2)) := by
      rw [← hsq]
      exact (continuous_sqrt.tendsto _).comp ((tX.pow 2).add (t2.pow 2))
    have q1 : Tendsto (fun h => X h / √(X h ^ 2 + Y h ^ 2)) (𝓝[>] 0) (𝓝 (A / cos p.2)) := tX.div tn hc.ne'
    have q2 : Tendsto (fun h => Y h / √(X h ^ 2 + Y h ^ 2)) (𝓝[>] 0) (𝓝 (B / cos p.2)) := t2.div tn hc.ne'
    rw [ca, sa]
    have hnz : ∀ᶠ h in 𝓝[>] (0 : ℝ), √(X h ^ 2 + Y h ^ 2) ≠ 0 := tn.eventually_ne hc.ne'
    have key : ∀ᶠ h in 𝓝[>] (0 : ℝ), cos (metaAng T p h) = X h / √(X h ^ 2 + Y h ^ 2) ∧
        sin (metaAng T p h) = Y h / √(X h ^ 2 + Y h ^ 2) := by
      filter_upwards [hnz, self_mem_nhdsWithin] with h h0 hpos
      have hh : (0 : ℝ) < h := hpos
      have e : metaAng T p h = atan2 (h * Y h) (h * X h) := by
        unfold metaAng
        simp only [hX, hY]
        congr 1 <;> field_simp
      have hs : √((h * X h) ^ 2 + (h * Y h) ^ 2) = h * √(X h ^ 2 + Y h ^ 2) := by
        rw [show (h * X h) ^ 2 + (h * Y h) ^ 2 = h ^ 2 * (X h ^ 2 + Y h ^ 2) by ring, sqrt_mul (by positivity), sqrt_sq hh.le]
      have i1 := cos_atan2 (h * Y h) (h * X h)
      have i2 := sin_atan2 (h * Y h) (h * X h)
      rw [hs] at i1 i2
      rw [e, eq_div_iff h0, eq_div_iff h0]
      constructor
      · apply mul_left_cancel₀ hh.ne'
        linear_combination i1
      · apply mul_left_cancel₀ hh.ne'
        linear_combination i2
    refine Tendsto.prodMk_nhds ?_ ?_
    · refine q1.congr' ?_
      filter_upwards [key] with h hh
      exact hh.1.symm
    · refine q2.congr' ?_
      filter_upwards [key] with h hh
      exact hh.2.symm
  · intro x y
    have eL : L (x / cos p.2, y) = (x / cos p.2) • L (1, 0) + y • L (0, 1) := by
      rw [← L.map_smul, ← L.map_smul, ← L.map_add]
      congr 1
      simp
    have ee : eps * eps = 1 := by rcases he with h | h <;> rw [h] <;> norm_num
    -- the image of north
    have hCc : C = -eps * B / cos p.2 := by
      rw [eq_div_iff hc.ne']
      have h2 : C * cos p.2 ^ 2 = -eps * B * cos p.2 := by
        rw [← k1]
        linear_combination A * k2 - B * k4
      have := mul_right_cancel₀ hc.ne' (show C * cos p.2 * cos p.2 = -eps * B * cos p.2 by linear_combination h2)
      exact this
    have hDc : D = eps * A / cos p.2 := by
      rw [eq_div_iff hc.ne']
      have h2 : D * cos p.2 ^ 2 = eps * A * cos p.2 := by
        rw [← k1]
        linear_combination B * k2 + A * k4
      exact mul_right_cancel₀ hc.ne' (show D * cos p.2 * cos p.2 = eps * A * cos p.2 by linear_combination h2)
    rw [eL, ca, sa]
    simp only [Prod.fst_add, Prod.snd_add, Prod.smul_fst, Prod.smul_snd, smul_eq_mul]
    rw [Prod.mk.injEq]
    constructor
    · have : (x / cos p.2 * (L (1, 0)).1 + y * (L (0, 1)).1) * cos (T p).2 = x / cos p.2 * A + y * C := by
        rw [hA, hC]; ring
      rw [this, hCc]
      ring
    · rw [← hB, ← hD, hDc]
      ring

/-- **C168_magnification.** The magnification is the factor by which the change of coordinates enlarges areas of the
coordinate plane (its Jacobian), and that by triangles goes to the same number as the offset goes to zero. -/
theorem C168_magnification (H : IsSkyMap T S p L R eps) (he : eps = 1 ∨ eps = -1) :
    metaMag T p = |(L (1, 0)).1 * (L (0, 1)).2 - (L (1, 0)).2 * (L (0, 1)).1| ∧
    Tendsto (metaMagBrute T p) (𝓝[>] 0) (𝓝 (metaMag T p)) := by
  obtain ⟨-, -, -, k4⟩ := frame_turned H
  rw [H.here] at k4
  have hc := H.pole
  have ho := H.opole
  have e1 : metaMag T p = |(L (1, 0)).1 * (L (0, 1)).2 - (L (1, 0)).2 * (L (0, 1)).1| := by
    have : (L (1, 0)).1 * (L (0, 1)).2 - (L (1, 0)).2 * (L (0, 1)).1 = eps * (cos p.2 / cos (T p).2) := by
      rw [mul_div_assoc', eq_div_iff ho.ne', ← k4]
      ring
    rw [this, abs_mul]
    have : |eps| = 1 := by rcases he with h | h <;> rw [h] <;> norm_num
    rw [this, one_mul, abs_of_pos (div_pos hc ho)]
    rfl
  refine ⟨e1, ?_⟩
  obtain ⟨t1, t2⟩ := diff_tendsto H (1, 0)
  obtain ⟨t3, t4⟩ := diff_tendsto H (0, 1)
  simp only [mul_one, mul_zero, add_zero] at t1 t2 t3 t4
  rw [e1]
  have := ((t1.mul t4).sub (t2.mul t3)).abs
  refine this.congr' ?_
  filter_upwards [self_mem_nhdsWithin] with h hpos
  have hh : (0 : ℝ) < h := hpos
  unfold metaMagBrute
  simp only [mul_zero, sub_zero]
  rw [abs_of_pos (mul_pos hh hh)]
  rw [show ∀ a b c d : ℝ, a / h * (b / h) - c / h * (d / h) = (a * b - c * d) / (h * h) from fun a b c d => by
    field_simp, abs_div, abs_of_pos (mul_pos hh hh)]
  field_simp

/-- The healpix convention for the direction of polarization, as components (east, north): the angle is counted from north
towards west in celestial coordinates, and likewise on the sky, so the other way in longitude, in horizontal ones. (From south
towards east is the same up to a turn by π, which polarization does not notice.) -/
noncomputable def polDir (s : Hand) (psi : ℝ) : ℝ × ℝ :=
  match s with
  | .L => (cos (π / 2 + psi), sin (π / 2 + psi))
  | .R => (cos (π / 2 - psi), sin (π / 2 - psi))

/-- **C168_polarization.** transform turns the angle of polarization such that the direction on the sky is the same, between
systems of any handedness: what points along polDir before points along polDir of the new angle afterwards. -/
theorem C168_polarization (ih oh : Hand) (a psi : ℝ) :
    let e : ℝ := if ih = oh then 1 else -1
    let d := polDir ih psi
    (d.1 * cos a - e * d.2 * sin a, d.1 * sin a + e * d.2 * cos a) = polDir oh (psi + transAng ih oh a) := by
  intro e d
  cases ih <;> cases oh <;> simp only [e, d, polDir, transAng, reduceCtorEq, if_true, if_false, ne_eq, not_true_eq_false,
    not_false_eq_true, Prod.mk.injEq, one_mul, neg_mul]
  · rw [show π / 2 + (psi + a) = (π / 2 + psi) + a by ring, cos_add (π / 2 + psi) a, sin_add (π / 2 + psi) a]
    constructor <;> ring
  · rw [show π / 2 - (psi + -(a - π)) = a - (π / 2 + psi) by ring, cos_sub a (π / 2 + psi), sin_sub a (π / 2 + psi)]
    constructor <;> ring
  · rw [show π / 2 + (psi + (a - π)) = a - (π / 2 - psi) by ring, cos_sub a (π / 2 - psi), sin_sub a (π / 2 - psi)]
    constructor <;> ring
  · rw [show π / 2 - (psi + -a) = (π / 2 - psi) + a by ring, cos_add (π / 2 - psi) a, sin_add (π / 2 - psi) a]
    constructor <;> ring

/-- **C168_chain.** Transforming through a third system gives the same angle: if the sky is turned by a and then by b, it is
turned by b ± a in all, and the angles of transform add up. There and back leaves the angle as it was. -/
theorem C168_chain (ih jh kh : Hand) (a b : ℝ) :
    transAng ih jh a + transAng jh kh b = transAng ih kh (b + (if jh = kh then 1 else -1) * a) := by
  cases ih <;> cases jh <;> cases kh <;> simp only [transAng, reduceCtorEq, if_true, if_false, ne_eq, not_true_eq_false,
    not_false_eq_true]
  all_goals ring

/-- **C168_columns.** Without pol and mag the result has as many rows as the input (two to four): a given angle is added to,
a given magnification multiplied. -/
theorem C168_columns (ang mag c2 c3 : ℝ) :
    transCols (transFields none none 2) none none ang mag = [] ∧
    transCols (transFields none none 3) (some c2) none ang mag = [c2 + ang] ∧
    transCols (transFields none none 4) (some c2) (some c3) ang mag = [c2 + ang, c3 * mag] ∧
    transCols (transFields (some true) (some true) 2) none none ang mag = [ang, mag] := by
  simp [transFields, transCols]

/-- **C168_shape_refuted.** "Returns an array with the same shape as the input" fails once pol or mag is given: from four
rows pol=True keeps three and loses the magnification; from position, angle and magnification mag=True loses the angle; and a
third row is not taken for a magnification, which is then replaced instead of multiplied. -/
theorem C168_shape_refuted (ang mag c2 c3 : ℝ) :
    transCols (transFields (some true) none 4) (some c2) (some c3) ang mag = [c2 + ang] ∧
    transCols (transFields none (some true) 4) (some c2) (some c3) ang mag = [c3 * mag] ∧
    transCols (transFields (some false) (some true) 3) (some c2) none ang mag = [mag] := by
  simp [transFields, transCols]

/-- Non-vacuity: horizontal coordinates turned upside down and mirrored, far from the poles, with a jump of the azimuth. -/
example : IsSkyMap (fun q => (-q.1 + 2 * π * (if q.1 < 0 then 1 else 0), q.2)) (fun q => (-q.1, q.2)) (1, 1 / 2)
    (((-1 : ℝ) • ContinuousLinearMap.fst ℝ ℝ ℝ).prod (ContinuousLinearMap.snd ℝ ℝ ℝ)) !![1, 0, 0; 0, -1, 0; 0, 0, 1] (-1) where
  orth := by
    ext i j
    fin_cases i <;> fin_cases j <;> simp [Matrix.mul_apply, Fin.sum_univ_three, Matrix.transpose_apply]
  det := by rw [Matrix.det_fin_three]; simp
  moves := by
    refine Eventually.of_forall fun q => ?_
    funext i
    fin_cases i <;> simp [skyVec, Matrix.mulVec, dotProduct, Fin.sum_univ_three]
  wraps := by
    intro q
    refine ⟨if q.1 < 0 then 1 else 0, ?_⟩
    split_ifs <;> simp
  here := by
    have : ¬ ((1 : ℝ) < 0) := by norm_num
    simp [this]
  deriv := by
    have h1 : HasFDerivAt (fun q : ℝ × ℝ => -q.1) ((-1 : ℝ) • ContinuousLinearMap.fst ℝ ℝ ℝ) (1, 1 / 2) := by
      have := ((-1 : ℝ) • ContinuousLinearMap.fst ℝ ℝ ℝ).hasFDerivAt (x := ((1 : ℝ), (1 / 2 : ℝ)))
      convert this using 1
      funext q
      simp
    exact h1.prodMk hasFDerivAt_snd
  pole := cos_pos_of_mem_Ioo ⟨by simp only; linarith [pi_gt_three], by simp only; linarith [pi_gt_three]⟩
  opole := cos_pos_of_mem_Ioo ⟨by simp only; linarith [pi_gt_three], by simp only; linarith [pi_gt_three]⟩

end Pixell
