import Verif.Model.RotAlm
import Verif.Props.Coordinates

/-
Property C193: rotating spherical harmonic coefficients.
-/
namespace Pixell

open Real

/-- What the rotation of coefficients by a library means: it depends on the rotation alone, rotating twice is rotating by
the product, and no rotation changes nothing. -/
structure RotatesBy {α : Type} (lib : String → ℝ × ℝ × ℝ → α → α) : Prop where
  one : ∀ m e a, fromEulerZyz e.1 e.2.1 e.2.2 = 1 → lib m e a = a
  mul : ∀ m m' e f g a, fromEulerZyz f.1 f.2.1 f.2.2 * fromEulerZyz e.1 e.2.1 e.2.2 = fromEulerZyz g.1 g.2.1 g.2.2 →
    lib m f (lib m' e a) = lib m g a

/-- Vectors, which are the coefficients with l = 1, are rotated in this sense. -/
theorem vectors_rotate : RotatesBy (α := Fin 3 → ℝ) fun _ e a => (fromEulerZyz e.1 e.2.1 e.2.2).mulVec a where
  one m e a h := by simp only [h, Matrix.one_mulVec]
  mul m m' e f g a h := by simp only [Matrix.mulVec_mulVec, h]

theorem rot_zero (k : RAxis) : rotmatrix 0 k = 1 := by
  cases k <;> ext i j <;> fin_cases i <;> fin_cases j <;> simp [rotmatrix]

theorem zyz_inverse (a b c : ℝ) : fromEulerZyz (-c) (-b) (-a) * fromEulerZyz a b c = 1 := by
  unfold fromEulerZyz
  rw [show rotmatrix (-a) .z * rotmatrix (-b) .y * rotmatrix (-c) .z * (rotmatrix c .z * rotmatrix b .y * rotmatrix a .z) =
    rotmatrix (-a) .z * (rotmatrix (-b) .y * (rotmatrix (-c) .z * rotmatrix c .z) * rotmatrix b .y) * rotmatrix a .z by
      simp only [Matrix.mul_assoc]]
  rw [rot_cancel', Matrix.mul_one, rot_cancel', Matrix.mul_one, rot_cancel']

theorem fold_rotate {α : Type} (f : α → α) : ∀ (inds : List (List Nat)) (alm : List Nat → α), inds.Nodup → ∀ J,
    inds.foldl (fun (a : List Nat → α) I => fun J => if J = I then f (a I) else a J) alm J = if J ∈ inds then f (alm J) else alm J := by
  intro inds
  induction inds with
  | nil => intro alm _ J; simp
  | cons I inds ih =>
    intro alm hnd J
    rw [List.foldl_cons, ih _ (List.nodup_cons.1 hnd).2 J]
    by_cases h : J = I
    · subst h
      have : J ∉ inds := (List.nodup_cons.1 hnd).1
      simp [this]
    · simp [h]

/-- C193: every map of coefficients is rotated, once and by the same angles; the array that was passed is changed only if
this was asked for, and then to the result; the preferred available library is used. -/
theorem C193_each {α : Type} (lib : String → ℝ × ℝ × ℝ → α → α) (inds : List (List Nat)) (hnd : inds.Nodup) (alm : List Nat → α)
    (e : ℝ × ℝ × ℝ) (haveHealpy inplace : Bool) :
    (∃ r, rotateAlm lib inds alm e "auto" true haveHealpy inplace = some r ∧ (∀ I ∈ inds, r.1 I = lib "ducc0" e (alm I)) ∧
      (inplace = true → r.2 = r.1) ∧ (inplace = false → r.2 = alm)) ∧
    (∃ r, rotateAlm lib inds alm e "auto" false true inplace = some r ∧ (∀ I ∈ inds, r.1 I = lib "healpy" e (alm I)) ∧
      (inplace = true → r.2 = r.1) ∧ (inplace = false → r.2 = alm)) ∧
    rotateAlm lib inds alm e "auto" false false inplace = none := by
  refine ⟨⟨_, rfl, ?_, ?_, ?_⟩, ⟨_, rfl, ?_, ?_, ?_⟩, rfl⟩
  · intro I hI
    have := fold_rotate (lib "ducc0" e) inds alm hnd I
    rw [if_pos hI] at this
    exact this
  · rintro rfl; rfl
  · rintro rfl; rfl
  · intro I hI
    have := fold_rotate (lib "healpy" e) inds alm hnd I
    rw [if_pos hI] at this
    exact this
  · rintro rfl; rfl
  · rintro rfl; rfl

theorem rotate_some {α : Type} (lib : String → ℝ × ℝ × ℝ → α → α) (inds : List (List Nat)) (hnd : inds.Nodup) (alm : List Nat → α)
    (e : ℝ × ℝ × ℝ) (method : String) (hd hh inplace : Bool) (r : (List Nat → α) × (List Nat → α))
    (h : rotateAlm lib inds alm e method hd hh inplace = some r) :
    ∃ m, rotMethod method hd hh = some m ∧ ∀ I ∈ inds, r.1 I = lib m e (alm I) := by
  unfold rotateAlm at h
  obtain ⟨m, hm, rfl⟩ := Option.map_eq_some_iff.1 h
  refine ⟨m, hm, ?_⟩
  intro I hI
  have := fold_rotate (lib m e) inds alm hnd I
  rw [if_pos hI] at this
  exact this

/-- C193: rotating by three angles and then by their negatives in the opposite order gives the coefficients back, whatever
the methods. -/
theorem C193_inverse {α : Type} (lib : String → ℝ × ℝ × ℝ → α → α) (hl : RotatesBy lib) (inds : List (List Nat)) (hnd : inds.Nodup)
    (alm : List Nat → α) (psi theta phi : ℝ) (m1 m2 : String) (hd hh ip1 ip2 : Bool) (r s : (List Nat → α) × (List Nat → α))
    (h1 : rotateAlm lib inds alm (psi, theta, phi) m1 hd hh ip1 = some r)
    (h2 : rotateAlm lib inds r.1 (-phi, -theta, -psi) m2 hd hh ip2 = some s) (I : List Nat) (hI : I ∈ inds) : s.1 I = alm I := by
  obtain ⟨a, _, ha⟩ := rotate_some lib inds hnd alm _ _ _ _ _ r h1
  obtain ⟨b, _, hb⟩ := rotate_some lib inds hnd r.1 _ _ _ _ _ s h2
  rw [hb I hI, ha I hI, hl.mul b a _ _ (0, 0, 0) (alm I)]
  · exact hl.one _ _ _ (by simp only [fromEulerZyz, rot_zero, Matrix.mul_one])
  · simp only [zyz_inverse]
    simp only [fromEulerZyz, rot_zero, Matrix.mul_one]

example : ∃ r s, rotateAlm (fun _ (e : ℝ × ℝ × ℝ) (a : Fin 3 → ℝ) => (fromEulerZyz e.1 e.2.1 e.2.2).mulVec a) [[0], [1]]
    (fun I => ![1, 2, I.sum]) (1, 2, 3) "ducc0" true true false = some r ∧
    rotateAlm (fun _ (e : ℝ × ℝ × ℝ) (a : Fin 3 → ℝ) => (fromEulerZyz e.1 e.2.1 e.2.2).mulVec a) [[0], [1]] r.1 (-3, -2, -1)
      "healpy" true true true = some s := ⟨_, _, rfl, rfl⟩

/-- C193: the angles from galactic to equatorial coordinates and those back undo each other, in either order. -/
theorem C193_galactic {α : Type} (lib : String → ℝ × ℝ × ℝ → α → α) (hl : RotatesBy lib) (inds : List (List Nat)) (hnd : inds.Nodup)
    (alm : List Nat → α) (first : Bool) (m1 m2 : String) (hd hh ip1 ip2 : Bool) (r s : (List Nat → α) × (List Nat → α))
    (h1 : rotateAlm lib inds alm (eulerAngs first) m1 hd hh ip1 = some r)
    (h2 : rotateAlm lib inds r.1 (eulerAngs (!first)) m2 hd hh ip2 = some s) (I : List Nat) (hI : I ∈ inds) : s.1 I = alm I := by
  refine C193_inverse lib hl inds hnd alm (eulerAngs first).1 (eulerAngs first).2.1 (eulerAngs first).2.2 m1 m2 hd hh ip1
    ip2 r s h1 ?_ I hI
  rw [← h2]
  congr 1
  cases first <;> simp [eulerAngs]

example : (eulerAngs true).1 = -(eulerAngs false).2.2 ∧ (eulerAngs true).2.1 = -(eulerAngs false).2.1 := by
  simp [eulerAngs]

/-- The direction with the given right ascension and declination. -/
noncomputable def skyVector (dir : ℝ × ℝ) : Fin 3 → ℝ := ![cos dir.2 * cos dir.1, cos dir.2 * sin dir.1, sin dir.2]

/-- C193: prof2alm turns the pole, around which a profile is given, to the direction asked for, and keeps the distances
from it: a point is as far from that direction after as it was from the pole before. The default direction turns
nothing. -/
theorem C193_direction (dir : ℝ × ℝ) (p : Fin 3 → ℝ) :
    (fromEulerZyz (profAngles dir).1 (profAngles dir).2.1 (profAngles dir).2.2).mulVec ![0, 0, 1] = skyVector dir ∧
    ((fromEulerZyz (profAngles dir).1 (profAngles dir).2.1 (profAngles dir).2.2).mulVec p) ⬝ᵥ skyVector dir = p 2 ∧
    fromEulerZyz (profAngles (0, π / 2)).1 (profAngles (0, π / 2)).2.1 (profAngles (0, π / 2)).2.2 = 1 := by
  refine ⟨?_, ?_, ?_⟩
  · funext i
    simp only [fromEulerZyz, profAngles, rot_zero, Matrix.mul_one]
    fin_cases i <;> simp [rotmatrix, skyVector, Matrix.mulVec, Matrix.mul_apply, dotProduct, Fin.sum_univ_three, sin_pi_div_two_sub, cos_pi_div_two_sub] <;> ring
  · simp only [fromEulerZyz, profAngles, rot_zero, Matrix.mul_one]
    simp [rotmatrix, skyVector, Matrix.mulVec, Matrix.mul_apply, dotProduct, Fin.sum_univ_three, sin_pi_div_two_sub, cos_pi_div_two_sub]
    have h1 := sin_sq_add_cos_sq dir.1
    have h2 := sin_sq_add_cos_sq dir.2
    linear_combination (cos dir.2 * (sin dir.2 * p 0 + cos dir.2 * p 2)) * h1 + p 2 * h2
  · simp only [profAngles, sub_self, fromEulerZyz, rot_zero, Matrix.mul_one]

/-- C193 fails for the number of threads: a number given by the caller is ignored wherever OMP_NUM_THREADS is set. -/
theorem C193_threads_refuted (env arg : Nat) (h : env ≠ arg) : rotThreads (some env) (some arg) ≠ arg ∧ rotThreads none (some arg) = arg :=
  ⟨h, rfl⟩

end Pixell
