import Verif.Model.Solvers
import Mathlib.LinearAlgebra.BilinearForm.Properties
import Mathlib.LinearAlgebra.BilinearForm.Orthogonal
import Mathlib.LinearAlgebra.Dimension.Finite
import Mathlib.LinearAlgebra.FiniteDimensional.Basic
import Mathlib.Tactic.LinearCombination
import Mathlib.Tactic.FieldSimp

namespace Pixell

variable {K V : Type} [Field K] [AddCommGroup V] [Module K V]

/-- Self-adjoint with respect to a form. -/
def SelfAdj (dot : LinearMap.BilinForm K V) (A : V →ₗ[K] V) : Prop := ∀ u v, dot (A u) v = dot u (A v)

/-- The recursion shared by CG (`D = A`) and Minres (`D = id`, directions `q`, `M = A`). -/
structure ConjRec (dot : LinearMap.BilinForm K V) (D M : V →ₗ[K] V) (r p : Nat → V) (rz : Nat → K) : Prop where
  p0 : p 0 = M (r 0)
  rzk : ∀ k, rz k = dot (r k) (M (r k))
  rs : ∀ k, r (k + 1) = r k - (rz k / dot (p k) (D (p k))) • D (p k)
  ps : ∀ k, p (k + 1) = M (r (k + 1)) + (rz (k + 1) / rz k) • p k

theorem conj_orth {dot : LinearMap.BilinForm K V} (hsym : ∀ u v, dot u v = dot v u) {D M : V →ₗ[K] V}
    (hD : SelfAdj dot D) (hM : SelfAdj dot M) {r p : Nat → V} {rz : Nat → K} (h : ConjRec dot D M r p rz) (k : Nat)
    (hne : ∀ j < k, rz j ≠ 0 ∧ dot (p j) (D (p j)) ≠ 0) :
    ∀ j ≤ k, ∀ i < j, dot (r i) (M (r j)) = 0 ∧ dot (p i) (D (p j)) = 0 := by
  induction k with
  | zero => intro j hj i hi; omega
  | succ k ih =>
    have ih := ih fun j hj => hne j (by omega)
    intro j hj i hi
    rcases Nat.lt_or_ge k j with hkj | hkj
    swap
    · exact ih j hkj i hi
    have : j = k + 1 := by omega
    subst this
    -- z_i in terms of the directions
    have hz : ∀ i, i ≤ k → dot (M (r i)) (D (p k)) = if i = k then dot (p k) (D (p k)) else 0 := by
      intro i hi
      cases i with
      | zero =>
        rw [← h.p0]
        by_cases e : 0 = k
        · subst e; simp
        · rw [if_neg e]; exact (ih k (le_refl _) 0 (by omega)).2
      | succ i =>
        have hm : M (r (i + 1)) = p (i + 1) - (rz (i + 1) / rz i) • p i := by rw [h.ps i]; abel
        rw [hm, map_sub, LinearMap.sub_apply, map_smul, LinearMap.smul_apply, (ih k (le_refl _) i (by omega)).2, smul_zero,
          sub_zero]
        by_cases e : i + 1 = k
        · rw [if_pos e, ← e]
        · rw [if_neg e]; exact (ih k (le_refl _) (i + 1) (by omega)).2
    obtain ⟨hk1, hk2⟩ := hne k (by omega)
    have first : ∀ i, i ≤ k → dot (r i) (M (r (k + 1))) = 0 := by
      intro i hi
      have e1 : dot (r i) (M (r (k + 1))) = dot (M (r i)) (r (k + 1)) := (hM _ _).symm
      rw [e1, h.rs k, map_sub, map_smul, hz i hi]
      by_cases e : i = k
      · subst e
        rw [if_pos rfl, hsym (M (r i)) (r i), ← h.rzk, smul_eq_mul]
        field_simp
        ring
      · rw [if_neg e, hM, (ih k (le_refl _) i (by omega)).1]; simp
    refine ⟨first i (by omega), ?_⟩
    -- D p_i in terms of residuals
    have hi' : i ≤ k := by omega
    obtain ⟨hi1, hi2⟩ := hne i (by omega)
    have hDp : D (p i) = (dot (p i) (D (p i)) / rz i) • (r i - r (i + 1)) := by
      rw [h.rs i, sub_sub_cancel, smul_smul]
      have : dot (p i) (D (p i)) / rz i * (rz i / dot (p i) (D (p i))) = 1 := by field_simp
      rw [this, one_smul]
    rw [← hD, h.ps k, map_add, map_smul]
    by_cases e : i = k
    · subst e
      rw [hsym (D (p i)) (p i)]
      have e2 : dot (D (p i)) (M (r (i + 1))) = -(dot (p i) (D (p i)) / rz i) * rz (i + 1) := by
        rw [hDp, map_smul, LinearMap.smul_apply, map_sub, LinearMap.sub_apply, first i (le_refl _), ← h.rzk, smul_eq_mul]
        rw [← hDp]
        ring
      rw [e2, smul_eq_mul]
      field_simp
      ring
    · have hik : i < k := by omega
      rw [hD (p i) (p k), (ih k (le_refl _) i hik).2, hDp, map_smul, LinearMap.smul_apply, map_sub, LinearMap.sub_apply,
        first i hi', first (i + 1) (by omega)]
      simp

/-- The residual is orthogonal to all earlier directions, and its product with the current one is `rz`. -/
theorem conj_galerkin {dot : LinearMap.BilinForm K V} (hsym : ∀ u v, dot u v = dot v u) {D M : V →ₗ[K] V}
    (hD : SelfAdj dot D) (hM : SelfAdj dot M) {r p : Nat → V} {rz : Nat → K} (h : ConjRec dot D M r p rz) (k : Nat)
    (hne : ∀ j < k, rz j ≠ 0 ∧ dot (p j) (D (p j)) ≠ 0) :
    (∀ j < k, dot (r k) (p j) = 0) ∧ dot (r k) (p k) = rz k := by
  have ho := conj_orth hsym hD hM h k hne k (le_refl _)
  have h1 : ∀ j < k, dot (r k) (p j) = 0 := by
    intro j
    induction j with
    | zero =>
      intro hj
      rw [h.p0, ← hM, hsym]
      exact (ho 0 hj).1
    | succ j ih =>
      intro hj
      rw [h.ps j, map_add, map_smul, ih (by omega), ← hM, hsym, (ho (j + 1) hj).1]
      simp
  refine ⟨h1, ?_⟩
  cases k with
  | zero => rw [h.p0, h.rzk]
  | succ k =>
    rw [h.ps k, map_add, map_smul, h1 k (by omega), ← h.rzk]
    simp

/-- Without breakdown before it, the recursion reaches `rz = 0` within the dimension of the space. -/
theorem conj_terminates [FiniteDimensional K V] {dot : LinearMap.BilinForm K V} (hsym : ∀ u v, dot u v = dot v u)
    {D M : V →ₗ[K] V} (hD : SelfAdj dot D) (hM : SelfAdj dot M) (hDd : ∀ v, dot v (D v) = 0 → v = 0)
    {r p : Nat → V} {rz : Nat → K} (h : ConjRec dot D M r p rz) :
    ∃ k ≤ Module.finrank K V, rz k = 0 ∧ ∀ j < k, rz j ≠ 0 ∧ dot (p j) (D (p j)) ≠ 0 := by
  classical
  by_contra hc
  have hall : ∀ k ≤ Module.finrank K V, rz k ≠ 0 ∧ dot (p k) (D (p k)) ≠ 0 := by
    intro k
    induction k using Nat.strong_induction_on with
    | _ k ih =>
      intro hk
      have hne : ∀ j < k, rz j ≠ 0 ∧ dot (p j) (D (p j)) ≠ 0 := fun j hj => ih j hj (by omega)
      have h0 : rz k ≠ 0 := fun h0 => hc ⟨k, hk, h0, hne⟩
      refine ⟨h0, fun hp => ?_⟩
      have hg := (conj_galerkin hsym hD hM h k hne).2
      rw [hDd _ hp, map_zero] at hg
      exact h0 hg.symm
  set n := Module.finrank K V
  have ho := conj_orth hsym hD hM h n fun j hj => hall j (by omega)
  let B : LinearMap.BilinForm K V := dot.compl₂ M
  have hind : LinearIndependent K fun i : Fin (n + 1) => r i := by
    apply LinearMap.BilinForm.linearIndependent_of_iIsOrtho (B := B)
    · rw [LinearMap.BilinForm.iIsOrtho_def]
      intro i j hij
      show dot (r i) (M (r j)) = 0
      rcases Nat.lt_or_ge i.1 j.1 with hlt | hge
      · exact (ho j (by omega) i hlt).1
      · have hlt : j.1 < i.1 := by
          have : i.1 ≠ j.1 := fun e => hij (Fin.ext e)
          omega
        rw [← hM, hsym]
        exact (ho i (by omega) j hlt).1
    · intro i hi
      have : dot (r i) (M (r i)) = 0 := hi
      rw [← h.rzk] at this
      exact (hall i (by omega)).1 this
  have := hind.fintype_card_le_finrank
  simp at this
  exact absurd this (Nat.lt_irrefl _)

end Pixell
