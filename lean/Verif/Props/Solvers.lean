import Verif.Lemmas.Solvers
import Mathlib.LinearAlgebra.Matrix.BilinearForm
import Mathlib.Algebra.Order.Field.Basic
import Mathlib.Algebra.Order.Field.Rat
import Mathlib.Tactic.Linarith
import Mathlib.Tactic.NormNum
import Mathlib.Tactic.Abel

/-
Properties C40 - C42: conjugate gradients, Minres, Jacobi inversion.
-/
namespace Pixell

variable {K V : Type} [Field K] [AddCommGroup V] [Module K V]

/-! ### C40: CG -/

/-- C40: after any number of steps, with or without a starting guess, the solver's residual is `b - A x`; `rz` is the
product of the residual with its preconditioned form, `err` its ratio to the initial value, and the counter counts.
This holds for every linear `A`, every `M` and every `dot`. -/
theorem C40_residual (A : V →ₗ[K] V) (M : V → V) (dot : V → V → K) (b : V) (x0 : Option V) (n : Nat) :
    let s := cgRun A M dot (cgInit A M dot b x0) n
    s.r = b - A s.x ∧ s.rz = dot s.r (M s.r) ∧ s.rz0 = (cgInit A M dot b x0).rz ∧ s.i = n ∧
      (0 < n → s.err = some (s.rz / s.rz0)) := by
  induction n with
  | zero =>
    refine ⟨?_, ?_, rfl, rfl, by simp⟩
    · cases x0 <;> simp [cgRun, cgInit]
    · cases x0 <;> simp [cgRun, cgInit]
  | succ n ih =>
    obtain ⟨h1, h2, h3, h4, _⟩ := ih
    simp only [cgRun, cgStep]
    refine ⟨?_, trivial, h3, by rw [h4], fun _ => trivial⟩
    rw [map_add, map_smul, h1]
    abel

/-- The residual and direction sequences of CG follow the conjugate recursion. -/
theorem cg_conjRec (A M : V →ₗ[K] V) (dot : LinearMap.BilinForm K V) (b : V) (x0 : Option V) :
    let s := fun n => cgRun A M (fun u v => dot u v) (cgInit A M (fun u v => dot u v) b x0) n
    ConjRec dot A M (fun n => (s n).r) (fun n => (s n).p) (fun n => (s n).rz) where
  p0 := by cases x0 <;> rfl
  rzk := fun k => (C40_residual A M (fun u v => dot u v) b x0 k).2.1
  rs := fun _ => rfl
  ps := fun _ => rfl

/-- C40: for self-adjoint `A` and `M` and a symmetric `dot`, and as long as no step divides by zero, all residuals are
mutually orthogonal with respect to `M`, all search directions are mutually conjugate with respect to `A`, and every
residual is orthogonal to all earlier directions. -/
theorem C40_orthogonal (A M : V →ₗ[K] V) (dot : LinearMap.BilinForm K V) (hsym : ∀ u v, dot u v = dot v u)
    (hA : SelfAdj dot A) (hM : SelfAdj dot M) (b : V) (x0 : Option V) (k : Nat)
    (s : Nat → CGState K V) (hs : s = cgRun A M (fun u v => dot u v) (cgInit A M (fun u v => dot u v) b x0))
    (hne : ∀ j < k, (s j).rz ≠ 0 ∧ dot (s j).p (A (s j).p) ≠ 0) :
    ∀ i j, i < j → j ≤ k → dot (s i).r (M (s j).r) = 0 ∧ dot (s i).p (A (s j).p) = 0 ∧ dot (s j).r (s i).p = 0 := by
  subst hs
  intro i j hij hjk
  have hrec := cg_conjRec A M dot b x0
  obtain ⟨h1, h2⟩ := conj_orth hsym hA hM hrec k hne j hjk i hij
  exact ⟨h1, h2, (conj_galerkin hsym hA hM hrec j fun l hl => hne l (by omega)).1 i hij⟩

/-- C40: in a space of dimension `n`, with definite self-adjoint `A` and `M`, CG solves the system exactly after at most
`n` steps, without dividing by zero on the way. -/
theorem C40_terminates [FiniteDimensional K V] (A M : V →ₗ[K] V) (dot : LinearMap.BilinForm K V)
    (hsym : ∀ u v, dot u v = dot v u) (hA : SelfAdj dot A) (hM : SelfAdj dot M) (hAd : ∀ v, dot v (A v) = 0 → v = 0)
    (hMd : ∀ v, dot v (M v) = 0 → v = 0) (b : V) (x0 : Option V)
    (s : Nat → CGState K V) (hs : s = cgRun A M (fun u v => dot u v) (cgInit A M (fun u v => dot u v) b x0)) :
    ∃ k ≤ Module.finrank K V, A (s k).x = b ∧ ∀ j < k, (s j).rz ≠ 0 ∧ dot (s j).p (A (s j).p) ≠ 0 := by
  subst hs
  obtain ⟨k, hk, h0, hne⟩ := conj_terminates hsym hA hM hAd (cg_conjRec A M dot b x0)
  refine ⟨k, hk, ?_, hne⟩
  obtain ⟨h1, h2, _⟩ := C40_residual A M (fun u v => dot u v) b x0 k
  have hr : (cgRun A M (fun u v => dot u v) (cgInit A M (fun u v => dot u v) b x0) k).r = 0 := hMd _ (by rw [← h2]; exact h0)
  rw [hr] at h1
  exact (sub_eq_zero.1 h1.symm).symm

/-- C40: over an ordered field with `A` positive, the iterate after `k` steps is the best approximation reachable with
the search directions used so far: adding any combination `c` of them does not lower the energy
`⟨x, A x⟩/2 - ⟨b, x⟩`. -/
theorem C40_optimal [LinearOrder K] [IsStrictOrderedRing K] (A M : V →ₗ[K] V) (dot : LinearMap.BilinForm K V)
    (hsym : ∀ u v, dot u v = dot v u) (hA : SelfAdj dot A) (hM : SelfAdj dot M) (hpos : ∀ v, 0 ≤ dot v (A v))
    (b : V) (x0 : Option V) (k : Nat)
    (s : Nat → CGState K V) (hs : s = cgRun A M (fun u v => dot u v) (cgInit A M (fun u v => dot u v) b x0))
    (hne : ∀ j < k, (s j).rz ≠ 0 ∧ dot (s j).p (A (s j).p) ≠ 0)
    (c : V) (hc : c ∈ Submodule.span K {v | ∃ j < k, v = (s j).p}) :
    dot (s k).x (A (s k).x) / 2 - dot b (s k).x ≤ dot ((s k).x + c) (A ((s k).x + c)) / 2 - dot b ((s k).x + c) := by
  subst hs
  set s := cgRun A M (fun u v => dot u v) (cgInit A M (fun u v => dot u v) b x0)
  have hg := (conj_galerkin hsym hA hM (cg_conjRec A M dot b x0) k hne).1
  have horth : dot (s k).r c = 0 := by
    induction hc using Submodule.span_induction with
    | mem v hv => obtain ⟨j, hj, rfl⟩ := hv; exact hg j hj
    | zero => simp
    | add u v _ _ h1 h2 => rw [map_add, h1, h2, add_zero]
    | smul a v _ h => rw [map_smul, h, smul_zero]
  have hr := (C40_residual A M (fun u v => dot u v) b x0 k).1
  change (s k).r = b - A (s k).x at hr
  rw [hr, map_sub, LinearMap.sub_apply] at horth
  have e1 : dot c (A (s k).x) = dot (A (s k).x) c := hsym _ _
  have e2 : dot (s k).x (A c) = dot (A (s k).x) c := (hA _ _).symm
  have := hpos c
  rw [map_add A, map_add, map_add, LinearMap.add_apply, LinearMap.add_apply, e1, e2, map_add]
  linarith

/-- C40: the iterate after `k` steps differs from the first one by a combination of the directions used so far. -/
theorem C40_affine (A M : V → V) (dot : V → V → K) (s0 : CGState K V) (k : Nat) :
    (cgRun A M dot s0 k).x - s0.x ∈ Submodule.span K {v | ∃ j < k, v = (cgRun A M dot s0 j).p} := by
  induction k with
  | zero => simp [cgRun]
  | succ k ih =>
    have hmono : Submodule.span K {v | ∃ j < k, v = (cgRun A M dot s0 j).p} ≤
        Submodule.span K {v | ∃ j < k + 1, v = (cgRun A M dot s0 j).p} := by
      apply Submodule.span_mono
      rintro v ⟨j, hj, e⟩
      exact ⟨j, by omega, e⟩
    have e : (cgRun A M dot s0 (k + 1)).x - s0.x = ((cgRun A M dot s0 k).x - s0.x) +
        ((cgRun A M dot s0 k).rz / dot (cgRun A M dot s0 k).p (A (cgRun A M dot s0 k).p)) • (cgRun A M dot s0 k).p := by
      simp only [cgRun, cgStep]
      abel
    rw [e]
    exact Submodule.add_mem _ (hmono ih) (Submodule.smul_mem _ _ (Submodule.subset_span ⟨k, by omega, rfl⟩))

/-- C40: a state that was saved and loaded into any other solver object for the same system continues with exactly the
same iterates. -/
theorem C40_resume (A M : V → V) (dot : V → V → K) (s fresh : CGState K V) (n : Nat) :
    cgRun A M dot (cgLoad fresh (cgSave s)) n = cgRun A M dot s n := by
  have : cgLoad fresh (cgSave s) = s := by cases s; cases fresh; rfl
  rw [this]

/-- C40: resuming in the middle is the same as not having stopped. -/
theorem C40_resume_middle (A M : V → V) (dot : V → V → K) (s fresh : CGState K V) (m n : Nat) :
    cgRun A M dot (cgLoad fresh (cgSave (cgRun A M dot s m))) n = cgRun A M dot s (m + n) := by
  rw [C40_resume]
  induction n with
  | zero => rfl
  | succ n ih => rw [cgRun, ih]; rfl

/-- A concrete system for the examples: `diag(1,2) x = (1,1)` in ℚ². -/
def exA (v : ℚ × ℚ) : ℚ × ℚ := (v.1, 2 * v.2)
def exDot (u v : ℚ × ℚ) : ℚ := u.1 * v.1 + u.2 * v.2

example : (cgRun exA id exDot (cgInit exA id exDot (1, 1) none) 1).x = (2/3, 2/3) ∧
    (cgRun exA id exDot (cgInit exA id exDot (1, 1) none) 2).x = (1, 1/2) ∧
    (cgRun exA id exDot (cgInit exA id exDot (1, 1) none) 2).rz = 0 := by
  simp only [cgRun, cgStep, cgInit, exA, exDot, id]
  norm_num

/-- The hypotheses of `C40_orthogonal`, `C40_terminates` and `C40_optimal` are met by the example system. -/
example : ∃ (A : (ℚ × ℚ) →ₗ[ℚ] (ℚ × ℚ)) (dot : LinearMap.BilinForm ℚ (ℚ × ℚ)), (∀ v, A v = exA v) ∧
    (∀ u v, dot u v = exDot u v) ∧ (∀ u v, dot u v = dot v u) ∧ SelfAdj dot A ∧ SelfAdj dot LinearMap.id ∧
    (∀ v, dot v (A v) = 0 → v = 0) ∧ (∀ v, dot v v = 0 → v = 0) ∧ (∀ v, 0 ≤ dot v (A v)) := by
  let A : (ℚ × ℚ) →ₗ[ℚ] (ℚ × ℚ) :=
    { toFun := exA
      map_add' := by intro u v; simp [exA]; ring
      map_smul' := by intro a v; simp [exA]; ring }
  let dot : LinearMap.BilinForm ℚ (ℚ × ℚ) := LinearMap.mk₂ ℚ exDot
    (by intro a b c; simp [exDot]; ring) (by intro a b c; simp [exDot]; ring)
    (by intro a b c; simp [exDot]; ring) (by intro a b c; simp [exDot]; ring)
  refine ⟨A, dot, fun _ => rfl, fun _ _ => rfl, ?_, ?_, ?_, ?_, ?_, ?_⟩
  · intro u v; show exDot u v = exDot v u; simp [exDot]; ring
  · intro u v; show exDot (exA u) v = exDot u (exA v); simp [exDot, exA]; ring
  · intro u v; rfl
  · intro v h
    have h : v.1 * v.1 + v.2 * (2 * v.2) = 0 := h
    have h1 : v.1 = 0 := by nlinarith [mul_self_nonneg v.1, mul_self_nonneg v.2]
    have h2 : v.2 = 0 := by nlinarith [mul_self_nonneg v.1, mul_self_nonneg v.2]
    exact Prod.ext h1 h2
  · intro v h
    have h : v.1 * v.1 + v.2 * v.2 = 0 := h
    have h1 : v.1 = 0 := by nlinarith [mul_self_nonneg v.1, mul_self_nonneg v.2]
    have h2 : v.2 = 0 := by nlinarith [mul_self_nonneg v.1, mul_self_nonneg v.2]
    exact Prod.ext h1 h2
  · intro v
    show 0 ≤ v.1 * v.1 + v.2 * (2 * v.2)
    nlinarith [mul_self_nonneg v.1, mul_self_nonneg v.2]

/-- With a preconditioner that returns a new array (as the default does) the in-place updates of CG do what the
formulas say. -/
theorem C40_memory (A M : V → V) (dot : V → V → K) (b : V) (x0 : Option V) (n : Nat) :
    (cgRunMem A M dot (cgInitMem true A M dot b x0) n).s = cgRun A M dot (cgInit A M dot b x0) n ∧
      (cgRunMem A M dot (cgInitMem true A M dot b x0) n).same = false := by
  induction n with
  | zero => exact ⟨rfl, rfl⟩
  | succ n ih =>
    obtain ⟨h1, h2⟩ := ih
    simp only [cgRunMem, cgRun, cgStepMem, h1, h2]
    exact ⟨rfl, trivial⟩

/-- C40 fails for a preconditioner that returns its argument, such as `M = lambda x: x`: direction and residual are then
one array, the first update of the residual overwrites the direction, the second direction is not conjugate to the
first, and the 2×2 system that takes two steps with the default preconditioner is not solved after two. -/
theorem C40_alias_refuted :
    (cgRunMem exA id exDot (cgInitMem true exA id exDot (1, 1) none) 2).s.x = (1, 1/2) ∧
    exDot (cgRunMem exA id exDot (cgInitMem false exA id exDot (1, 1) none) 0).s.p
      (exA (cgRunMem exA id exDot (cgInitMem false exA id exDot (1, 1) none) 1).s.p) ≠ 0 ∧
    exA (cgRunMem exA id exDot (cgInitMem false exA id exDot (1, 1) none) 2).s.x ≠ (1, 1) := by
  simp only [cgRunMem, cgStepMem, cgInitMem, cgInit, exA, exDot, id]
  norm_num

/-! ### C41: Minres -/

/-- C41: after any number of steps the residual is `b - A x`, `q = A p` and `rz` is the product of the residual with
its image. -/
theorem C41_residual (A : V →ₗ[K] V) (dot : V → V → K) (len : K) (b : V) (x0 : Option V) (n : Nat) :
    let s := minresRun A dot len (minresInit A dot len b x0) n
    s.r = b - A s.x ∧ s.q = A s.p ∧ s.rz = dot s.r (A s.r) ∧ s.i = n ∧ (0 < n → s.err = s.rz / s.rz0) ∧ s.abserr = s.rz / len := by
  induction n with
  | zero => cases x0 <;> simp [minresRun, minresInit]
  | succ n ih =>
    obtain ⟨h1, h2, h3, h4, _, _⟩ := ih
    simp only [minresRun, minresStep]
    refine ⟨?_, ?_, trivial, by rw [h4], fun _ => trivial, trivial⟩
    · rw [map_add, map_smul, ← h2, h1]; abel
    · rw [map_add, map_smul, ← h2]

example : (minresRun exA exDot 2 (minresInit exA exDot 2 (1, 1) none) 2).x = (1, 1/2) := by
  simp only [minresRun, minresStep, minresInit, exA, exDot]
  norm_num

theorem minres_conjRec (A : V →ₗ[K] V) (dot : LinearMap.BilinForm K V) (len : K) (b : V) (x0 : Option V) :
    let s := fun n => minresRun A (fun u v => dot u v) len (minresInit A (fun u v => dot u v) len b x0) n
    ConjRec dot LinearMap.id A (fun n => (s n).r) (fun n => (s n).q) (fun n => (s n).rz) where
  p0 := by cases x0 <;> rfl
  rzk := fun k => (C41_residual A (fun u v => dot u v) len b x0 k).2.2.1
  rs := fun _ => rfl
  ps := fun k => by
    show _ • _ + A _ = A _ + _ • _
    rw [add_comm]
    rfl

/-- C41: for self-adjoint `A`, and as long as no step divides by zero, the images of the directions are mutually
orthogonal, residuals are mutually `A`-orthogonal, and each residual is orthogonal to all earlier images. -/
theorem C41_orthogonal (A : V →ₗ[K] V) (dot : LinearMap.BilinForm K V) (hsym : ∀ u v, dot u v = dot v u)
    (hA : SelfAdj dot A) (len : K) (b : V) (x0 : Option V) (k : Nat) (s : Nat → MinresState K V)
    (hs : s = minresRun A (fun u v => dot u v) len (minresInit A (fun u v => dot u v) len b x0))
    (hne : ∀ j < k, (s j).rz ≠ 0 ∧ dot (s j).q (s j).q ≠ 0) :
    ∀ i j, i < j → j ≤ k → dot (s i).r (A (s j).r) = 0 ∧ dot (s i).q (s j).q = 0 ∧ dot (s j).r (s i).q = 0 := by
  subst hs
  intro i j hij hjk
  have hrec := minres_conjRec A dot len b x0
  have hid : SelfAdj dot (LinearMap.id : V →ₗ[K] V) := fun _ _ => rfl
  obtain ⟨h1, h2⟩ := conj_orth hsym hid hA hrec k hne j hjk i hij
  exact ⟨h1, h2, (conj_galerkin hsym hid hA hrec j fun l hl => hne l (by omega)).1 i hij⟩

/-- C41: in a space of dimension `n` with a definite product and definite self-adjoint `A`, Minres solves the system
exactly after at most `n` steps. -/
theorem C41_terminates [FiniteDimensional K V] (A : V →ₗ[K] V) (dot : LinearMap.BilinForm K V)
    (hsym : ∀ u v, dot u v = dot v u) (hA : SelfAdj dot A) (hd : ∀ v, dot v v = 0 → v = 0)
    (hAd : ∀ v, dot v (A v) = 0 → v = 0) (len : K) (b : V) (x0 : Option V) (s : Nat → MinresState K V)
    (hs : s = minresRun A (fun u v => dot u v) len (minresInit A (fun u v => dot u v) len b x0)) :
    ∃ k ≤ Module.finrank K V, A (s k).x = b ∧ ∀ j < k, (s j).rz ≠ 0 ∧ dot (s j).q (s j).q ≠ 0 := by
  subst hs
  have hid : SelfAdj dot (LinearMap.id : V →ₗ[K] V) := fun _ _ => rfl
  obtain ⟨k, hk, h0, hne⟩ := conj_terminates hsym hid hA hd (minres_conjRec A dot len b x0)
  refine ⟨k, hk, ?_, hne⟩
  obtain ⟨h1, _, h2, _⟩ := C41_residual A (fun u v => dot u v) len b x0 k
  have hr : (minresRun A (fun u v => dot u v) len (minresInit A (fun u v => dot u v) len b x0) k).r = 0 :=
    hAd _ (by rw [← h2]; exact h0)
  rw [hr] at h1
  exact (sub_eq_zero.1 h1.symm).symm

/-- C41: over an ordered field with a positive product, the residual is the smallest reachable: adding any combination
of the directions used so far to the iterate does not make `|b - A x|²` smaller. -/
theorem C41_optimal [LinearOrder K] [IsStrictOrderedRing K] (A : V →ₗ[K] V) (dot : LinearMap.BilinForm K V)
    (hsym : ∀ u v, dot u v = dot v u) (hA : SelfAdj dot A) (hpos : ∀ v, 0 ≤ dot v v) (len : K)
    (b : V) (x0 : Option V) (k : Nat) (s : Nat → MinresState K V)
    (hs : s = minresRun A (fun u v => dot u v) len (minresInit A (fun u v => dot u v) len b x0))
    (hne : ∀ j < k, (s j).rz ≠ 0 ∧ dot (s j).q (s j).q ≠ 0)
    (c : V) (hc : c ∈ Submodule.span K {v | ∃ j < k, v = (s j).p}) :
    dot (b - A (s k).x) (b - A (s k).x) ≤ dot (b - A ((s k).x + c)) (b - A ((s k).x + c)) := by
  subst hs
  set s := minresRun A (fun u v => dot u v) len (minresInit A (fun u v => dot u v) len b x0)
  have hid : SelfAdj dot (LinearMap.id : V →ₗ[K] V) := fun _ _ => rfl
  have hg := (conj_galerkin hsym hid hA (minres_conjRec A dot len b x0) k hne).1
  have horth : dot (s k).r (A c) = 0 := by
    induction hc using Submodule.span_induction with
    | mem v hv =>
      obtain ⟨j, hj, rfl⟩ := hv
      have hq := (C41_residual A (fun u v => dot u v) len b x0 j).2.1
      change (s j).q = A (s j).p at hq
      rw [← hq]; exact hg j hj
    | zero => simp
    | add u v _ _ h1 h2 => rw [map_add, map_add, h1, h2, add_zero]
    | smul a v _ h => rw [map_smul, map_smul, h, smul_zero]
  have hr := (C41_residual A (fun u v => dot u v) len b x0 k).1
  change (s k).r = b - A (s k).x at hr
  rw [map_add, ← sub_sub, ← hr, LinearMap.BilinForm.sub_left, map_sub, map_sub, hsym (A c) (s k).r, horth]
  have := hpos (A c)
  linarith

/-! ### C42: jacobi_inverse -/

/-- C42: for linear operators and `y = F x` the error after `niter` iterations is `-(1 - B F)^(niter+1) x`. -/
theorem C42_error {R X Y : Type} [CommRing R] [AddCommGroup X] [Module R X] [AddCommGroup Y] [Module R Y]
    (F : X →ₗ[R] Y) (B : Y →ₗ[R] X) (x : X) (niter : Nat) :
    jacobiInverse F B (F x) niter - x = -(((LinearMap.id - B.comp F : X →ₗ[R] X) ^ (niter + 1)) x) := by
  unfold jacobiInverse
  induction niter with
  | zero => simp
  | succ n ih =>
    rw [List.range_succ, List.foldl_append, List.foldl_cons, List.foldl_nil]
    generalize (List.range n).foldl (fun x_1 _ => x_1 - B (F x_1 - F x)) (B (F x)) = w at *
    rw [pow_succ', Module.End.mul_apply, ← neg_eq_iff_eq_neg.2 ih, ← map_sub]
    simp
    abel

/-- C42: if `B` inverts `F`, the input is recovered for every number of iterations. -/
theorem C42_exact {R X Y : Type} [CommRing R] [AddCommGroup X] [Module R X] [AddCommGroup Y] [Module R Y]
    (F : X →ₗ[R] Y) (B : Y →ₗ[R] X) (h : ∀ x, B (F x) = x) (x : X) (niter : Nat) :
    jacobiInverse F B (F x) niter = x := by
  have e := C42_error F B x niter
  have : (LinearMap.id - B.comp F : X →ₗ[R] X) = 0 := by ext v; simp [h]
  rw [this, pow_succ, mul_zero] at e
  simpa [sub_eq_zero] using e

/-- C42: once the residual is zero (or only invisible to `B`), more iterations change nothing - also for operators that
are not linear. -/
theorem C42_fixed {X Y : Type} [AddCommGroup X] [AddCommGroup Y] (F : X → Y) (B : Y → X) (y : Y) (n : Nat)
    (h : B (F (jacobiInverse F B y n) - y) = 0) (k : Nat) : jacobiInverse F B y (n + k) = jacobiInverse F B y n := by
  induction k with
  | zero => rfl
  | succ k ih =>
    have : jacobiInverse F B y (n + (k + 1)) = jacobiInverse F B y (n + k) - B (F (jacobiInverse F B y (n + k)) - y) := by
      unfold jacobiInverse
      rw [← Nat.add_assoc, List.range_succ, List.foldl_append]; rfl
    rw [this, ih, h, sub_zero]

example : jacobiInverse (fun x : ℚ => 2 * x) (fun y : ℚ => y / 3) 6 2 = 26 / 9 := by
  simp [jacobiInverse, List.range_succ]; norm_num
example : (26 / 9 - 3 : ℚ) = -((1 - 2/3) ^ (2 + 1) * 3) := by norm_num

end Pixell
