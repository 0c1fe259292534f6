import Verif.Model.MatPow
import Mathlib.LinearAlgebra.Matrix.PosDef
import Mathlib.Analysis.Matrix.PosDef
import Mathlib.Algebra.Order.Star.Real
import Mathlib.Order.ConditionallyCompleteLattice.Finset
import Mathlib.Tactic.FieldSimp
import Mathlib.Tactic.Linarith
import Mathlib.Tactic.NormNum
/-
C132: powers of matrices, conditional distributions, correlations.
-/
namespace Pixell
open Matrix

/-- Specification of np.linalg.eigh: V is orthogonal and A is V diag(E) Vᵀ. -/
structure IsEigh {n : ℕ} (A : Matrix (Fin n) (Fin n) ℝ) (E : Fin n → ℝ) (V : Matrix (Fin n) (Fin n) ℝ) : Prop where
  left : Vᵀ * V = 1
  right : V * Vᵀ = 1
  eq : A = V * (diagonal E * Vᵀ)

/-- The matrix function with values f on the eigenvalues. -/
def eigFun {n : ℕ} (V : Matrix (Fin n) (Fin n) ℝ) (d : Fin n → ℝ) : Matrix (Fin n) (Fin n) ℝ := V * (diagonal d * Vᵀ)

theorem eigFun_mul {n : ℕ} {A : Matrix (Fin n) (Fin n) ℝ} {E : Fin n → ℝ} {V : Matrix (Fin n) (Fin n) ℝ} (h : IsEigh A E V)
    (d d' : Fin n → ℝ) : eigFun V d * eigFun V d' = eigFun V (fun i => d i * d' i) := by
  unfold eigFun
  calc V * (diagonal d * Vᵀ) * (V * (diagonal d' * Vᵀ))
      = V * (diagonal d * ((Vᵀ * V) * (diagonal d' * Vᵀ))) := by simp only [Matrix.mul_assoc]
    _ = V * (diagonal (fun i => d i * d' i) * Vᵀ) := by
        rw [h.left, Matrix.one_mul, ← Matrix.mul_assoc (diagonal d), diagonal_mul_diagonal]

theorem eigFun_one {n : ℕ} {A : Matrix (Fin n) (Fin n) ℝ} {E : Fin n → ℝ} {V : Matrix (Fin n) (Fin n) ℝ} (h : IsEigh A E V) :
    eigFun V (fun _ => 1) = 1 := by
  unfold eigFun
  rw [diagonal_one, Matrix.one_mul, h.right]

theorem eigFun_symm {n : ℕ} (V : Matrix (Fin n) (Fin n) ℝ) (d : Fin n → ℝ) : (eigFun V d)ᵀ = eigFun V d := by
  unfold eigFun
  simp [Matrix.transpose_mul, Matrix.mul_assoc]

theorem eigpow_eq {n : ℕ} (E : Fin n → ℝ) (V : Matrix (Fin n) (Fin n) ℝ) (e rlim alim : ℝ) :
    eigpow E V e rlim alim = eigFun V (powEig e rlim alim (fun _ => ⨆ j, |E j|) E) := rfl

/-- The change between two bases of eigenvectors only connects equal eigenvalues. -/
theorem eigh_connect {n : ℕ} {A : Matrix (Fin n) (Fin n) ℝ} {E E' : Fin n → ℝ} {V V' : Matrix (Fin n) (Fin n) ℝ}
    (h : IsEigh A E V) (h' : IsEigh A E' V') (k i : Fin n) (hw : (V'ᵀ * V) k i ≠ 0) : E' k = E i := by
  have e1 : V'ᵀ * V * diagonal E = diagonal E' * (V'ᵀ * V) := by
    have a1 : A * V = V * diagonal E := by
      conv_lhs => rw [h.eq]
      rw [Matrix.mul_assoc, Matrix.mul_assoc, h.left, Matrix.mul_one]
    have a2 : V'ᵀ * A = diagonal E' * V'ᵀ := by
      conv_lhs => rw [h'.eq]
      rw [← Matrix.mul_assoc, h'.left, Matrix.one_mul]
    rw [Matrix.mul_assoc, ← a1, ← Matrix.mul_assoc, a2, Matrix.mul_assoc]
  have e2 := congrFun (congrFun e1 k) i
  rw [Matrix.mul_diagonal, Matrix.diagonal_mul, mul_comm] at e2
  exact (mul_right_cancel₀ hw e2).symm

theorem eigh_range {n : ℕ} {A : Matrix (Fin n) (Fin n) ℝ} {E E' : Fin n → ℝ} {V V' : Matrix (Fin n) (Fin n) ℝ}
    (h : IsEigh A E V) (h' : IsEigh A E' V') (i : Fin n) : ∃ k, E' k = E i := by
  by_contra hn
  have hz : ∀ k, (V'ᵀ * V) k i = 0 := by
    intro k
    by_contra hw
    exact hn ⟨k, eigh_connect h h' k i hw⟩
  have h1 : (V'ᵀ * V)ᵀ * (V'ᵀ * V) = 1 := by
    rw [Matrix.transpose_mul, Matrix.transpose_transpose]
    calc Vᵀ * V' * (V'ᵀ * V) = Vᵀ * ((V' * V'ᵀ) * V) := by simp only [Matrix.mul_assoc]
      _ = 1 := by rw [h'.right, Matrix.one_mul, h.left]
  have h2 := congrFun (congrFun h1 i) i
  rw [Matrix.mul_apply, Matrix.one_apply_eq] at h2
  rw [Finset.sum_eq_zero] at h2
  · exact zero_ne_one h2
  · intro k _
    rw [hz k, mul_zero]

theorem eigFun_unique {n : ℕ} {A : Matrix (Fin n) (Fin n) ℝ} {E E' : Fin n → ℝ} {V V' : Matrix (Fin n) (Fin n) ℝ}
    (h : IsEigh A E V) (h' : IsEigh A E' V') (f : ℝ → ℝ) : eigFun V (fun i => f (E i)) = eigFun V' (fun i => f (E' i)) := by
  have e1 : V'ᵀ * V * diagonal (fun i => f (E i)) = diagonal (fun i => f (E' i)) * (V'ᵀ * V) := by
    ext k i
    rw [Matrix.mul_diagonal, Matrix.diagonal_mul]
    by_cases hw : (V'ᵀ * V) k i = 0
    · rw [hw]; ring
    · rw [eigh_connect h h' k i hw]; ring
  unfold eigFun
  calc V * (diagonal (fun i => f (E i)) * Vᵀ)
      = V' * V'ᵀ * (V * (diagonal (fun i => f (E i)) * Vᵀ)) := by rw [h'.right, Matrix.one_mul]
    _ = V' * ((V'ᵀ * V * diagonal (fun i => f (E i))) * Vᵀ) := by simp only [Matrix.mul_assoc]
    _ = V' * (diagonal (fun i => f (E' i)) * (V'ᵀ * (V * Vᵀ))) := by rw [e1]; simp only [Matrix.mul_assoc]
    _ = V' * (diagonal (fun i => f (E' i)) * V'ᵀ) := by rw [h.right, Matrix.mul_one]

theorem eigh_sup {n : ℕ} {A : Matrix (Fin n) (Fin n) ℝ} {E E' : Fin n → ℝ} {V V' : Matrix (Fin n) (Fin n) ℝ}
    (h : IsEigh A E V) (h' : IsEigh A E' V') : (⨆ j, |E j|) = ⨆ j, |E' j| := by
  have hr : Set.range (fun j => |E j|) = Set.range (fun j => |E' j|) := by
    ext x
    constructor
    · rintro ⟨i, rfl⟩
      obtain ⟨k, hk⟩ := eigh_range h h' i
      exact ⟨k, by simp only [hk]⟩
    · rintro ⟨i, rfl⟩
      obtain ⟨k, hk⟩ := eigh_range h' h i
      exact ⟨k, by simp only [hk]⟩
  unfold iSup
  rw [hr]

/-- C132: the power does not depend on the eigenvectors found, also for repeated eigenvalues. -/
theorem C132_unique {n : ℕ} {A : Matrix (Fin n) (Fin n) ℝ} {E E' : Fin n → ℝ} {V V' : Matrix (Fin n) (Fin n) ℝ}
    (h : IsEigh A E V) (h' : IsEigh A E' V') (e rlim alim : ℝ) : eigpow E V e rlim alim = eigpow E' V' e rlim alim := by
  rw [eigpow_eq, eigpow_eq, eigh_sup h h']
  exact eigFun_unique h h' (fun x => powEig e rlim alim (fun _ : Unit => ⨆ j, |E' j|) (fun _ => x) ())

/-- C132: it is symmetric. -/
theorem C132_symm {n : ℕ} (E : Fin n → ℝ) (V : Matrix (Fin n) (Fin n) ℝ) (e rlim alim : ℝ) :
    (eigpow E V e rlim alim)ᵀ = eigpow E V e rlim alim := eigFun_symm V _

/-- C132: for whole powers of any symmetric matrix it is the product of factors A. -/
theorem C132_nat {n : ℕ} {A : Matrix (Fin n) (Fin n) ℝ} {E : Fin n → ℝ} {V : Matrix (Fin n) (Fin n) ℝ} (h : IsEigh A E V)
    (k : ℕ) (rlim alim : ℝ) : eigpow E V k rlim alim = A ^ k := by
  have e1 : powEig (k : ℝ) rlim alim (fun _ => ⨆ j, |E j|) E = fun i => E i ^ k := by
    funext i
    unfold powEig
    rw [if_neg, Real.rpow_natCast]
    rintro (⟨hk, _⟩ | ⟨hk, _⟩)
    · exact hk ⟨k, by simp⟩
    · exact absurd hk (by simp)
  rw [eigpow_eq, e1]
  induction k with
  | zero => simpa using eigFun_one h
  | succ k ih =>
    have e2 : ∀ k : ℕ, powEig (k : ℝ) rlim alim (fun _ => ⨆ j, |E j|) E = fun i => E i ^ k := by
      intro k
      funext i
      unfold powEig
      rw [if_neg, Real.rpow_natCast]
      rintro (⟨hk, _⟩ | ⟨hk, _⟩)
      · exact hk ⟨k, by simp⟩
      · exact absurd hk (by simp)
    rw [pow_succ, ← ih (e2 k)]
    have e3 : A = eigFun V E := h.eq
    conv_rhs => rw [e3]
    rw [eigFun_mul h]
    simp only [pow_succ]

/-- Whether an eigenvalue is kept for negative powers: not below the limits. -/
def AboveLimits {n : ℕ} (E : Fin n → ℝ) (rlim alim : ℝ) (i : Fin n) : Prop := (⨆ j, |E j|) * rlim ≤ |E i| ∧ alim ≤ |E i|

theorem powEig_pos {n : ℕ} {E : Fin n → ℝ} {rlim alim : ℝ} {i : Fin n} (hE : 0 ≤ E i) (e : ℝ)
    (hl : 0 ≤ e ∨ AboveLimits E rlim alim i) : powEig e rlim alim (fun _ => ⨆ j, |E j|) E i = E i ^ e := by
  unfold powEig
  rw [if_neg]
  rintro (⟨_, hk⟩ | ⟨he, hk⟩)
  · linarith
  · rcases hl with hl | hl
    · linarith
    · rcases hk with hk | hk
      · exact absurd hl.1 (not_le.2 hk)
      · exact absurd hl.2 (not_le.2 hk)

/-- C132: the inverse, for matrices of any sign with all eigenvalues above the limits. -/
theorem C132_inv {n : ℕ} {A : Matrix (Fin n) (Fin n) ℝ} {E : Fin n → ℝ} {V : Matrix (Fin n) (Fin n) ℝ} (h : IsEigh A E V)
    (rlim alim : ℝ) (hE : ∀ i, E i ≠ 0) (hl : ∀ i, AboveLimits E rlim alim i) :
    eigpow E V (-1) rlim alim * A = 1 ∧ A * eigpow E V (-1) rlim alim = 1 := by
  have e1 : powEig (-1) rlim alim (fun _ => ⨆ j, |E j|) E = fun i => (E i)⁻¹ := by
    funext i
    unfold powEig
    rw [if_neg, Real.rpow_neg_one]
    rintro (⟨hk, _⟩ | ⟨_, hk⟩)
    · exact hk ⟨-1, by simp⟩
    · rcases hk with hk | hk
      · exact absurd (hl i).1 (not_le.2 hk)
      · exact absurd (hl i).2 (not_le.2 hk)
  have e3 : A = eigFun V E := h.eq
  rw [eigpow_eq, e1]
  constructor
  · conv_lhs => rw [e3]
    rw [eigFun_mul h, ← eigFun_one h]
    congr 1
    funext i
    exact inv_mul_cancel₀ (hE i)
  · conv_lhs => rw [e3]
    rw [eigFun_mul h, ← eigFun_one h]
    congr 1
    funext i
    exact mul_inv_cancel₀ (hE i)

/-- C132: exponents add, for matrices with positive eigenvalues above the limits. -/
theorem C132_add {n : ℕ} {A : Matrix (Fin n) (Fin n) ℝ} {E : Fin n → ℝ} {V : Matrix (Fin n) (Fin n) ℝ} (h : IsEigh A E V)
    (rlim alim a b : ℝ) (hE : ∀ i, 0 < E i) (hl : ∀ i, AboveLimits E rlim alim i) :
    eigpow E V a rlim alim * eigpow E V b rlim alim = eigpow E V (a + b) rlim alim := by
  rw [eigpow_eq, eigpow_eq, eigpow_eq, eigFun_mul h]
  congr 1
  funext i
  rw [powEig_pos (hE i).le a (Or.inr (hl i)), powEig_pos (hE i).le b (Or.inr (hl i)),
    powEig_pos (hE i).le (a + b) (Or.inr (hl i)), Real.rpow_add (hE i)]

/-- C132: the power 1/2 of a matrix without negative eigenvalues is its square root. -/
theorem C132_sqrt {n : ℕ} {A : Matrix (Fin n) (Fin n) ℝ} {E : Fin n → ℝ} {V : Matrix (Fin n) (Fin n) ℝ} (h : IsEigh A E V)
    (rlim alim : ℝ) (hE : ∀ i, 0 ≤ E i) : eigpow E V (1 / 2) rlim alim * eigpow E V (1 / 2) rlim alim = A := by
  have e3 : A = eigFun V E := h.eq
  rw [eigpow_eq, eigFun_mul h]
  conv_rhs => rw [e3]
  congr 1
  funext i
  rw [powEig_pos (hE i) (1 / 2) (Or.inl (by norm_num)), ← Real.rpow_add_of_nonneg (hE i) (by norm_num) (by norm_num)]
  norm_num

/-- C132: for singular matrices the power -1 is the pseudo-inverse: zero eigenvalues stay zero. -/
theorem C132_pinv {n : ℕ} {A : Matrix (Fin n) (Fin n) ℝ} {E : Fin n → ℝ} {V : Matrix (Fin n) (Fin n) ℝ} (h : IsEigh A E V)
    (rlim alim : ℝ) (ha : 0 < alim) (hE : ∀ i, E i = 0 ∨ AboveLimits E rlim alim i) :
    let P := eigpow E V (-1) rlim alim
    A * P * A = A ∧ P * A * P = P ∧ (A * P)ᵀ = A * P ∧ (P * A)ᵀ = P * A := by
  have e1 : powEig (-1) rlim alim (fun _ => ⨆ j, |E j|) E = fun i => (E i)⁻¹ := by
    funext i
    unfold powEig
    rcases hE i with h0 | hl
    · rw [if_pos, h0, _root_.inv_zero]
      right
      refine ⟨by norm_num, Or.inr ?_⟩
      rw [h0, abs_zero]; exact ha
    · rw [if_neg, Real.rpow_neg_one]
      rintro (⟨hk, _⟩ | ⟨_, hk⟩)
      · exact hk ⟨-1, by simp⟩
      · rcases hk with hk | hk
        · exact absurd hl.1 (not_le.2 hk)
        · exact absurd hl.2 (not_le.2 hk)
  have e3 : A = eigFun V E := h.eq
  intro P
  have eP : P = eigFun V fun i => (E i)⁻¹ := by
    show eigpow E V (-1) rlim alim = _
    rw [eigpow_eq, e1]
  rw [eP, e3]
  simp only [eigFun_mul h, eigFun_symm, and_true]
  constructor
  · congr 1
    funext i
    by_cases h0 : E i = 0
    · simp [h0]
    · field_simp
  · congr 1
    funext i
    by_cases h0 : E i = 0
    · simp [h0]
    · field_simp

example : IsEigh (diagonal ![4, 9]) ![4, 9] (1 : Matrix (Fin 2) (Fin 2) ℝ) :=
  ⟨by simp, by simp, by simp⟩
example : AboveLimits ![4, 9] (1 / 100) (1 / 100) (0 : Fin 2) := by
  have hs : (⨆ j : Fin 2, |(![4, 9] : Fin 2 → ℝ) j|) ≤ 9 := by
    apply ciSup_le
    intro j
    fin_cases j <;> norm_num
  refine ⟨?_, ?_⟩
  · have : |(![4, 9] : Fin 2 → ℝ) 0| = 4 := by norm_num
    rw [this]; linarith
  · norm_num

/-- Full claim: in a stack of matrices each is raised to the power as if it were alone. -/
def C132_stack_claim {a b n : ℕ} (E : Fin a → Fin b → Fin n → ℝ) (V : Fin a → Fin b → Matrix (Fin n) (Fin n) ℝ)
    (e rlim alim : ℝ) : Prop := ∀ i j, eigpowStack E V e rlim alim i j = eigpow (E i j) (V i j) e rlim alim

/-- C132: it holds for powers that are not negative. -/
theorem C132_stack_partial {a b n : ℕ} (E : Fin a → Fin b → Fin n → ℝ) (V : Fin a → Fin b → Matrix (Fin n) (Fin n) ℝ)
    (e rlim alim : ℝ) (he : 0 ≤ e) : C132_stack_claim E V e rlim alim := by
  intro i j
  have : ∀ mx : Fin n → ℝ, powEig e rlim alim mx (E i j) = powEig e rlim alim (fun _ => ⨆ k, |E i j k|) (E i j) := by
    intro mx
    funext k
    unfold powEig
    by_cases hc : (¬ ∃ m : ℤ, e = m) ∧ E i j k < 0
    · rw [if_pos (Or.inl hc), if_pos (Or.inl hc)]
    · rw [if_neg (fun h => h.elim hc (fun h => not_lt.2 he h.1)), if_neg (fun h => h.elim hc (fun h => not_lt.2 he h.1))]
  unfold eigpowStack eigpow
  rw [this]

/-- C132 refuted for negative powers of stacks with two leading axes: the second of the one-by-one matrices 1 and 1/100 has
the inverse 0 with rlim = 1/10, though it is its own largest eigenvalue. -/
theorem C132_stack_refuted :
    ¬ C132_stack_claim (a := 1) (b := 2) (n := 1) (fun _ => ![fun _ => 1, fun _ => 1 / 100]) (fun _ _ => 1) (-1) (1 / 10) (1 / 1000) := by
  intro h
  have h1 := congrFun (congrFun (h 0 1) 0) 0
  have hz : eigpowStack (a := 1) (b := 2) (n := 1) (fun _ => ![fun _ => 1, fun _ => 1 / 100]) (fun _ _ => 1) (-1) (1 / 10) (1 / 1000) 0 1 0 0 = 0 := by
    unfold eigpowStack
    simp only [Matrix.one_mul, Matrix.transpose_one, Matrix.mul_one, Matrix.diagonal_apply_eq]
    unfold powEig
    rw [if_pos]
    right
    refine ⟨by norm_num, Or.inl ?_⟩
    have hle : |(![fun _ : Fin 1 => (1 : ℝ), fun _ => 1 / 100] : Fin 2 → Fin 1 → ℝ) 0 0|
        ≤ ⨆ j', |(![fun _ : Fin 1 => (1 : ℝ), fun _ => 1 / 100] : Fin 2 → Fin 1 → ℝ) j' 0| :=
      le_ciSup (f := fun j' => |(![fun _ : Fin 1 => (1 : ℝ), fun _ => 1 / 100] : Fin 2 → Fin 1 → ℝ) j' 0|)
        (Set.finite_range _).bddAbove 0
    have h3 : |(![fun _ : Fin 1 => (1 : ℝ), fun _ => 1 / 100] : Fin 2 → Fin 1 → ℝ) 0 0| = 1 := by norm_num
    have h4 : |(![fun _ : Fin 1 => (1 : ℝ), fun _ => 1 / 100] : Fin 2 → Fin 1 → ℝ) 1 0| = 1 / 100 := by
      simp [abs_of_pos]
    rw [h3] at hle
    rw [h4]
    linarith
  have hn : eigpow (n := 1) (fun _ => 1 / 100) 1 (-1) (1 / 10) (1 / 1000) 0 0 = 100 := by
    unfold eigpow
    simp only [Matrix.one_mul, Matrix.transpose_one, Matrix.mul_one, Matrix.diagonal_apply_eq]
    unfold powEig
    rw [if_neg]
    · rw [Real.rpow_neg_one]; norm_num
    · rintro (⟨hk, _⟩ | ⟨_, hk⟩)
      · exact hk ⟨-1, by simp⟩
      · rw [ciSup_const] at hk
        rw [abs_of_pos (by norm_num : (0 : ℝ) < 1 / 100)] at hk
        rcases hk with hk | hk <;> norm_num at hk
  have h5 : (fun _ => ![fun _ => 1, fun _ => 1 / 100] : Fin 1 → Fin 2 → Fin 1 → ℝ) 0 1 = fun _ => 1 / 100 := by
    funext k; simp
  rw [hz, h5, hn] at h1
  norm_num at h1

/-- C132: the merged eigenvectors reproduce the matrix, QQᵀ = A, if no eigenvalue is negative. -/
theorem C132_merged {n : ℕ} {A : Matrix (Fin n) (Fin n) ℝ} {E : Fin n → ℝ} {V : Matrix (Fin n) (Fin n) ℝ} (h : IsEigh A E V)
    (perm : Equiv.Perm (Fin n)) (hE : ∀ i, 0 ≤ E i) : eigsortMerged E V perm * (eigsortMerged E V perm)ᵀ = A := by
  rw [h.eq]
  ext i j
  rw [Matrix.mul_apply, Matrix.mul_apply]
  simp only [Matrix.transpose_apply, Matrix.diagonal_mul, eigsortMerged]
  rw [← Equiv.sum_comp perm (fun k => V i k * (E k * V j k))]
  apply Finset.sum_congr rfl
  intro k _
  have := Real.mul_self_sqrt (hE (perm k))
  calc V i (perm k) * √(E (perm k)) * (V j (perm k) * √(E (perm k)))
      = V i (perm k) * ((√(E (perm k)) * √(E (perm k))) * V j (perm k)) := by ring
    _ = _ := by rw [this]

/-! ### Conditional distributions -/

theorem condInv_posDef {ι : Type} [Fintype ι] [DecidableEq ι] {A : Matrix ι ι ℝ} (h : A.PosDef) :
    condInv A = some A⁻¹ := by
  unfold condInv
  by_cases h0 : ∀ i, A i i = 0
  · rw [if_pos h0]
    have : IsEmpty ι := by
      by_contra hne
      rw [not_isEmpty_iff] at hne
      obtain ⟨i⟩ := hne
      have := h.diag_pos (i := i)
      rw [h0 i] at this
      exact lt_irrefl _ this
    congr 1
    exact Subsingleton.elim _ _
  · rw [if_neg h0, if_neg h.det_pos.ne']

/-- C132.  For a positive definite covariance matrix C and any set of known variables, the matrices A and cov exist; a vector
of known values with covariance C_kk, completed with A x_known and independent noise with covariance cov, has covariance C:
the two conditions are the blocks of its covariance matrix.  cov is a covariance matrix. -/
theorem C132_conditional {n : ℕ} (C : Matrix (Fin n) (Fin n) ℝ) (hC : C.PosDef) (known : Fin n → Prop) [DecidablePred known] :
    ∃ A cov, buildConditional C known = some (A, cov) ∧ cov.PosDef ∧
      A * C.toBlock known known = C.toBlock (fun i => ¬ known i) known ∧
      A * C.toBlock known known * Aᵀ + cov = C.toBlock (fun i => ¬ known i) (fun i => ¬ known i) := by
  have hP : C⁻¹.PosDef := hC.inv
  have hPuu : (C⁻¹.toBlock (fun i => ¬ known i) (fun i => ¬ known i)).PosDef :=
    hP.submatrix Subtype.val_injective
  set P := C⁻¹ with hPdef
  have hPC : P * C = 1 := Matrix.nonsing_inv_mul C (isUnit_iff_ne_zero.2 hC.det_pos.ne')
  set Puu := P.toBlock (fun i => ¬ known i) (fun i => ¬ known i) with hPuud
  set Puk := P.toBlock (fun i => ¬ known i) known with hPukd
  have hinv : Puu⁻¹ * Puu = 1 := Matrix.nonsing_inv_mul _ (isUnit_iff_ne_zero.2 hPuu.det_pos.ne')
  have b1 := Matrix.toBlock_mul_eq_add (fun i => ¬ known i) known known P C
  have b2 := Matrix.toBlock_mul_eq_add (fun i => ¬ known i) known (fun i => ¬ known i) P C
  rw [hPC] at b1 b2
  have z1 : (1 : Matrix (Fin n) (Fin n) ℝ).toBlock (fun i => ¬ known i) known = 0 := by
    ext i j
    rw [Matrix.toBlock_apply, Matrix.one_apply_ne, Matrix.zero_apply]
    intro he
    exact i.2 (he ▸ j.2)
  have z2 : (1 : Matrix (Fin n) (Fin n) ℝ).toBlock (fun i => ¬ known i) (fun i => ¬ known i) = 1 := by
    ext i j
    rw [Matrix.toBlock_apply, Matrix.one_apply, Matrix.one_apply]
    simp only [Subtype.ext_iff]
  rw [z1] at b1
  rw [z2] at b2
  have c1 : -(Puu⁻¹ * Puk) * C.toBlock known known = C.toBlock (fun i => ¬ known i) known := by
    have : Puk * C.toBlock known known = -(Puu * C.toBlock (fun i => ¬ known i) known) := by
      rw [eq_neg_iff_add_eq_zero]; exact b1.symm
    rw [Matrix.neg_mul, Matrix.mul_assoc, this, Matrix.mul_neg, neg_neg, ← Matrix.mul_assoc, hinv, Matrix.one_mul]
  have c2 : Puu⁻¹ = C.toBlock (fun i => ¬ known i) (fun i => ¬ known i)
      + Puu⁻¹ * Puk * C.toBlock known (fun i => ¬ known i) := by
    calc Puu⁻¹ = Puu⁻¹ * (Puk * C.toBlock known (fun i => ¬ known i) + Puu * C.toBlock (fun i => ¬ known i) (fun i => ¬ known i)) := by
          rw [← b2, Matrix.mul_one]
      _ = _ := by
          rw [Matrix.mul_add, ← Matrix.mul_assoc Puu⁻¹ Puu, hinv, Matrix.one_mul, ← Matrix.mul_assoc, add_comm]
  have hsym : ∀ i j, C i j = C j i := by
    intro i j
    have := hC.1.apply i j
    simpa using this.symm
  have hCku : (C.toBlock (fun i => ¬ known i) known)ᵀ = C.toBlock known (fun i => ¬ known i) := by
    ext i j
    rw [Matrix.transpose_apply, Matrix.toBlock_apply, Matrix.toBlock_apply, hsym]
  have hCkk : (C.toBlock known known)ᵀ = C.toBlock known known := by
    ext i j
    rw [Matrix.transpose_apply, Matrix.toBlock_apply, Matrix.toBlock_apply, hsym]
  refine ⟨-(Puu⁻¹ * Puk), Puu⁻¹, ?_, hPuu.inv, c1, ?_⟩
  · unfold buildConditional
    rw [condInv_posDef hC]
    show (condInv Puu).bind _ = _
    rw [condInv_posDef hPuu]
    rfl
  · have c3 : C.toBlock known known * (-(Puu⁻¹ * Puk))ᵀ = C.toBlock known (fun i => ¬ known i) := by
      rw [← hCku, ← c1, Matrix.transpose_mul, hCkk]
    rw [Matrix.mul_assoc, c3]
    rw [Matrix.neg_mul]
    exact neg_add_eq_iff_eq_add.2 (c2.trans (add_comm _ _))

/-- C132: elements where everything is zero give zeros rather than an error. -/
theorem C132_conditional_zero {n : ℕ} (known : Fin n → Prop) [DecidablePred known] :
    buildConditional (0 : Matrix (Fin n) (Fin n) ℝ) known = some (0, 0) := by
  have hz : ∀ {ι : Type} [Fintype ι] [DecidableEq ι], condInv (0 : Matrix ι ι ℝ) = some 0 := by
    intro ι _ _
    unfold condInv
    rw [if_pos (fun i => by simp)]
  unfold buildConditional
  rw [hz]
  show (condInv (0 : Matrix {i // ¬ known i} {i // ¬ known i} ℝ)).bind _ = _
  rw [hz]
  show some (-(0 * _), 0) = _
  rw [Matrix.zero_mul, neg_zero]

example : (1 : Matrix (Fin 3) (Fin 3) ℝ).PosDef := Matrix.PosDef.one

/-! ### Correlations -/

/-- C132: corr2cov undoes cov2corr, whose diagonal is one, for positive variances. -/
theorem C132_corr {n : ℕ} (C : Matrix (Fin n) (Fin n) ℝ) (h : ∀ i, 0 < C i i) :
    corr2cov (cov2corr C).1 (cov2corr C).2 = C ∧ (∀ i, (cov2corr C).1 i i = 1) ∧ ∀ i, (cov2corr C).2 i ^ 2 = C i i := by
  have hs : ∀ i, Real.sqrt (C i i) ≠ 0 := fun i => (Real.sqrt_pos.2 (h i)).ne'
  refine ⟨?_, ?_, ?_⟩
  · ext i j
    unfold corr2cov cov2corr
    have h1 := hs i
    have h2 := hs j
    simp only
    field_simp
  · intro i
    unfold cov2corr
    simp only
    have h1 := hs i
    have h2 := Real.mul_self_sqrt (h i).le
    field_simp
    nlinarith
  · intro i
    unfold cov2corr
    exact Real.sq_sqrt (h i).le

/-- C132: the other way around, for correlation matrices with ones on the diagonal and positive deviations. -/
theorem C132_cov {n : ℕ} (R : Matrix (Fin n) (Fin n) ℝ) (s : Fin n → ℝ) (hR : ∀ i, R i i = 1) (hs : ∀ i, 0 < s i) :
    cov2corr (corr2cov R s) = (R, s) := by
  have e1 : ∀ i, Real.sqrt (corr2cov R s i i) = s i := by
    intro i
    unfold corr2cov
    rw [hR i, one_mul, Real.sqrt_mul_self (hs i).le]
  unfold cov2corr
  simp only [e1]
  congr 1
  ext i j
  unfold corr2cov
  have h1 := (hs i).ne'
  have h2 := (hs j).ne'
  field_simp

/-- C132: the correlations of a positive definite matrix are between -1 and 1. -/
theorem C132_corr_le {n : ℕ} (C : Matrix (Fin n) (Fin n) ℝ) (h : C.PosDef) (i j : Fin n) : |(cov2corr C).1 i j| ≤ 1 := by
  have hd : ∀ i, 0 < C i i := fun i => h.diag_pos
  have hsym : C j i = C i j := by simpa using h.1.apply i j
  have key : C i j ^ 2 ≤ C i i * C j j := by
    by_cases hij : i = j
    · subst hij; rw [sq]
    · have hq := h.posSemidef.dotProduct_mulVec_nonneg (Pi.single i (C j j) - Pi.single j (C i j))
      simp only [star_trivial, Matrix.mulVec_sub, Matrix.mulVec_single, dotProduct_sub, sub_dotProduct,
        single_dotProduct, Matrix.col_apply, Pi.smul_apply, MulOpposite.smul_eq_mul_unop, MulOpposite.unop_op] at hq
      rw [hsym] at hq
      have := hd j
      by_contra hc
      push Not at hc
      nlinarith
  have h1 := Real.sqrt_pos.2 (hd i)
  have h2 := Real.sqrt_pos.2 (hd j)
  unfold cov2corr
  simp only
  rw [mul_assoc, abs_mul, abs_of_pos (by positivity : (0 : ℝ) < 1 / √(C i i) * (1 / √(C j j)))]
  have h3 : |C i j| ≤ √(C i i) * √(C j j) := by
    rw [← Real.sqrt_mul (hd i).le]
    exact Real.abs_le_sqrt key
  calc |C i j| * (1 / √(C i i) * (1 / √(C j j))) ≤ (√(C i i) * √(C j j)) * (1 / √(C i i) * (1 / √(C j j))) :=
        mul_le_mul_of_nonneg_right h3 (by positivity)
    _ = 1 := by field_simp

/-- C132: nodiag keeps everything but the diagonal. -/
theorem C132_nodiag {n : ℕ} (A : Matrix (Fin n) (Fin n) ℝ) : A = nodiag A + diagonal (fun i => A i i) ∧ ∀ i, nodiag A i i = 0 := by
  constructor
  · ext i j
    rw [Matrix.add_apply, Matrix.diagonal_apply]
    unfold nodiag
    by_cases h : i = j
    · subst h; simp
    · simp [h]
  · intro i; simp [nodiag]

/-! ### Linear systems -/

/-- Full claim: the systems with A₀₀ ≠ 0 are solved, the others get zero, and the arguments are left alone. -/
def C132_solve_claim {m n : ℕ} (A : Fin m → Matrix (Fin (n + 1)) (Fin (n + 1)) ℝ) (b : Fin m → Fin (n + 1) → ℝ)
    (res : (Fin m → Fin (n + 1) → ℝ) × (Fin m → Fin (n + 1) → ℝ)) : Prop :=
  (∀ i, A i 0 0 ≠ 0 → A i *ᵥ res.1 i = b i) ∧ (∀ i, A i 0 0 = 0 → res.1 i = 0) ∧ res.2 = b

/-- C132: for floating point numbers the solutions are right. -/
theorem C132_solve_partial {m n : ℕ} (A : Fin m → Matrix (Fin (n + 1)) (Fin (n + 1)) ℝ) (b : Fin m → Fin (n + 1) → ℝ)
    (h : ∀ i, A i 0 0 ≠ 0 → (A i).det ≠ 0) :
    ∃ res, solveMasked id A b = some res ∧ (∀ i, A i 0 0 ≠ 0 → A i *ᵥ res.1 i = b i) ∧ ∀ i, A i 0 0 = 0 → res.1 i = 0 := by
  unfold solveMasked
  rw [if_neg]
  · refine ⟨_, rfl, ?_, ?_⟩
    · intro i hi
      have e : (fun k => if A i 0 0 ≠ 0 then id (((A i)⁻¹ *ᵥ b i) k) else 0) = (A i)⁻¹ *ᵥ b i := by
        funext k
        rw [if_pos hi]; rfl
      show A i *ᵥ (fun k => if A i 0 0 ≠ 0 then id (((A i)⁻¹ *ᵥ b i) k) else 0) = b i
      rw [e, Matrix.mulVec_mulVec, Matrix.mul_nonsing_inv _ (isUnit_iff_ne_zero.2 (h i hi)), Matrix.one_mulVec]
    · intro i hi
      funext k
      show (if A i 0 0 ≠ 0 then _ else (0 : ℝ)) = 0
      rw [if_neg (by simpa using hi)]
  · rintro ⟨i, h1, h2⟩
    exact h i h1 h2

/-- C132 refuted: the solution is written into the caller's right-hand side: 2 x = 1 leaves 1/2 in it. -/
theorem C132_solve_refuted :
    ∃ res, solveMasked (m := 1) (n := 0) id (fun _ => !![2]) (fun _ _ => 1) = some res ∧
      ¬ C132_solve_claim (fun _ => !![2]) (fun _ _ => 1) res ∧ res.2 0 0 = 1 / 2 := by
  unfold solveMasked
  rw [if_neg]
  · refine ⟨_, rfl, ?_, ?_⟩
    · rintro ⟨_, _, h3⟩
      have := congrFun (congrFun h3 0) 0
      simp [Matrix.mulVec, dotProduct] at this
    · simp [Matrix.mulVec, dotProduct]
  · rintro ⟨i, h1, h2⟩
    simp at h2

/-- C132 refuted: with whole numbers on the right-hand side the solution of 2 x = 1 is 0. -/
theorem C132_solve_int_refuted :
    ∃ res, solveMasked (m := 1) (n := 0) (fun x => (⌊x⌋ : ℝ)) (fun _ => !![2]) (fun _ _ => 1) = some res ∧ res.1 0 0 = 0 := by
  unfold solveMasked
  rw [if_neg]
  · refine ⟨_, rfl, ?_⟩
    simp [Matrix.mulVec, dotProduct]
    norm_num
  · rintro ⟨i, h1, h2⟩
    simp at h2

end Pixell
