import Mathlib.Tactic.Linarith
import Mathlib.Tactic.Abel
import Mathlib.Algebra.BigOperators.Ring.Finset
import Mathlib.Algebra.Order.BigOperators.Group.Finset
import Mathlib.Algebra.BigOperators.Intervals
import Mathlib.Data.Fin.Rev
import Verif.Model.ShtOps
import Verif.Props.Sht
import Verif.Props.Solvers

/-
Property C140: spherical harmonic transforms of maps and their adjoints.
-/
namespace Pixell
open Finset

/-! ### Specification -/

/-- A real inner product, as far as it is needed. -/
structure InnerLike {X : Type} [AddCommGroup X] (I : X → X → ℝ) : Prop where
  symm : ∀ x y, I x y = I y x
  sub_left : ∀ x y z, I (x - y) z = I x z - I y z

/-- What is assumed of ducc: the transforms called adjoint are adjoint, for every spin. -/
structure Ducc.Ok {A P : Type} [AddCommGroup A] [Module ℝ A] [AddCommGroup P] [Module ℝ P] (D : Ducc A P) (IA : A → A → ℝ)
    (IP : P → P → ℝ) : Prop where
  syn : ∀ s a m, ∑ i, IP (D.syn s a i) (m i) = ∑ i, IA (a i) (D.asyn s m i)
  ana : ∀ s m a, ∑ i, IA (D.ana s m i) (a i) = ∑ i, IP (m i) (D.aana s a i)
  deriv : ∀ a m, IP (D.dsyn a).1 m.1 + IP (D.dsyn a).2 m.2 = IA a (D.dasyn m)

/-- The inner product of two maps of one component: the sum over the pixels of the product. -/
def gridInner {h w : Nat} (a b : Grid h w) : ℝ := ∑ i, ∑ j, a i j * b i j

/-- The inner product of the values at the pixels with a position. -/
def maskInner {ny nx : Nat} (mask : Fin ny → Fin nx → Bool) (a b : MaskPix mask → ℝ) : ℝ := ∑ k, a k * b k

/-- The inner product of arrays with n components. -/
def compInner {X : Type} (I : X → X → ℝ) (n : Nat) (x y : Nat → X) : ℝ := ∑ c ∈ range n, I (x c) (y c)

theorem InnerLike.sub_right {X : Type} [AddCommGroup X] {I : X → X → ℝ} (h : InnerLike I) (x y z : X) :
    I x (y - z) = I x y - I x z := by
  rw [h.symm, h.sub_left, h.symm y, h.symm z]

theorem gridInner_like {h w : Nat} : InnerLike (gridInner (h := h) (w := w)) := by
  constructor
  · intro x y; unfold gridInner; simp only [mul_comm]
  · intro x y z; unfold gridInner
    rw [← Finset.sum_sub_distrib]
    refine Finset.sum_congr rfl fun i _ => ?_
    rw [← Finset.sum_sub_distrib]
    exact Finset.sum_congr rfl fun j _ => by simp [sub_mul]

theorem maskInner_like {ny nx : Nat} (mask : Fin ny → Fin nx → Bool) : InnerLike (maskInner mask) := by
  constructor
  · intro x y; unfold maskInner; simp only [mul_comm]
  · intro x y z; unfold maskInner
    rw [← Finset.sum_sub_distrib]
    exact Finset.sum_congr rfl fun j _ => by simp [sub_mul]

/-- The inner product of groups. -/
theorem InnerLike.pi {X : Type} [AddCommGroup X] {I : X → X → ℝ} (h : InnerLike I) (k : Nat) :
    InnerLike (fun (x y : Fin k → X) => ∑ i, I (x i) (y i)) := by
  constructor
  · intro x y; exact Finset.sum_congr rfl fun i _ => h.symm _ _
  · intro x y z
    rw [← Finset.sum_sub_distrib]
    exact Finset.sum_congr rfl fun j _ => h.sub_left _ _ _

/-! ### Groups of components -/

/-- Groups that follow each other from component j to component n. -/
inductive GroupChain : Nat → Nat → List (ℤ × Nat × Nat) → Prop
  | nil (n : Nat) : GroupChain n n []
  | cons {n : Nat} (s : ℤ) (j : Nat) (gs : List (ℤ × Nat × Nat)) : GroupChain (j + spinComp s) n gs →
      GroupChain j n ((s, j, j + spinComp s) :: gs)

theorem GroupChain.le {j n : Nat} {gs : List (ℤ × Nat × Nat)} (h : GroupChain j n gs) : j ≤ n := by
  induction h with
  | nil => rfl
  | cons s j gs _ ih => omega

theorem spinHelper_chain (spin : List ℤ) (n : Nat) (h : (spinHelper (n + 1) spin n).2 = some true) :
    GroupChain 0 n (spinHelper (n + 1) spin n).1 := by
  by_cases hs : spin = []
  · subst hs
    rw [(C61_empty [] n n).1] at h
    cases h
  rcases C61_spin_helper spin n hs (n + 1) (by omega) with ⟨K, hK, e, hr⟩ | ⟨-, hr⟩
  · rw [hr]
    have key : ∀ d j, j + d = K → GroupChain (spinStart spin j) n ((List.range' j d).map fun j =>
        (spin.getD (j % spin.length) 0, spinStart spin j, spinStart spin (j + 1))) := by
      intro d
      induction d with
      | zero => intro j hj; obtain rfl : j = K := by omega
                rw [e]; exact GroupChain.nil n
      | succ d ih =>
        intro j hj
        rw [List.range'_succ, List.map_cons]
        have e2 : spinStart spin (j + 1) = spinStart spin j + spinComp (spin.getD (j % spin.length) 0) := by
          rw [spinStart_succ]; rfl
        have := ih (j + 1) (by omega)
        rw [e2] at this
        rw [e2]
        exact GroupChain.cons _ _ _ this
    have := key K 0 (by omega)
    rw [← List.range_eq_range'] at this
    exact this
  · rw [hr] at h; cases h

theorem spinSweep_cons {X Z : Type} (op : (s : ℤ) → (Fin (spinComp s) → X) → (Fin (spinComp s) → Z)) (g : ℤ × Nat × Nat)
    (gs : List (ℤ × Nat × Nat)) (x : Nat → X) (z : Nat → Z) :
    spinSweep op (g :: gs) x z =
      spinSweep op gs x (putGrp z g.2.1 (spinComp g.1) (op g.1 (takeGrp x g.2.1 (spinComp g.1)))) := rfl

theorem spinSweep_lt {X Z : Type} (op : (s : ℤ) → (Fin (spinComp s) → X) → (Fin (spinComp s) → Z)) {j n : Nat}
    {gs : List (ℤ × Nat × Nat)} (h : GroupChain j n gs) (x : Nat → X) (z : Nat → Z) (c : Nat) (hc : c < j) :
    spinSweep op gs x z c = z c := by
  induction h generalizing z with
  | nil => rfl
  | cons s j gs _ ih =>
    rw [spinSweep_cons, ih _ (by omega)]
    unfold putGrp
    rw [dif_neg (by simp only; omega)]

theorem spinSweep_head {X Z : Type} (op : (s : ℤ) → (Fin (spinComp s) → X) → (Fin (spinComp s) → Z)) {j n : Nat} {s : ℤ}
    {gs : List (ℤ × Nat × Nat)} (h : GroupChain (j + spinComp s) n gs) (x : Nat → X) (z : Nat → Z) (i : Fin (spinComp s)) :
    spinSweep op ((s, j, j + spinComp s) :: gs) x z (j + i) = op s (fun i => x (j + i)) i := by
  rw [spinSweep_cons, spinSweep_lt op h _ _ _ (by omega)]
  unfold putGrp takeGrp
  rw [dif_pos (by simp only; omega)]
  congr 1
  exact Fin.ext (by simp)

theorem sum_group {j k n : Nat} (h : j + k ≤ n) (f : Nat → ℝ) :
    ∑ c ∈ Ico j n, f c = ∑ i : Fin k, f (j + i) + ∑ c ∈ Ico (j + k) n, f c := by
  rw [← Finset.sum_Ico_consecutive f (show j ≤ j + k by omega) h, Finset.sum_Ico_eq_sum_range,
    Nat.add_sub_cancel_left, Finset.sum_range]

theorem spinSweep_adjoint {X Z : Type} (op : (s : ℤ) → (Fin (spinComp s) → X) → (Fin (spinComp s) → Z))
    (op' : (s : ℤ) → (Fin (spinComp s) → Z) → (Fin (spinComp s) → X)) (IX : X → X → ℝ) (IZ : Z → Z → ℝ)
    (hop : ∀ s x z, ∑ i, IZ (op s x i) (z i) = ∑ i, IX (x i) (op' s z i))
    {j n : Nat} {gs : List (ℤ × Nat × Nat)} (h : GroupChain j n gs) (x x0 : Nat → X) (z z0 : Nat → Z) :
    ∑ c ∈ Ico j n, IZ (spinSweep op gs x z0 c) (z c) = ∑ c ∈ Ico j n, IX (x c) (spinSweep op' gs z x0 c) := by
  induction h generalizing x0 z0 with
  | nil => simp
  | cons s j gs h ih =>
    rw [sum_group h.le, sum_group h.le]
    congr 1
    · simp only [spinSweep_head _ h]
      exact hop s _ _
    · rw [spinSweep_cons, spinSweep_cons]
      exact ih _ _

/-- The loop over groups transforms adjointly if each spin's operator does, whatever was in the outputs before. -/
theorem spinApply_adjoint {X Z : Type} (op : (s : ℤ) → (Fin (spinComp s) → X) → (Fin (spinComp s) → Z))
    (op' : (s : ℤ) → (Fin (spinComp s) → Z) → (Fin (spinComp s) → X)) (IX : X → X → ℝ) (IZ : Z → Z → ℝ)
    (hop : ∀ s x z, ∑ i, IZ (op s x i) (z i) = ∑ i, IX (x i) (op' s z i))
    (spin : List ℤ) (n : Nat) (x x0 x1 : Nat → X) (z z0 z1 : Nat → Z)
    (h1 : spinApply op spin n x z0 = some z1) (h2 : spinApply op' spin n z x0 = some x1) :
    compInner IZ n z1 z = compInner IX n x x1 := by
  unfold spinApply at h1 h2
  by_cases hok : (spinHelper (n + 1) spin n).2 = some true
  · rw [if_pos hok] at h1 h2
    obtain rfl := Option.some.inj h1
    obtain rfl := Option.some.inj h2
    unfold compInner
    rw [range_eq_Ico]
    exact spinSweep_adjoint op op' IX IZ hop (spinHelper_chain spin n hok) x x0 z z0
  · rw [if_neg hok] at h1; cases h1

/-- The k-th group of components starts where the earlier ones end and is transformed with the k-th spin, the list of
spins being repeated. -/
theorem spinSweep_value {X Z : Type} (op : (s : ℤ) → (Fin (spinComp s) → X) → (Fin (spinComp s) → Z)) {j n : Nat}
    {gs : List (ℤ × Nat × Nat)} (h : GroupChain j n gs) (x : Nat → X) (z : Nat → Z) (g : ℤ × Nat × Nat) (hg : g ∈ gs)
    (i : Fin (spinComp g.1)) : spinSweep op gs x z (g.2.1 + i) = op g.1 (fun i => x (g.2.1 + i)) i := by
  induction h generalizing z with
  | nil => cases hg
  | cons s j gs h ih =>
    rcases List.mem_cons.1 hg with rfl | hg
    · exact spinSweep_head op h x z i
    · rw [spinSweep_cons]; exact ih _ hg

/-! ### Jacobi iteration -/

theorem jacobi_succ {X Y : Type} [AddCommGroup X] [AddCommGroup Y] (F : X → Y) (B : Y → X) (y : Y) (n : Nat) :
    jacobiInverse F B y (n + 1) = jacobiInverse F B y n - B (F (jacobiInverse F B y n) - y) := by
  unfold jacobiInverse
  rw [List.range_succ, List.foldl_append]; rfl

theorem jacobi_push {X Y : Type} [AddCommGroup X] [Module ℝ X] [AddCommGroup Y] [Module ℝ Y] (F : X →ₗ[ℝ] Y) (B : Y →ₗ[ℝ] X)
    (y : Y) (n : Nat) : jacobiInverse F B (F (B y)) n = B (F (jacobiInverse F B y n)) := by
  induction n with
  | zero => rfl
  | succ n ih => rw [jacobi_succ, jacobi_succ, ih]; simp only [map_sub]

/-- The adjoint of n Jacobi iterations with (F, B) is n Jacobi iterations with (F', B'). -/
theorem jacobi_adjoint {X Y : Type} [AddCommGroup X] [Module ℝ X] [AddCommGroup Y] [Module ℝ Y] (F : X →ₗ[ℝ] Y)
    (B : Y →ₗ[ℝ] X) (F' : Y → X) (B' : X → Y) (IX : X → X → ℝ) (IY : Y → Y → ℝ) (hX : InnerLike IX) (hY : InnerLike IY)
    (hF : ∀ x y, IY (F x) y = IX x (F' y)) (hB : ∀ y x, IX (B y) x = IY y (B' x)) (n : Nat) (y : Y) (x : X) :
    IX (jacobiInverse F B y n) x = IY y (jacobiInverse F' B' x n) := by
  induction n generalizing y x with
  | zero => exact hB y x
  | succ n ih =>
    have e : jacobiInverse F B y (n + 1) = jacobiInverse F B y n - (jacobiInverse F B (F (B y)) n - B y) := by
      rw [jacobi_succ, jacobi_push, map_sub]
    rw [e, hX.sub_left, hX.sub_left, ih, ih, jacobi_succ, hY.sub_right, ← hB, hX.sub_right, hF]

/-! ### Work buffers -/

theorem flipIdx_flip {n : Nat} (f : Bool) (i : Fin n) : flipIdx f (flipIdx f i) = i := by
  cases f
  · rfl
  · unfold flipIdx; simp only [if_true]; apply Fin.ext; simp only; omega

/-- flipIdx is a permutation. -/
def flipEquiv {n : Nat} (f : Bool) : Equiv.Perm (Fin n) := ⟨flipIdx f, flipIdx f, flipIdx_flip f, flipIdx_flip f⟩

theorem pad_sum (p n q : Nat) (flip : Bool) (f : Fin (p + n + q) → ℝ) (h0 : ∀ i, ¬ (p ≤ i.1 ∧ i.1 < p + n) → f i = 0) :
    ∑ i, f i = ∑ i : Fin n, f ⟨p + flipIdx flip i, by have := (flipIdx flip i).2; omega⟩ := by
  rw [Fin.sum_univ_add, Fin.sum_univ_add]
  rw [Finset.sum_eq_zero (s := (univ : Finset (Fin p))), Finset.sum_eq_zero (s := (univ : Finset (Fin q))), zero_add, add_zero]
  · rw [← Equiv.sum_comp (flipEquiv flip)]
    rfl
  · intro i _
    exact h0 _ (by simp)
  · intro i _
    exact h0 _ (by simp)

/-- Copying out of a buffer is the adjoint of copying into it. -/
theorem buf_adjoint {ny nx : Nat} (fy fx : Bool) (p q : Nat × Nat) (b : Grid (p.1 + ny + q.1) (p.2 + nx + q.2))
    (m : Grid ny nx) : gridInner (fromBuf fy fx p q b) m = gridInner b (toBuf fy fx p q m) := by
  unfold gridInner
  rw [pad_sum p.1 ny q.1 fy (fun i => ∑ j, b i j * toBuf fy fx p q m i j)]
  · refine Finset.sum_congr rfl fun i _ => ?_
    rw [pad_sum p.2 nx q.2 fx]
    · refine Finset.sum_congr rfl fun j _ => ?_
      unfold fromBuf toBuf
      rw [dif_pos (by simp only; have := (flipIdx fy i).2; have := (flipIdx fx j).2; omega)]
      congr 1
      have e1 : (⟨p.1 + (flipIdx fy i).1 - p.1, by have := (flipIdx fy i).2; omega⟩ : Fin ny) = flipIdx fy i := Fin.ext (by simp)
      have e2 : (⟨p.2 + (flipIdx fx j).1 - p.2, by have := (flipIdx fx j).2; omega⟩ : Fin nx) = flipIdx fx j := Fin.ext (by simp)
      simp only [e1, e2, flipIdx_flip]
    · intro j hj
      unfold toBuf
      rw [dif_neg (by simp only; tauto), mul_zero]
  · intro i hi
    refine Finset.sum_eq_zero fun j _ => ?_
    unfold toBuf
    rw [dif_neg (by tauto), mul_zero]

theorem from_to {ny nx : Nat} (fy fx : Bool) (p q : Nat × Nat) (m : Grid ny nx) :
    fromBuf fy fx p q (toBuf fy fx p q m) = m := by
  funext i j
  unfold fromBuf toBuf
  rw [dif_pos (by simp only; have := (flipIdx fy i).2; have := (flipIdx fx j).2; omega)]
  have e1 : (⟨p.1 + (flipIdx fy i).1 - p.1, by have := (flipIdx fy i).2; omega⟩ : Fin ny) = flipIdx fy i := Fin.ext (by simp)
  have e2 : (⟨p.2 + (flipIdx fx j).1 - p.2, by have := (flipIdx fx j).2; omega⟩ : Fin nx) = flipIdx fx j := Fin.ext (by simp)
  simp only [e1, e2, flipIdx_flip]

theorem to_from {ny nx : Nat} (fy fx : Bool) (b : Grid (0 + ny + 0) (0 + nx + 0)) :
    toBuf fy fx (0, 0) (0, 0) (fromBuf fy fx (0, 0) (0, 0) b) = b := by
  funext i j
  unfold fromBuf toBuf
  rw [dif_pos (by simp only; omega)]
  simp only [Nat.sub_zero, flipIdx_flip]
  congr 1
  · exact Fin.ext (by simp)
  · exact Fin.ext (by simp)

/-! ### C140 -/

section Main
variable {A : Type} [AddCommGroup A] [Module ℝ A] {P : Type} [AddCommGroup P] [Module ℝ P]

theorem synJac_adjoint (D : Ducc A P) (IA : A → A → ℝ) (IP : P → P → ℝ) (hA : InnerLike IA) (hP : InnerLike IP)
    (hD : D.Ok IA IP) (W : P →ₗ[ℝ] P) (hW : ∀ a b, IP (W a) b = IP a (W b)) (niter : Nat) (s : ℤ)
    (m : Fin (spinComp s) → P) (a : Fin (spinComp s) → A) :
    ∑ i, IA (jacobiInverse (fun a => D.syn s a) (fun m => D.asyn s (fun i => W (m i))) m niter i) (a i) =
      ∑ i, IP (m i) (jacobiInverse (fun m => D.asyn s m) (fun a i => W (D.syn s a i)) a niter i) := by
  have := jacobi_adjoint (D.syn s) ((D.asyn s).comp (LinearMap.pi fun i => W.comp (LinearMap.proj i)))
    (fun m => D.asyn s m) (fun a i => W (D.syn s a i)) (fun x y => ∑ i, IA (x i) (y i)) (fun x y => ∑ i, IP (x i) (y i))
    (hA.pi _) (hP.pi _) (fun x y => hD.syn s x y) ?_ niter m a
  · exact this
  · intro y x
    have e1 : ∑ i, IA (((D.asyn s).comp (LinearMap.pi fun i => W.comp (LinearMap.proj i))) y i) (x i) =
        ∑ i, IA (x i) (D.asyn s (fun i => W (y i)) i) := Finset.sum_congr rfl fun i _ => hA.symm _ _
    show ∑ i, IA (((D.asyn s).comp (LinearMap.pi fun i => W.comp (LinearMap.proj i))) y i) (x i) = _
    rw [e1, ← hD.syn]
    exact Finset.sum_congr rfl fun i _ => by rw [hP.symm, hW]

theorem gridWeights {h w : Nat} (weights : Fin h → ℝ) : ∃ W : Grid h w →ₗ[ℝ] Grid h w, (∀ m, W m = rowMul weights m) ∧
    ∀ a b, gridInner (W a) b = gridInner a (W b) := by
  refine ⟨⟨⟨rowMul weights, ?_⟩, ?_⟩, fun _ => rfl, ?_⟩
  · intro x y; funext i j; simp [rowMul, add_mul]
  · intro x y; funext i j; simp [rowMul, mul_assoc]
  · intro a b
    show gridInner (rowMul weights a) b = gridInner a (rowMul weights b)
    unfold gridInner rowMul
    exact Finset.sum_congr rfl fun i _ => Finset.sum_congr rfl fun j _ => by ring

theorem maskWeights {ny nx : Nat} (mask : Fin ny → Fin nx → Bool) (weights : MaskPix mask → ℝ) :
    ∃ W : (MaskPix mask → ℝ) →ₗ[ℝ] (MaskPix mask → ℝ), (∀ m, W m = fun k => m k * weights k) ∧
    ∀ a b, maskInner mask (W a) b = maskInner mask a (W b) := by
  refine ⟨⟨⟨fun m k => m k * weights k, ?_⟩, ?_⟩, fun _ => rfl, ?_⟩
  · intro x y; funext k; simp [add_mul]
  · intro x y; funext k; simp [mul_assoc]
  · intro a b
    show ∑ k, a k * weights k * b k = ∑ k, a k * (b k * weights k)
    exact Finset.sum_congr rfl fun i _ => by ring

theorem compInner_congr {X : Type} {I : X → X → ℝ} {n : Nat} {x x' y y' : Nat → X}
    (h : ∀ c < n, I (x c) (y c) = I (x' c) (y' c)) : compInner I n x y = compInner I n x' y' :=
  Finset.sum_congr rfl fun c hc => h c (Finset.mem_range.1 hc)

/-- C140: the transforms are defined exactly when the spins fit the number of components, and then alm2map with the 2d and
cyl methods gives every group of components the synthesis of its own coefficients with its own spin, at the pixels of the
map, whatever was in the map before. -/
theorem C140_alm2map {ny nx : Nat} (obuf fy fx : Bool) (p q : Nat × Nat)
    (D : Ducc A (Grid (p.1 + ny + q.1) (p.2 + nx + q.2))) (spin : List ℤ) (n : Nat) (alm : Nat → A) (map0 : Nat → Grid ny nx) :
    ((alm2mapBuf obuf fy fx p q D spin n alm map0).isSome ↔ (spinHelper (n + 1) spin n).2 = some true) ∧
    ∀ map, alm2mapBuf obuf fy fx p q D spin n alm map0 = some map →
      ∀ g ∈ (spinHelper (n + 1) spin n).1, ∀ i : Fin (spinComp g.1),
        map (g.2.1 + i) = fromBuf fy fx p q (D.syn g.1 (fun i => alm (g.2.1 + i)) i) := by
  unfold alm2mapBuf alm2mapRaw spinApply
  by_cases hok : (spinHelper (n + 1) spin n).2 = some true
  · simp only [if_pos hok]
    refine ⟨by simp [hok], ?_⟩
    intro map h g hg i
    obtain rfl := Option.some.inj h
    simp only
    rw [spinSweep_value _ (spinHelper_chain spin n hok) _ _ g hg i]
  · simp only [if_neg hok]
    refine ⟨by simp [hok], ?_⟩
    intro map h; simp at h

/-- C140: alm2map_adjoint is the adjoint of alm2map for the 2d and cyl methods: for all coefficients, maps, spins, flips
and paddings, and whatever was in the outputs before. -/
theorem C140_alm2map_adjoint {ny nx : Nat} (obuf fy fx : Bool) (p q : Nat × Nat)
    (D : Ducc A (Grid (p.1 + ny + q.1) (p.2 + nx + q.2))) (IA : A → A → ℝ) (hD : D.Ok IA gridInner)
    (spin : List ℤ) (n : Nat) (alm alm0 alm1 : Nat → A) (map map0 map1 : Nat → Grid ny nx)
    (h1 : alm2mapBuf obuf fy fx p q D spin n alm map0 = some map1)
    (h2 : alm2mapBufAdj fy fx p q D spin n map alm0 = some alm1) :
    compInner gridInner n map1 map = compInner IA n alm alm1 := by
  unfold alm2mapBuf at h1
  simp only [Option.bind_eq_bind, Option.bind_eq_some_iff] at h1
  obtain ⟨t, ht, h1⟩ := h1
  obtain rfl := Option.some.inj h1
  rw [← spinApply_adjoint _ _ IA gridInner hD.syn spin n alm alm0 alm1 (fun c => toBuf fy fx p q (map c)) _ t ht h2]
  exact Finset.sum_congr rfl fun c _ => buf_adjoint fy fx p q _ _

/-- C140: map2alm_adjoint is the adjoint of map2alm for the 2d method. -/
theorem C140_map2alm_2d_adjoint {ny nx : Nat} (fy fx : Bool) (p q : Nat × Nat)
    (D : Ducc A (Grid (p.1 + ny + q.1) (p.2 + nx + q.2))) (IA : A → A → ℝ) (hD : D.Ok IA gridInner)
    (spin : List ℤ) (n : Nat) (alm alm0 alm1 : Nat → A) (map map0 map1 : Nat → Grid ny nx)
    (h1 : map2alm2d fy fx p q D spin n map alm0 = some alm1)
    (h2 : map2alm2dAdj fy fx p q D spin n alm map0 = some map1) :
    compInner IA n alm1 alm = compInner gridInner n map map1 := by
  unfold map2alm2dAdj at h2
  simp only [Option.bind_eq_bind, Option.bind_eq_some_iff] at h2
  obtain ⟨t, ht, h2⟩ := h2
  obtain rfl := Option.some.inj h2
  rw [spinApply_adjoint _ _ gridInner IA hD.ana spin n _ _ t alm alm0 alm1 h1 ht]
  refine Finset.sum_congr rfl fun c _ => ?_
  rw [gridInner_like.symm (map c), buf_adjoint, gridInner_like.symm]

/-- C140: map2alm_adjoint is the adjoint of map2alm for the cyl method, for every number of Jacobi iterations and all
weights. -/
theorem C140_map2alm_cyl_adjoint {ny nx : Nat} (fy fx : Bool) (p q : Nat × Nat)
    (D : Ducc A (Grid (p.1 + ny + q.1) (p.2 + nx + q.2))) (IA : A → A → ℝ) (hA : InnerLike IA) (hD : D.Ok IA gridInner)
    (weights : Fin (p.1 + ny + q.1) → ℝ) (niter : Nat)
    (spin : List ℤ) (n : Nat) (alm alm0 alm1 : Nat → A) (map map0 map1 : Nat → Grid ny nx)
    (h1 : map2almCyl fy fx p q D weights niter spin n map alm0 = some alm1)
    (h2 : map2almCylAdj fy fx p q D weights niter spin n alm map0 = some map1) :
    compInner IA n alm1 alm = compInner gridInner n map map1 := by
  obtain ⟨W, hW, hWs⟩ := gridWeights (w := p.2 + nx + q.2) weights
  unfold map2almCylAdj at h2
  simp only [Option.bind_eq_bind, Option.bind_eq_some_iff] at h2
  obtain ⟨t, ht, h2⟩ := h2
  obtain rfl := Option.some.inj h2
  have hop := synJac_adjoint D IA gridInner hA gridInner_like hD W hWs niter
  simp only [hW] at hop
  rw [spinApply_adjoint _ _ gridInner IA hop spin n _ _ t alm alm0 alm1 h1 ht]
  refine Finset.sum_congr rfl fun c _ => ?_
  rw [gridInner_like.symm (map c), buf_adjoint, gridInner_like.symm]

/-- The inner product of two maps over the pixels without a position. -/
def unmaskedInner {ny nx : Nat} (mask : Fin ny → Fin nx → Bool) (a b : Grid ny nx) : ℝ :=
  ∑ i, ∑ j, if mask i j then 0 else a i j * b i j

theorem mask_adjoint {ny nx : Nat} (mask : Fin ny → Fin nx → Bool) (t : MaskPix mask → ℝ) (m0 m : Grid ny nx) :
    gridInner (scatterMask mask t m0) m = maskInner mask t (gatherMask mask m) + unmaskedInner mask m0 m := by
  unfold gridInner maskInner unmaskedInner
  rw [← Finset.sum_product', ← Finset.sum_product', univ_product_univ]
  have e : ∑ k : MaskPix mask, t k * gatherMask mask m k =
      ∑ k : Fin ny × Fin nx, if h : mask k.1 k.2 = true then t ⟨k, h⟩ * m k.1 k.2 else 0 := by
    set g : Fin ny × Fin nx → ℝ := fun k => if h : mask k.1 k.2 = true then t ⟨k, h⟩ * m k.1 k.2 else 0 with hg
    have e1 : ∑ k, g k = ∑ k ∈ univ.filter (fun k : Fin ny × Fin nx => mask k.1 k.2 = true), g k := by
      symm
      apply Finset.sum_subset (Finset.filter_subset _ _)
      intro k _ hk
      have hk' : ¬ mask k.1 k.2 = true := fun h => hk (Finset.mem_filter.2 ⟨Finset.mem_univ _, h⟩)
      rw [hg]; simp only; rw [dif_neg hk']
    rw [e1, Finset.sum_subtype (p := fun k : Fin ny × Fin nx => mask k.1 k.2 = true) _ (by simp)]
    refine Finset.sum_congr rfl fun k _ => ?_
    rw [hg]; simp only; rw [dif_pos k.2]; rfl
  rw [e, ← Finset.sum_add_distrib]
  refine Finset.sum_congr rfl fun k _ => ?_
  unfold scatterMask
  by_cases h : mask k.1 k.2 = true
  · simp [h]
  · simp [h]

/-- C140, general method: alm2map_adjoint is the adjoint of alm2map on the pixels that have a position.  Pixels without a
position keep what was in the map before, which is the only other contribution (none for a map that was zero there). -/
theorem C140_general_adjoint {ny nx : Nat} (mask : Fin ny → Fin nx → Bool) (twoD : Bool) (D : Ducc A (MaskPix mask → ℝ))
    (IA : A → A → ℝ) (hD : D.Ok IA (maskInner mask))
    (spin : List ℤ) (n : Nat) (alm alm0 alm1 : Nat → A) (map map0 map1 : Nat → Grid ny nx)
    (h1 : alm2mapGeneral mask twoD D spin n alm map0 = some map1)
    (h2 : alm2mapGeneralAdj mask twoD D spin n map alm0 = some alm1) :
    compInner gridInner n map1 map = compInner IA n alm alm1 + compInner (unmaskedInner mask) n map0 map := by
  unfold alm2mapGeneral at h1
  unfold alm2mapGeneralAdj at h2
  by_cases hm : (maskedAny mask && twoD) = true
  · rw [if_pos hm] at h1; cases h1
  rw [if_neg hm] at h1 h2
  simp only [Option.bind_eq_bind, Option.bind_eq_some_iff] at h1
  obtain ⟨t, ht, h1⟩ := h1
  obtain rfl := Option.some.inj h1
  rw [← spinApply_adjoint _ _ IA (maskInner mask) hD.syn spin n alm alm0 alm1 (fun c => gatherMask mask (map c)) _ t ht h2]
  unfold compInner
  rw [← Finset.sum_add_distrib]
  exact Finset.sum_congr rfl fun c _ => mask_adjoint mask _ _ _

/-- C140, general method: map2alm_adjoint is the adjoint of map2alm in the same sense, for every number of iterations of
map2alm_general and all weights. -/
theorem C140_map2alm_general_adjoint {ny nx : Nat} (mask : Fin ny → Fin nx → Bool) (twoD : Bool)
    (D : Ducc A (MaskPix mask → ℝ)) (IA : A → A → ℝ) (hA : InnerLike IA) (hD : D.Ok IA (maskInner mask))
    (weights : MaskPix mask → ℝ) (niter : Nat)
    (spin : List ℤ) (n : Nat) (alm alm0 alm1 : Nat → A) (map map0 map1 : Nat → Grid ny nx)
    (h1 : map2almGeneral mask twoD D weights niter spin n map alm0 = some alm1)
    (h2 : map2almGeneralAdj mask twoD D weights niter spin n alm map0 = some map1) :
    compInner gridInner n map1 map = compInner IA n alm1 alm + compInner (unmaskedInner mask) n map0 map := by
  obtain ⟨W, hW, hWs⟩ := maskWeights mask weights
  unfold map2almGeneral at h1
  unfold map2almGeneralAdj at h2
  by_cases hm : (maskedAny mask && twoD) = true
  · rw [if_pos hm] at h1; cases h1
  rw [if_neg hm] at h1 h2
  simp only [Option.bind_eq_bind, Option.bind_eq_some_iff] at h2
  obtain ⟨t, ht, h2⟩ := h2
  obtain rfl := Option.some.inj h2
  have hop := synJac_adjoint D IA (maskInner mask) hA (maskInner_like mask) hD W hWs niter
  simp only [hW] at hop
  rw [spinApply_adjoint _ _ (maskInner mask) IA hop spin n _ _ t alm alm0 alm1 h1 ht]
  unfold compInner
  rw [← Finset.sum_add_distrib]
  refine Finset.sum_congr rfl fun c _ => ?_
  rw [mask_adjoint, (maskInner_like mask).symm]

/-- A two-dimensional map with pixels that have no position raises an exception in the general method; nothing else does
but spins that do not fit. -/
theorem C140_general_fails {ny nx : Nat} (mask : Fin ny → Fin nx → Bool) (twoD : Bool) (D : Ducc A (MaskPix mask → ℝ))
    (spin : List ℤ) (n : Nat) (alm : Nat → A) (map : Nat → Grid ny nx) (weights : MaskPix mask → ℝ) (niter : Nat) :
    (alm2mapGeneral mask twoD D spin n alm map = none ↔
      ((∃ i j, mask i j = false) ∧ twoD = true) ∨ (spinHelper (n + 1) spin n).2 ≠ some true) ∧
    (map2almGeneral mask twoD D weights niter spin n map alm = none ↔
      ((∃ i j, mask i j = false) ∧ twoD = true) ∨ (spinHelper (n + 1) spin n).2 ≠ some true) := by
  unfold alm2mapGeneral map2almGeneral alm2mapRaw map2almRaw spinApply
  have e : (maskedAny mask && twoD) = true ↔ ((∃ i j, mask i j = false) ∧ twoD = true) := by
    simp [maskedAny]
  by_cases hm : (maskedAny mask && twoD) = true
  · rw [if_pos hm, if_pos hm]
    exact ⟨⟨fun _ => Or.inl (e.1 hm), fun _ => rfl⟩, ⟨fun _ => Or.inl (e.1 hm), fun _ => rfl⟩⟩
  · rw [if_neg hm, if_neg hm]
    by_cases hok : (spinHelper (n + 1) spin n).2 = some true
    · rw [if_pos hok, if_pos hok]
      constructor
      · constructor
        · intro h; simp at h
        · rintro (h | h)
          · exact absurd (e.2 h) hm
          · exact absurd hok h
      · constructor
        · intro h; simp at h
        · rintro (h | h)
          · exact absurd (e.2 h) hm
          · exact absurd hok h
    · rw [if_neg hok, if_neg hok]
      exact ⟨⟨fun _ => Or.inr hok, fun _ => rfl⟩, ⟨fun _ => Or.inr hok, fun _ => rfl⟩⟩

theorem spinSweep_inverse {X Z : Type} (op : (s : ℤ) → (Fin (spinComp s) → X) → (Fin (spinComp s) → Z))
    (op' : (s : ℤ) → (Fin (spinComp s) → Z) → (Fin (spinComp s) → X)) (hop : ∀ s x, op' s (op s x) = x)
    {j n : Nat} {gs : List (ℤ × Nat × Nat)} (h : GroupChain j n gs) (x x0 : Nat → X) (z : Nat → Z)
    (hz : ∀ g ∈ gs, ∀ i : Fin (spinComp g.1), z (g.2.1 + i) = op g.1 (fun i => x (g.2.1 + i)) i) (c : Nat) (hj : j ≤ c)
    (hc : c < n) : spinSweep op' gs z x0 c = x c := by
  induction h generalizing x0 with
  | nil => omega
  | cons s j gs h ih =>
    by_cases hcs : c < j + spinComp s
    · obtain ⟨i, rfl⟩ : ∃ i : Fin (spinComp s), c = j + i := ⟨⟨c - j, by omega⟩, by simp only; omega⟩
      rw [spinSweep_head _ h]
      have e : (fun i : Fin (spinComp s) => z (j + i)) = op s (fun i => x (j + i)) := by
        funext i; exact hz _ List.mem_cons_self i
      rw [e, hop]
    · rw [spinSweep_cons]
      exact ih _ (fun g hg => hz g (List.mem_cons_of_mem _ hg)) (by omega) hc

/-- C140: when the map covers all the pixels of the transform (no padding) and the weights are exact for the coefficients'
band limit (Y'WY = 1, or analysis undoing synthesis), map2alm recovers the coefficients of alm2map exactly: with the 2d
method and with the cyl method for every number of iterations. -/
theorem C140_exact {ny nx : Nat} (obuf fy fx : Bool) (D : Ducc A (Grid (0 + ny + 0) (0 + nx + 0)))
    (weights : Fin (0 + ny + 0) → ℝ) (niter : Nat)
    (spin : List ℤ) (n : Nat) (alm alm0 : Nat → A) (map0 map1 : Nat → Grid ny nx)
    (h1 : alm2mapBuf obuf fy fx (0, 0) (0, 0) D spin n alm map0 = some map1) :
    ((∀ s a, D.ana s (D.syn s a) = a) →
      ∃ alm1, map2alm2d fy fx (0, 0) (0, 0) D spin n map1 alm0 = some alm1 ∧ ∀ c < n, alm1 c = alm c) ∧
    ((∀ s a, D.asyn s (fun i => rowMul weights (D.syn s a i)) = a) →
      ∃ alm1, map2almCyl fy fx (0, 0) (0, 0) D weights niter spin n map1 alm0 = some alm1 ∧ ∀ c < n, alm1 c = alm c) := by
  have hok := (C140_alm2map obuf fy fx (0, 0) (0, 0) D spin n alm map0).1.1 (by rw [h1]; rfl)
  have hv := (C140_alm2map obuf fy fx (0, 0) (0, 0) D spin n alm map0).2 map1 h1
  have hch := spinHelper_chain spin n hok
  have hz : ∀ g ∈ (spinHelper (n + 1) spin n).1, ∀ i : Fin (spinComp g.1),
      toBuf fy fx (0, 0) (0, 0) (map1 (g.2.1 + i)) = D.syn g.1 (fun i => alm (g.2.1 + i)) i := by
    intro g hg i
    rw [hv g hg i]
    exact to_from fy fx _
  constructor
  · intro hinv
    refine ⟨_, by unfold map2alm2d map2almRaw2d spinApply; rw [if_pos hok], fun c hc => ?_⟩
    exact spinSweep_inverse (fun s a => D.syn s a) _ hinv hch alm alm0 _ hz c (Nat.zero_le _) hc
  · intro hinv
    refine ⟨_, by unfold map2almCyl map2almRaw spinApply; rw [if_pos hok], fun c hc => ?_⟩
    refine spinSweep_inverse (fun s a => D.syn s a) _ ?_ hch alm alm0 _ hz c (Nat.zero_le _) hc
    intro s x
    obtain ⟨W, hW, -⟩ := gridWeights (w := 0 + nx + 0) weights
    have := C42_exact (D.syn s) ((D.asyn s).comp (LinearMap.pi fun i => W.comp (LinearMap.proj i))) (fun x => by
      have := hinv s x
      simp only [← hW] at this
      exact this) x niter
    simp only [← hW]
    exact this

/-! Derivatives. -/

theorem InnerLike.zero_left {X : Type} [AddCommGroup X] {I : X → X → ℝ} (h : InnerLike I) (y : X) : I 0 y = 0 := by
  have := h.sub_left 0 0 y
  rw [sub_zero, sub_self] at this; exact this

theorem InnerLike.neg_left {X : Type} [AddCommGroup X] {I : X → X → ℝ} (h : InnerLike I) (x y : X) : I (-x) y = -I x y := by
  have := h.sub_left 0 x y
  rw [zero_sub, h.zero_left, zero_sub] at this; exact this

/-- C140, adjoint of the derivatives, partial: what alm2map_adjoint with deriv computes is right for a map exactly when the
map's first component is orthogonal to every derivative along colatitude: when it contributes nothing. -/
theorem C140_deriv_adjoint_partial (D : Ducc A P) (IA : A → A → ℝ) (IP : P → P → ℝ) (hP : InnerLike IP)
    (hD : D.Ok IA IP) (map : P × P) :
    (∀ alm, IP (alm2mapDeriv D alm).1 map.1 + IP (alm2mapDeriv D alm).2 map.2 = IA alm (alm2mapDerivAdj D map).1) ↔
      ∀ alm, IP (D.dsyn alm).1 map.1 = 0 := by
  refine forall_congr' fun alm => ?_
  show IP (-(D.dsyn alm).1) map.1 + IP (D.dsyn alm).2 map.2 = IA alm (D.dasyn map) ↔ _
  rw [hP.neg_left, ← hD.deriv]
  constructor
  · intro h; linarith
  · intro h; rw [h]; simp

/-- C140: with deriv, alm2map_adjoint leaves its map argument alone except in the general method without masked pixels,
where it changes the sign of the first component. -/
theorem C140_deriv_map (D : Ducc A P) (general masked : Bool) (map : P × P) :
    derivAdjMapAfter D general masked map = if general = true ∧ masked = false then (-map.1, map.2) else map := by
  cases general <;> cases masked <;> rfl

/-- C140: in map2alm with deriv by the cyl and general methods, the array given to the transform has three axes instead of
two, and in its first entry both components have changed sign. -/
theorem C140_decflip (npix : Nat) (map : Fin 2 → P) :
    npBroadcast [2, npix] [2, 1, 1] = some [2, 2, npix] ∧ decflipMul map 0 = (fun c => -map c) ∧
      decflipMul map 1 = map := by
  refine ⟨?_, ?_, ?_⟩
  · unfold npBroadcast
    simp [npBroadcast.go]
  · funext c; simp [decflipMul]
  · funext c; simp [decflipMul]

end Main

/-! A small transform: every pixel gets the coefficient. -/

/-- Synthesis that puts the coefficient times k in every pixel of a map with pixels `ι`, with its adjoint; half of it is
the derivative along colatitude. -/
def toyDucc (P : Type) [AddCommGroup P] [Module ℝ P] (u : ℝ →ₗ[ℝ] P) (v : P →ₗ[ℝ] ℝ) : Ducc ℝ P where
  syn _ := LinearMap.pi fun i => u.comp (LinearMap.proj i)
  asyn _ := LinearMap.pi fun i => v.comp (LinearMap.proj i)
  ana _ := LinearMap.pi fun i => v.comp (LinearMap.proj i)
  aana _ := LinearMap.pi fun i => u.comp (LinearMap.proj i)
  dsyn := u.prod 0
  dasyn := v.comp (LinearMap.fst ℝ P P)

theorem toyDucc_ok {P : Type} [AddCommGroup P] [Module ℝ P] (u : ℝ →ₗ[ℝ] P) (v : P →ₗ[ℝ] ℝ) (IP : P → P → ℝ)
    (hP : InnerLike IP) (h : ∀ a m, IP (u a) m = a * v m) : (toyDucc P u v).Ok (fun a b => a * b) IP := by
  refine ⟨?_, ?_, ?_⟩
  · intro s a m
    exact Finset.sum_congr rfl fun i _ => h _ _
  · intro s m a
    refine Finset.sum_congr rfl fun i _ => ?_
    show v (m i) * a i = IP (m i) (u (a i))
    rw [hP.symm, h, mul_comm]
  · intro a m
    show IP (u a) m.1 + IP 0 m.2 = a * v m.1
    rw [h, hP.zero_left, add_zero]

/-- The constant map with the given value times k. -/
def constGrid (h w : Nat) (k : ℝ) : ℝ →ₗ[ℝ] Grid h w where
  toFun a := fun _ _ => k * a
  map_add' a b := by funext i j; simp [mul_add]
  map_smul' r a := by funext i j; simp; ring

/-- k times the sum of all pixels. -/
def sumGrid (h w : Nat) (k : ℝ) : Grid h w →ₗ[ℝ] ℝ where
  toFun m := k * ∑ i, ∑ j, m i j
  map_add' a b := by simp [Finset.sum_add_distrib, mul_add]
  map_smul' r a := by simp [← Finset.mul_sum]; ring

theorem const_sum {h w : Nat} (k a : ℝ) (m : Grid h w) : gridInner (constGrid h w k a) m = a * sumGrid h w k m := by
  show ∑ i, ∑ j, k * a * m i j = a * (k * ∑ i, ∑ j, m i j)
  simp only [← Finset.mul_sum]; ring

/-- The small transform on an array of pixels. -/
noncomputable def toyGrid (h w : Nat) (k : ℝ) : Ducc ℝ (Grid h w) := toyDucc _ (constGrid h w k) (sumGrid h w k)

theorem toyGrid_ok (h w : Nat) (k : ℝ) : (toyGrid h w k).Ok (fun a b => a * b) gridInner :=
  toyDucc_ok _ _ _ gridInner_like (const_sum k)

theorem mul_like : InnerLike (fun a b : ℝ => a * b) := ⟨fun x y => mul_comm x y, fun x y z => sub_mul x y z⟩

/-! Non-trivial cases: three components with spins 0 and 2, a map of 2 by 1 pixels with one padded column, flipped in y. -/

example : (spinHelper (3 + 1) [0, 2] 3).2 = some true := by decide

example : ∃ alm1 map1, alm2mapBuf true true false (0, 1) (0, 0) (toyGrid (0 + 2 + 0) (1 + 1 + 0) 1) [0, 2] 3
      (fun c => (c : ℝ) + 1) (fun _ => 0) = some map1 ∧
    alm2mapBufAdj true false (0, 1) (0, 0) (toyGrid (0 + 2 + 0) (1 + 1 + 0) 1) [0, 2] 3 (fun _ _ _ => 1) (fun _ => 7) = some alm1 ∧
    compInner gridInner 3 map1 (fun _ _ _ => 1) = compInner (fun a b => a * b) 3 (fun c => (c : ℝ) + 1) alm1 := by
  have hok : (spinHelper (3 + 1) [0, 2] 3).2 = some true := by decide
  have e1 : ∃ map1, alm2mapBuf true true false (0, 1) (0, 0) (toyGrid (0 + 2 + 0) (1 + 1 + 0) 1) [0, 2] 3
      (fun c => (c : ℝ) + 1) (fun _ => 0) = some map1 := by
    rw [← Option.isSome_iff_exists, (C140_alm2map _ _ _ _ _ _ _ _ _ _).1]; exact hok
  obtain ⟨map1, h1⟩ := e1
  have e2 : ∃ alm1, alm2mapBufAdj true false (0, 1) (0, 0) (toyGrid (0 + 2 + 0) (1 + 1 + 0) 1) [0, 2] 3
      (fun _ => (fun _ _ => 1 : Grid 2 1)) (fun _ => (7 : ℝ)) = some alm1 := by
    unfold alm2mapBufAdj alm2mapRawAdj spinApply; rw [if_pos hok]; exact ⟨_, rfl⟩
  obtain ⟨alm1, h2⟩ := e2
  exact ⟨alm1, map1, h1, h2, C140_alm2map_adjoint _ _ _ _ _ _ _ (toyGrid_ok _ _ _) _ _ _ _ _ _ _ _ h1 h2⟩

/-- Weights of one quarter are exact for the small transform on four pixels. -/
example (s : ℤ) (a : Fin (spinComp s) → ℝ) : (toyGrid (0 + 2 + 0) (0 + 2 + 0) 1).asyn s
    (fun i => rowMul (fun _ => 1 / 4) ((toyGrid (0 + 2 + 0) (0 + 2 + 0) 1).syn s a i)) = a := by
  funext i
  show 1 * ∑ _ : Fin (0 + 2 + 0), ∑ _ : Fin (0 + 2 + 0), 1 * a i * (1 / 4) = a i
  simp
  ring

/-! ### What does not hold -/

/-- C140 refuted, derivatives: alm2map_adjoint with deriv is not the adjoint of alm2map with deriv, although ducc's
transforms are adjoint to each other. -/
theorem C140_deriv_adjoint_refuted : ¬ ∀ (h w : Nat) (D : Ducc ℝ (Grid h w)), D.Ok (fun a b => a * b) gridInner →
    ∀ (alm : ℝ) (map : Grid h w × Grid h w), gridInner (alm2mapDeriv D alm).1 map.1 + gridInner (alm2mapDeriv D alm).2 map.2 =
      alm * (alm2mapDerivAdj D map).1 := by
  intro h
  have h1 := (C140_deriv_adjoint_partial (toyGrid 1 1 1) (fun a b => a * b) gridInner gridInner_like (toyGrid_ok 1 1 1)
    (fun _ _ => 1, 0)).1 (fun alm => h 1 1 (toyGrid 1 1 1) (toyGrid_ok 1 1 1) alm _) 1
  have h2 : gridInner (constGrid 1 1 1 1) (fun _ _ => 1) = 0 := h1
  rw [const_sum] at h2
  have h3 : (1 : ℝ) * (1 * ∑ _ : Fin 1, ∑ _ : Fin 1, (1 : ℝ)) = 0 := h2
  simp at h3

/-- C140 refuted, derivatives: alm2map_adjoint with deriv changes the map it should only read. -/
theorem C140_deriv_map_refuted : ¬ ∀ (h w : Nat) (D : Ducc ℝ (Grid h w)) (general masked : Bool) (map : Grid h w × Grid h w),
    derivAdjMapAfter D general masked map = map := by
  intro h
  have h1 := h 1 1 (toyGrid 1 1 1) true false (fun _ _ => 1, 0)
  rw [C140_deriv_map, if_pos ⟨rfl, rfl⟩] at h1
  have h2 := congrFun (congrFun (congrArg Prod.fst h1) 0) 0
  simp at h2
  norm_num at h2

/-- C140 refuted, derivatives in map2alm: no entry of the array given to the transform is the map with the sign of its
first component alone changed. -/
theorem C140_decflip_refuted : ¬ ∀ (map : Fin 2 → ℝ), ∃ i, decflipMul map i = fun c => if c = 0 then -map c else map c := by
  intro h
  obtain ⟨i, hi⟩ := h (fun _ => 1)
  have h0 := congrFun hi 0
  have h1 := congrFun hi 1
  have hcase : i = 0 ∨ i = 1 := by omega
  rcases hcase with rfl | rfl
  · rw [(C140_decflip 0 _).2.1] at h1
    norm_num at h1
  · rw [(C140_decflip 0 _).2.2] at h0
    norm_num at h0

/-- The constant map on the pixels with a position, and the sum of all pixels. -/
noncomputable def toyMask (k : ℝ) : Ducc ℝ (MaskPix (fun (_ : Fin 1) (_ : Fin 1) => true) → ℝ) :=
  toyDucc _ { toFun := fun a _ => k * a, map_add' := fun a b => by funext; simp [mul_add],
              map_smul' := fun r a => by funext; simp; ring }
    { toFun := fun m => k * ∑ i, m i, map_add' := fun a b => by simp [Finset.sum_add_distrib, mul_add],
      map_smul' := fun r a => by simp [← Finset.mul_sum]; ring }

theorem maskPix_one : (Finset.univ : Finset (MaskPix (fun (_ : Fin 1) (_ : Fin 1) => true))) = {⟨(0, 0), rfl⟩} := by
  ext k
  simp only [Finset.mem_univ, Finset.mem_singleton, true_iff]
  apply Subtype.ext
  exact Prod.ext (Subsingleton.elim _ _) (Subsingleton.elim _ _)

/-- C140 refuted, iterations: with the general method map2alm does not do the number of Jacobi iterations asked for. -/
theorem C140_niter_refuted : ¬ ∀ (D : Ducc ℝ (MaskPix (fun (_ : Fin 1) (_ : Fin 1) => true) → ℝ)) (niter : Nat) (map : Nat → Grid 1 1)
    (c : Nat), c < 1 →
    (map2almCallGeneral _ false D (fun _ => 1) niter [0] 1 map (fun _ => 0)).map (fun a => a c) =
      (map2almGeneral _ false D (fun _ => 1) niter [0] 1 map (fun _ => 0)).map (fun a => a c) := by
  intro h
  have h1 := h (toyMask 2) 1 (fun _ _ _ => 1) 0 (by omega)
  have hok : (spinHelper (1 + 1) [0] 1) = ([(0, 0, 1)], some true) := by decide
  have hm : ¬ (maskedAny (fun (_ : Fin 1) (_ : Fin 1) => true) && false) = true := by simp
  unfold map2almCallGeneral map2almGeneral map2almRaw spinApply at h1
  rw [if_neg hm, if_neg hm, hok, if_pos rfl, if_pos rfl] at h1
  have key : ∀ (op : (s : ℤ) → (Fin (spinComp s) → (MaskPix (fun (_ : Fin 1) (_ : Fin 1) => true) → ℝ)) → (Fin (spinComp s) → ℝ))
      (x : Nat → (MaskPix (fun (_ : Fin 1) (_ : Fin 1) => true) → ℝ)) (z : Nat → ℝ),
      spinSweep op [(0, 0, 1)] x z 0 = op 0 (fun i => x (0 + i)) ⟨0, by decide⟩ := by
    intro op x z
    exact spinSweep_head (s := 0) (j := 0) op (GroupChain.nil 1) x z ⟨0, by decide⟩
  simp only [Option.map_some, key, Option.some.injEq] at h1
  rw [jacobi_succ] at h1
  have e0 : ∀ y, jacobiInverse (fun a => (toyMask 2).syn 0 a) (fun m => (toyMask 2).asyn 0 (fun i k => m i k * 1)) y 0 =
      (toyMask 2).asyn 0 (fun i k => y i k * 1) := fun _ => rfl
  rw [e0] at h1
  have e1 : ∀ m i, (toyMask 2).asyn 0 m i = 2 * ∑ k, m i k := fun _ _ => rfl
  have e2 : ∀ a i k, (toyMask 2).syn 0 a i k = 2 * a i := fun _ _ _ => rfl
  simp only [Pi.sub_apply, e1, e2, maskPix_one, Finset.sum_singleton, gatherMask] at h1
  norm_num at h1

/-- C140, layouts: all transforms use the position of each coefficient given by the layout, for the triangular layout with
the coefficients of an m next to each other; the 2d and cyl methods and map2alm for every layout of stride 1. -/
theorem C140_layout_partial (a : AlmInfo) (h : a.stride = 1) (l m : Nat) :
    coefIndex false a l m = a.lm2ind l m ∧ coefIndexBack a l m = a.lm2ind l m ∧
    (a.mstart m = m * (2 * a.lmax + 1 - m) / 2 → coefIndex true a l m = a.lm2ind l m) := by
  unfold coefIndex coefIndexBack AlmInfo.lm2ind duccMstart
  rw [h, Nat.mul_one]
  refine ⟨rfl, rfl, fun e => ?_⟩
  rw [e]; rfl

/-- C140 refuted, layouts: for the rectangular layout the general method of alm2map reads other coefficients than those of
the layout, and so do all methods for a layout with a stride other than 1. -/
theorem C140_layout_refuted :
    (∃ (a : AlmInfo) (l m : Nat), almInfo (some 1) none none 1 .rect = some a ∧ m ≤ l ∧ l ≤ a.lmax ∧
      coefIndex true a l m ≠ a.lm2ind l m ∧ coefIndexBack a l m = a.lm2ind l m) ∧
    (∃ (a : AlmInfo) (l m : Nat), almInfo (some 1) none none 2 .tri = some a ∧ m ≤ l ∧ l ≤ a.lmax ∧
      coefIndex false a l m ≠ a.lm2ind l m ∧ coefIndex true a l m ≠ a.lm2ind l m ∧ coefIndexBack a l m ≠ a.lm2ind l m) := by
  refine ⟨⟨_, 1, 1, rfl, ?_⟩, ⟨_, 1, 1, rfl, ?_⟩⟩
  · refine ⟨le_refl _, le_refl _, ?_, ?_⟩ <;> decide
  · refine ⟨le_refl _, le_refl _, ?_, ?_, ?_⟩ <;> decide

/-- C140, band limit, partial: map2alm with the 2d method overwrites all coefficients when the grid supports them. -/
theorem C140_band_partial {C : Type} (L M G : Nat) (hG : L ≤ G) (hM : M ≤ L) (result old : Nat → Nat → C) (l m : Nat)
    (hl : l ≤ L) (hm : m ≤ M) (hml : m ≤ l) : writeBand L M G result old l m = result l m := by
  unfold writeBand
  rw [if_pos]
  rw [Nat.min_eq_left hG, Nat.min_eq_left hM]
  exact ⟨hl, hm, hml⟩

/-- C140 refuted, band limit: coefficients beyond the band limit of the grid keep what was in the array before. -/
theorem C140_band_refuted {C : Type} (L M G : Nat) (hG : G < L) (result old : Nat → Nat → C) :
    writeBand L M G result old L 0 = old L 0 := by
  unfold writeBand
  rw [if_neg]
  rw [Nat.min_eq_right hG.le]
  omega

/-! ### The buffers of Model/Sht.lean -/

/-- The rows of an array as lists. -/
def rowsOf {h w : Nat} (g : Grid h w) : List (List ℝ) := List.ofFn fun i => List.ofFn (g i)

theorem flip_ofFn {α : Type} {n : Nat} (f : Bool) (g : Fin n → α) :
    (if f then (List.ofFn g).reverse else List.ofFn g) = List.ofFn fun i => g (flipIdx f i) := by
  cases f
  · rfl
  · simp only [if_true]
    apply List.ext_getElem
    · simp
    · intro i h1 h2
      simp only [List.getElem_reverse, List.getElem_ofFn, List.length_ofFn]
      congr 1

theorem ofFn_frame {α : Type} [Zero α] (p n q : Nat) (f : Fin (p + n + q) → α) (h0 : ∀ i, ¬ (p ≤ i.1 ∧ i.1 < p + n) → f i = 0) :
    List.ofFn f = List.replicate p 0 ++ List.ofFn (fun i : Fin n => f ⟨p + i, by omega⟩) ++ List.replicate q 0 := by
  apply List.ext_getElem
  · simp; omega
  · intro i h1 h2
    rw [List.getElem_ofFn]
    by_cases c1 : i < p
    · rw [List.getElem_append_left (by simp; omega), List.getElem_append_left (by simpa using c1), List.getElem_replicate]
      exact h0 _ (by simp only; omega)
    · by_cases c2 : i < p + n
      · rw [List.getElem_append_left (by simp; omega), List.getElem_append_right (by simp; omega), List.getElem_ofFn]
        congr 1
        apply Fin.ext
        simp; omega
      · rw [List.getElem_append_right (by simp; omega), List.getElem_replicate]
        exact h0 _ (by simp only; omega)

/-- The arrays of this file are those of the model with lists and geometries (C67). -/
theorem C140_buffer {ny nx : Nat} (w : Axis) (fy fx : Bool) (p q : Nat × Nat) (m : Grid ny nx) :
    map2buffer (rowsOf m) nx w fy fx p q = some (rowsOf (toBuf fy fx p q m)) := by
  rw [C67_buffer _ _ _ _ _ _ _ (by
    intro r hr
    unfold rowsOf at hr
    rw [List.mem_ofFn] at hr
    obtain ⟨i, rfl⟩ := hr
    simp)]
  congr 1
  unfold framed
  have hz : ∀ i : Fin (p.1 + ny + q.1), ¬ (p.1 ≤ i.1 ∧ i.1 < p.1 + ny) →
      List.ofFn (toBuf fy fx p q m i) = List.replicate (nx + p.2 + q.2) 0 := by
    intro i hi
    rw [List.eq_replicate_iff]
    refine ⟨by simp; omega, ?_⟩
    intro x hx
    rw [List.mem_ofFn] at hx
    obtain ⟨j, rfl⟩ := hx
    unfold toBuf
    rw [dif_neg (by tauto)]
  have hrow : ∀ i : Fin ny, List.ofFn (toBuf fy fx p q m ⟨p.1 + i, by omega⟩) =
      List.replicate p.2 0 ++ (List.ofFn fun j => m (flipIdx fy i) (flipIdx fx j)) ++ List.replicate q.2 0 := by
    intro i
    rw [ofFn_frame p.2 nx q.2]
    · congr 2
      apply congrArg
      funext j
      unfold toBuf
      rw [dif_pos (by simp only; omega)]
      congr 1
      · apply congrArg; exact Fin.ext (by simp)
      · apply congrArg; exact Fin.ext (by simp)
    · intro j hj
      unfold toBuf
      rw [dif_neg (by tauto)]
  unfold rowsOf
  rw [flip_ofFn, List.map_ofFn]
  apply List.ext_getElem
  · simp; omega
  · intro i h1 h2
    rw [List.getElem_ofFn]
    by_cases c1 : i < p.1
    · rw [List.getElem_append_left (by simp; omega), List.getElem_append_left (by simpa using c1), List.getElem_replicate]
      exact (hz _ (by simp only; omega)).symm
    · by_cases c2 : i < p.1 + ny
      · rw [List.getElem_append_left (by simp; omega), List.getElem_append_right (by simp; omega), List.getElem_ofFn]
        simp only [Function.comp, List.length_replicate]
        rw [flip_ofFn]
        have := hrow ⟨i - p.1, by omega⟩
        rw [← this]
        congr 2
        apply Fin.ext
        simp; omega
      · rw [List.getElem_append_right (by simp; omega), List.getElem_replicate]
        exact (hz _ (by simp only; omega)).symm

theorem ofFn_split {α : Type} (p n q : Nat) (f : Fin (p + n + q) → α) :
    List.ofFn f = List.ofFn (fun i : Fin p => f ⟨i, by omega⟩) ++ List.ofFn (fun i : Fin n => f ⟨p + i, by omega⟩) ++
      List.ofFn (fun i : Fin q => f ⟨p + n + i, by omega⟩) := by
  rw [List.ofFn_add, List.ofFn_add]
  rfl

/-- The same for copying out. -/
theorem C140_buffer_out {ny nx : Nat} (fy fx : Bool) (p q : Nat × Nat) (b : Grid (p.1 + ny + q.1) (p.2 + nx + q.2)) :
    buffer2map (rowsOf b) (p.2 + nx + q.2) fy fx p q = some (rowsOf (fromBuf fy fx p q b)) := by
  unfold buffer2map rowsOf
  rw [ofFn_split, npGet_mid _ _ _ _ _ (by simp) (by simp)]
  simp only [Option.bind_eq_bind, Option.bind_some]
  have e1 : (List.ofFn fun i : Fin ny => List.ofFn (b ⟨p.1 + i, by omega⟩)).mapM
      (fun r => PySpec.npGet r ⟨some p.2, some (((p.2 + nx + q.2 : Nat) : ℤ) - q.2), none⟩) =
      some (List.ofFn fun i : Fin ny => List.ofFn fun j : Fin nx => b ⟨p.1 + i, by omega⟩ ⟨p.2 + j, by omega⟩) := by
    rw [show (List.ofFn fun i : Fin ny => List.ofFn (b ⟨p.1 + i, by omega⟩)) =
      (List.finRange ny).map (fun i : Fin ny => List.ofFn (b ⟨p.1 + i, by omega⟩)) from List.ofFn_eq_map,
      List.mapM_map, mapM_total _ _ (fun i : Fin ny => List.ofFn fun j : Fin nx => b ⟨p.1 + i, by omega⟩ ⟨p.2 + j, by omega⟩)]
    · rw [← List.ofFn_eq_map]
    · intro i _
      simp only [Function.comp]
      rw [ofFn_split]
      have := npGet_mid (List.ofFn fun j : Fin p.2 => b ⟨p.1 + i, by omega⟩ ⟨j, by omega⟩)
        (List.ofFn fun j : Fin nx => b ⟨p.1 + i, by omega⟩ ⟨p.2 + j, by omega⟩)
        (List.ofFn fun j : Fin q.2 => b ⟨p.1 + i, by omega⟩ ⟨p.2 + nx + j, by omega⟩) p.2 q.2 (by simp) (by simp)
      simp only [List.length_append, List.length_ofFn] at this
      exact this
  rw [e1]
  simp only [Option.bind_some, npGet_flip]
  rw [mapM_total _ _ (fun r => if fx then r.reverse else r) (by simp), flip_ofFn, List.map_ofFn]
  congr 2
  funext i
  simp only [Function.comp]
  rw [flip_ofFn]
  rfl

end Pixell
