import Verif.Model.InterpolDeriv
import Verif.Props.Interpol
import Mathlib.Analysis.Calculus.Deriv.Pow
import Mathlib.Analysis.Calculus.Deriv.Add
import Mathlib.Analysis.Calculus.Deriv.Mul

/-!
# C90: derivatives of interpolated arrays
-/

set_option linter.unusedSectionVars false

namespace Pixell

section Value

variable {K : Type} [Field K] [LinearOrder K] [IsStrictOrderedRing K] [FloorRing K]

/-- The axes with the weights along axis `i` replaced. -/
def withWeights (axs : List (CtxAxis K)) (i : ℕ) (dw : ℕ → K) : List (CtxAxis K) :=
  axs.modify i fun ax => { ax with w := dw }

theorem derivLoop_all (b : Border) {nw : ℕ} (hw : 0 < nw) (axs : List (CtxAxis K)) (ns : List ℕ)
    (hns : ∀ n ∈ ns, n = nw) (f : List ℕ → ℕ) (k j : ℕ)
    (h : ∀ i < k, ctxIndex b axs (unravelRev ns (j + i)) = some (f (unravelRev ns (j + i)))) :
    derivLoop b nw axs k (unravelRev ns j)
      = (List.range k).map fun i => (f (unravelRev ns (j + i)), unravelRev ns (j + i)) := by
  induction k generalizing j with
  | zero => rfl
  | succ k ih =>
    have h0 := h 0 (by omega)
    rw [add_zero] at h0
    rw [derivLoop, h0, List.range_succ_eq_map, List.map_cons, List.map_map]
    simp only
    rw [advInds_unravel hw ns hns, ih (j + 1) fun i hi => by
      have := h (i + 1) (by omega)
      rw [show j + (i + 1) = j + 1 + i by omega] at this
      exact this]
    simp only [add_zero, Function.comp_def]
    congr 1
    refine List.map_congr_left fun i _ => ?_
    rw [show j + 1 + i = j + i.succ by omega]

theorem derivAt_sum (b : Border) {nw : ℕ} (hw : 0 < nw) (axs : List (CtxAxis K)) (i : ℕ)
    (dw : ℕ → K) (f : List ℕ → ℕ) (data : ℕ → K)
    (h : ∀ J, List.Forall₂ (· < ·) J (axs.map fun _ => nw) → ctxIndex b axs J = some (f J)) :
    derivAt b nw axs i dw data
      = gridSum (axs.map fun _ => nw) fun J =>
          if data (f J) * ctxProd axs J = 0 then 0 else
          data (f J) * ctxProd axs J * dw (J.getD i 0)
            / ((axs[i]?.map fun ax => ax.w).getD fun _ => 0) (J.getD i 0) := by
  have hns : ∀ n ∈ axs.map (fun _ => nw), n = nw := by
    intro n hn
    obtain ⟨_, _, h⟩ := List.mem_map.mp hn
    exact h.symm
  have hp : (axs.map fun _ => nw).prod = nw ^ axs.length := by
    rw [List.map_const', List.prod_replicate]
  have hz : (axs.map fun _ => 0) = unravelRev (axs.map fun _ => nw) 0 := by
    rw [unravel_zero, List.map_map]; rfl
  unfold derivAt
  rw [hz, derivLoop_all b hw axs _ hns f (nw ^ axs.length) 0 fun i hi => by
      rw [zero_add]
      exact h _ (ravel_unravel _ i (by rw [hp]; exact hi)).2]
  generalize ((axs[i]?.map fun ax => ax.w).getD fun _ => 0) = w
  have e : ∀ (l : List (ℕ × List ℕ)) (r : K), l.foldl (fun res c =>
      let v := data c.1 * ctxProd axs c.2
      if v = 0 then res else res + v * dw (c.2.getD i 0) / w (c.2.getD i 0)) r
      = r + (l.map fun c => if data c.1 * ctxProd axs c.2 = 0 then 0 else
          data c.1 * ctxProd axs c.2 * dw (c.2.getD i 0) / w (c.2.getD i 0)).sum := by
    intro l r
    rw [← foldl_add_eq]
    congr 1
    funext res c
    simp only
    split <;> simp
  rw [e, zero_add, List.map_map, ← sum_unravel, hp, listSum_range]
  simp

theorem cellIdx_withWeights (b : Border) (axs : List (CtxAxis K)) (i : ℕ) (dw : ℕ → K) (J : List ℕ) :
    cellIdx b (withWeights axs i dw) J = cellIdx b axs J := by
  induction axs generalizing i J with
  | nil => simp [withWeights]
  | cons ax axs ih =>
    cases J with
    | nil => cases i <;> simp [withWeights, cellIdx]
    | cons j js =>
      cases i with
      | zero => simp [withWeights, cellIdx]
      | succ i => simpa [withWeights, cellIdx] using ih i js

theorem ctxProd_withWeights {axs : List (CtxAxis K)} {i : ℕ} (hi : i < axs.length) (dw : ℕ → K)
    {J : List ℕ} (hl : J.length = axs.length) :
    axs[i].w (J.getD i 0) * ctxProd (withWeights axs i dw) J = dw (J.getD i 0) * ctxProd axs J ∧
    (dw (J.getD i 0) = 0 → ctxProd (withWeights axs i dw) J = 0) ∧
    (axs[i].w (J.getD i 0) = 0 → ctxProd axs J = 0) := by
  induction axs generalizing i J with
  | nil => simp at hi
  | cons ax axs ih =>
    cases J with
    | nil => simp at hl
    | cons j js =>
      simp only [List.length_cons, Nat.add_right_cancel_iff] at hl
      cases i with
      | zero =>
        simp only [withWeights, List.modify_zero_cons, ctxProd, List.getElem_cons_zero,
          List.getD_cons_zero]
        refine ⟨by ring, fun h => by rw [h, zero_mul], fun h => by rw [h, zero_mul]⟩
      | succ i =>
        simp only [List.length_cons, Nat.add_lt_add_iff_right] at hi
        obtain ⟨h1, h2, h3⟩ := ih hi hl
        simp only [withWeights] at h1 h2
        simp only [withWeights, List.modify_succ_cons, ctxProd, List.getElem_cons_succ,
          List.getD_cons_succ]
        refine ⟨by linear_combination ax.w j * h1, fun h => by rw [h2 h, mul_zero],
          fun h => by rw [h3 h, mul_zero]⟩

/-- Along an axis where no weight vanishes without its derivative weight vanishing too, the
derivative is the interpolation with the derivative weights along that axis. -/
theorem C90_value {b : Border} {nw : ℕ} (hw : 0 < nw) (axs : List (CtxAxis K))
    (hb : ∀ ax ∈ axs, BorderOK b ax.n) {i : ℕ} (hi : i < axs.length) (dw : ℕ → K)
    (hz : ∀ j < nw, axs[i].w j = 0 → dw j = 0) (data : ℕ → K) :
    derivAt b nw axs i dw data
      = ctxSpec b nw (withWeights axs i dw) fun xs => data (ravelRev (axs.map (·.n)) xs) := by
  rw [derivAt_sum b hw axs i dw (fun J => ravelRev (axs.map (·.n)) (cellIdx b axs J)) data]
  · rw [← gridSum_cells b nw (withWeights axs i dw)]
    have hm : ((withWeights axs i dw).map fun _ => nw) = axs.map fun _ => nw := by
      simp [withWeights, List.map_const']
    rw [hm]
    refine gridSum_congr _ fun J hJ => ?_
    have hl : J.length = axs.length := by rw [hJ.length_eq, List.length_map]
    obtain ⟨h1, h2, h3⟩ := ctxProd_withWeights hi dw hl
    rw [cellIdx_withWeights, List.getElem?_eq_getElem hi]
    simp only [Option.map_some, Option.getD_some]
    have hlt : J.getD i 0 < nw := by
      have h := (List.forall₂_iff_get.mp hJ).2 i (by omega) (by rw [List.length_map]; exact hi)
      rw [List.getD_eq_getElem?_getD, List.getElem?_eq_getElem (by omega), Option.getD_some]
      simpa using h
    generalize data (ravelRev (axs.map (·.n)) (cellIdx b axs J)) = d
    by_cases hw0 : axs[i].w (J.getD i 0) = 0
    · rw [h3 hw0, h2 (hz _ hlt hw0)]; simp
    · have : ctxProd (withWeights axs i dw) J
          = dw (J.getD i 0) * ctxProd axs J / axs[i].w (J.getD i 0) := by
        rw [eq_div_iff hw0, mul_comm, h1]
      rw [this]
      split
      · rename_i h0
        rw [show d * (dw (J.getD i 0) * ctxProd axs J / axs[i].w (J.getD i 0))
          = d * ctxProd axs J * (dw (J.getD i 0) / axs[i].w (J.getD i 0)) by ring, h0, zero_mul]
      · ring
  · intro J hJ
    have hl : J.length = axs.length := by rw [hJ.length_eq, List.length_map]
    refine ctxIndex_some hl ?_
    rw [List.forall₂_iff_get]
    exact ⟨hl.symm, fun i h1 h2 => (mapBorder_range (hb _ (List.get_mem ..)) _).1⟩

end Value

/-! ## The derivative weights -/

section Weights

/-- The kernels whose derivative weights are right. -/
def DerivOK : Kernel → ℕ → Prop
  | .conv, order => order = 3
  | .spline, order => order = 2 ∨ order = 4

theorem DerivOK.ok {t : Kernel} {order : ℕ} (h : DerivOK t order) : KernelOK t order := by
  cases t with
  | conv => exact Or.inr (Or.inr h)
  | spline => rcases h with rfl | rfl <;> simp [KernelOK]

theorem DerivOK.ne {t : Kernel} {order : ℕ} (h : DerivOK t order) : order ≠ 0 := by
  cases t with
  | conv => cases h; decide
  | spline => rcases h with rfl | rfl <;> decide

/-- The kernel at distance `x`. -/
noncomputable def kernelAt : Kernel → ℕ → ℝ → ℝ
  | .conv, order, x => convKernel order x
  | .spline, order, x => splineKernel order x

/-- The derivative weight at signed distance `y`. -/
noncomputable def dkernelAt (t : Kernel) (order : ℕ) (y : ℝ) : ℝ :=
  (if y > 0 then 1 else -1) * match t with
    | .conv => convDKernel order |y|
    | .spline => splineDKernel order |y|

theorem dconv3_a {x : ℝ} (h : x < 1) : convDKernel 3 x = 9 / 2 * x ^ 2 - 5 * x := by
  unfold convDKernel; rw [if_neg (by decide), if_pos rfl, if_pos h]

theorem dconv3_b {x : ℝ} (h0 : 1 ≤ x) (h : x < 2) :
    convDKernel 3 x = -3 / 2 * x ^ 2 + 5 * x - 4 := by
  unfold convDKernel
  rw [if_neg (by decide), if_pos rfl, if_neg (not_lt.mpr h0), if_pos h]

theorem dspl2_a {x : ℝ} (h : x < 1 / 2) : splineDKernel 2 x = -2 * x := by
  unfold splineDKernel; rw [if_neg (by decide), if_pos rfl, if_pos h]

theorem dspl2_b {x : ℝ} (h0 : 1 / 2 ≤ x) (h : x < 3 / 2) : splineDKernel 2 x = -(3 / 2 - x) := by
  unfold splineDKernel
  rw [if_neg (by decide), if_pos rfl, if_neg (not_lt.mpr h0), if_pos h]

theorem dspl3_a {x : ℝ} (h : x < 1) : splineDKernel 3 x = x ^ 2 - x * 2 / 3 := by
  unfold splineDKernel
  rw [if_neg (by decide), if_neg (by decide), if_pos rfl, if_pos h]

theorem dspl3_b {x : ℝ} (h0 : 1 ≤ x) (h : x < 2) : splineDKernel 3 x = -(2 - x) ^ 2 / 2 := by
  unfold splineDKernel
  rw [if_neg (by decide), if_neg (by decide), if_pos rfl, if_neg (not_lt.mpr h0), if_pos h]

theorem dspl3_c {x : ℝ} (h0 : 2 ≤ x) : splineDKernel 3 x = 0 := by
  unfold splineDKernel
  rw [if_neg (by decide), if_neg (by decide), if_pos rfl, if_neg (not_lt.mpr (by linarith)),
    if_neg (not_lt.mpr h0)]

theorem dspl4_a {x : ℝ} (h : x < 1 / 2) :
    splineDKernel 4 x = 2 * x * (x ^ 2 * (1 / 4) - 5 / 8) + x ^ 2 * 2 * x * (1 / 4) := by
  unfold splineDKernel
  rw [if_neg (by decide), if_neg (by decide), if_neg (by decide), if_pos rfl, if_pos h]

theorem dspl4_b {x : ℝ} (h0 : 1 / 2 ≤ x) (h : x < 3 / 2) :
    splineDKernel 4 x = x ^ 2 * 5 / 2 - x ^ 3 * 2 / 3 - 2 * x * (5 / 4) + 5 / 24 := by
  unfold splineDKernel
  rw [if_neg (by decide), if_neg (by decide), if_neg (by decide), if_pos rfl,
    if_neg (not_lt.mpr h0), if_pos h]

theorem dspl4_c {x : ℝ} (h0 : 3 / 2 ≤ x) (h : x < 5 / 2) :
    splineDKernel 4 x = (x - 5 / 2) ^ 3 / 6 := by
  unfold splineDKernel
  rw [if_neg (by decide), if_neg (by decide), if_neg (by decide), if_pos rfl,
    if_neg (not_lt.mpr (by linarith)), if_neg (not_lt.mpr h0), if_pos h]

/-- The start of the context, relative to the point. -/
noncomputable def ctxHalf (t : Kernel) (order : ℕ) : ℝ := ((weightLength t order : ℝ) - 2) * (1 / 2)

/-- Between knots every weight is a polynomial, the derivative weight is its derivative, and the
weight does not vanish. -/
theorem weights_poly {t : Kernel} {order : ℕ} (h : DerivOK t order) {j : ℕ}
    (hj : j < weightLength t order) :
    ∃ a b c d e : ℝ, ∀ s, ctxHalf t order < s → s < ctxHalf t order + 1 →
      kernelAt t order |s - j| = a + b * (s - j) + c * (s - j) ^ 2 + d * (s - j) ^ 3 + e * (s - j) ^ 4 ∧
      dkernelAt t order (s - j) = b + 2 * c * (s - j) + 3 * d * (s - j) ^ 2 + 4 * e * (s - j) ^ 3 ∧
      kernelAt t order |s - j| ≠ 0 := by
  cases t with
  | conv =>
    obtain rfl : order = 3 := h
    simp only [weightLength, ctxHalf] at hj ⊢
    norm_num at hj ⊢
    obtain rfl | rfl | rfl | rfl : j = 0 ∨ j = 1 ∨ j = 2 ∨ j = 3 := by omega
    · refine ⟨2, -4, 5 / 2, -1 / 2, 0, fun s h1 h2 => ?_⟩
      have hy : 0 < s - ((0 : ℕ) : ℝ) := by push_cast; linarith
      simp only [kernelAt, dkernelAt]
      rw [abs_of_pos hy, if_pos hy]
      push_cast at hy ⊢
      rw [conv3_b (by linarith) (by linarith), dconv3_b (by linarith) (by linarith)]
      refine ⟨by ring, by ring, ?_⟩
      have : -1 / 2 * (s - 0) ^ 3 + 5 / 2 * (s - 0) ^ 2 - 4 * (s - 0) + 2
          = -((s - 1) * (2 - s) ^ 2 / 2) := by ring
      rw [this]
      have : 0 < (s - 1) * (2 - s) ^ 2 := mul_pos (by linarith) (pow_pos (by linarith) 2)
      linarith
    · refine ⟨1, 0, -5 / 2, 3 / 2, 0, fun s h1 h2 => ?_⟩
      have hy : 0 < s - ((1 : ℕ) : ℝ) := by push_cast; linarith
      simp only [kernelAt, dkernelAt]
      rw [abs_of_pos hy, if_pos hy]
      push_cast at hy ⊢
      rw [conv3_a (by linarith), dconv3_a (by linarith)]
      refine ⟨by ring, by ring, ?_⟩
      have hz : s - 1 < 1 := by linarith
      generalize s - 1 = y at *
      have : 0 < (1 - y) * (1 + y - 3 / 2 * y ^ 2) := mul_pos (by linarith) (by nlinarith)
      nlinarith
    · refine ⟨1, 0, -5 / 2, -3 / 2, 0, fun s h1 h2 => ?_⟩
      have hy : s - ((2 : ℕ) : ℝ) < 0 := by push_cast; linarith
      simp only [kernelAt, dkernelAt]
      rw [abs_of_neg hy, if_neg (not_lt.mpr hy.le)]
      push_cast at hy ⊢
      rw [conv3_a (by linarith), dconv3_a (by linarith)]
      refine ⟨by ring, by ring, ?_⟩
      have hz : -(s - 2) < 1 := by linarith
      generalize hg : -(s - 2) = y at *
      have hy0 : 0 < y := by linarith
      have : 0 < (1 - y) * (1 + y - 3 / 2 * y ^ 2) := mul_pos (by linarith) (by nlinarith)
      nlinarith
    · refine ⟨2, 4, 5 / 2, 1 / 2, 0, fun s h1 h2 => ?_⟩
      have hy : s - ((3 : ℕ) : ℝ) < 0 := by push_cast; linarith
      simp only [kernelAt, dkernelAt]
      rw [abs_of_neg hy, if_neg (not_lt.mpr hy.le)]
      push_cast at hy ⊢
      rw [conv3_b (by linarith) (by linarith), dconv3_b (by linarith) (by linarith)]
      refine ⟨by ring, by ring, ?_⟩
      have : -1 / 2 * (-(s - 3)) ^ 3 + 5 / 2 * (-(s - 3)) ^ 2 - 4 * (-(s - 3)) + 2
          = -((2 - s) * (s - 1) ^ 2 / 2) := by ring
      rw [this]
      have : 0 < (2 - s) * (s - 1) ^ 2 := mul_pos (by linarith) (pow_pos (by linarith) 2)
      linarith
  | spline =>
    rcases h with rfl | rfl
    · simp only [weightLength, ctxHalf] at hj ⊢
      norm_num at hj ⊢
      obtain rfl | rfl | rfl : j = 0 ∨ j = 1 ∨ j = 2 := by omega
      · refine ⟨9 / 8, -3 / 2, 1 / 2, 0, 0, fun s h1 h2 => ?_⟩
        have hy : 0 < s - ((0 : ℕ) : ℝ) := by push_cast; linarith
        simp only [kernelAt, dkernelAt]
        rw [abs_of_pos hy, if_pos hy]
        push_cast at hy ⊢
        rw [spl2_b (by linarith) (by linarith), dspl2_b (by linarith) (by linarith)]
        refine ⟨by ring, by ring, ?_⟩
        have : 0 < (3 / 2 - (s - 0)) ^ 2 := pow_pos (by linarith) 2
        linarith
      · refine ⟨3 / 4, 0, -1, 0, 0, fun s h1 h2 => ?_⟩
        have hc : |s - ((1 : ℕ) : ℝ)| < 1 / 2 := by
          push_cast; rw [abs_lt]; constructor <;> linarith
        simp only [kernelAt, dkernelAt]
        rw [spl2_a hc.le, dspl2_a hc, sq_abs]
        refine ⟨by ring, ?_, ?_⟩
        · by_cases hy : s - ((1 : ℕ) : ℝ) > 0
          · rw [if_pos hy, abs_of_pos hy]; ring
          · rw [if_neg hy, abs_of_nonpos (not_lt.mp hy)]; ring
        · have := sq_lt_sq' (abs_lt.mp hc).1 (abs_lt.mp hc).2
          linarith
      · refine ⟨9 / 8, 3 / 2, 1 / 2, 0, 0, fun s h1 h2 => ?_⟩
        have hy : s - ((2 : ℕ) : ℝ) < 0 := by push_cast; linarith
        simp only [kernelAt, dkernelAt]
        rw [abs_of_neg hy, if_neg (not_lt.mpr hy.le)]
        push_cast at hy ⊢
        rw [spl2_b (by linarith) (by linarith), dspl2_b (by linarith) (by linarith)]
        refine ⟨by ring, by ring, ?_⟩
        have : 0 < (3 / 2 - -(s - 2)) ^ 2 := pow_pos (by linarith) 2
        linarith
    · have pos_b : ∀ x : ℝ, 1 / 2 < x → x < 3 / 2 →
          x * (x * (x * (5 / 6 - x / 6) - 5 / 4) + 5 / 24) + 55 / 96 ≠ 0 := by
        intro x h1 h2
        have e : x * (x * (x * (5 / 6 - x / 6) - 5 / 4) + 5 / 24) + 55 / 96
            = (1 + 4 * (3 / 2 - x) + 6 * (3 / 2 - x) ^ 2 + 4 * (3 / 2 - x) ^ 3 * (1 - (3 / 2 - x)))
              / 24 := by ring
        rw [e]
        have h3 : 0 < 3 / 2 - x := by linarith
        have h4 : 0 < 1 - (3 / 2 - x) := by linarith
        positivity
      simp only [weightLength, ctxHalf] at hj ⊢
      norm_num at hj ⊢
      obtain rfl | rfl | rfl | rfl | rfl : j = 0 ∨ j = 1 ∨ j = 2 ∨ j = 3 ∨ j = 4 := by omega
      · refine ⟨625 / 384, -125 / 48, 25 / 16, -5 / 12, 1 / 24, fun s h1 h2 => ?_⟩
        have hy : 0 < s - ((0 : ℕ) : ℝ) := by push_cast; linarith
        simp only [kernelAt, dkernelAt]
        rw [abs_of_pos hy, if_pos hy]
        push_cast at hy ⊢
        rw [spl4_c (by linarith) (by linarith), dspl4_c (by linarith) (by linarith)]
        refine ⟨by ring, by ring, ?_⟩
        have : (s - 0 - 5 / 2) ^ 4 ≠ 0 := pow_ne_zero 4 (by linarith)
        intro h; apply this; linarith
      · refine ⟨55 / 96, 5 / 24, -5 / 4, 5 / 6, -1 / 6, fun s h1 h2 => ?_⟩
        have hy : 0 < s - ((1 : ℕ) : ℝ) := by push_cast; linarith
        simp only [kernelAt, dkernelAt]
        rw [abs_of_pos hy, if_pos hy]
        push_cast at hy ⊢
        rw [spl4_b (by linarith) (by linarith), dspl4_b (by linarith) (by linarith)]
        exact ⟨by ring, by ring, pos_b _ (by linarith) (by linarith)⟩
      · refine ⟨115 / 192, 0, -5 / 8, 0, 1 / 4, fun s h1 h2 => ?_⟩
        have hc : |s - ((2 : ℕ) : ℝ)| < 1 / 2 := by
          push_cast; rw [abs_lt]; constructor <;> linarith
        simp only [kernelAt, dkernelAt]
        rw [spl4_a hc.le, dspl4_a hc, sq_abs]
        refine ⟨by ring, ?_, ?_⟩
        · by_cases hy : s - ((2 : ℕ) : ℝ) > 0
          · rw [if_pos hy, abs_of_pos hy]; ring
          · rw [if_neg hy, abs_of_nonpos (not_lt.mp hy)]; ring
        · have := sq_lt_sq' (abs_lt.mp hc).1 (abs_lt.mp hc).2
          have h0 := sq_nonneg (s - ((2 : ℕ) : ℝ))
          generalize (s - ((2 : ℕ) : ℝ)) ^ 2 = z at *
          nlinarith
      · refine ⟨55 / 96, -5 / 24, -5 / 4, -5 / 6, -1 / 6, fun s h1 h2 => ?_⟩
        have hy : s - ((3 : ℕ) : ℝ) < 0 := by push_cast; linarith
        simp only [kernelAt, dkernelAt]
        rw [abs_of_neg hy, if_neg (not_lt.mpr hy.le)]
        push_cast at hy ⊢
        rw [spl4_b (by linarith) (by linarith), dspl4_b (by linarith) (by linarith)]
        exact ⟨by ring, by ring, pos_b _ (by linarith) (by linarith)⟩
      · refine ⟨625 / 384, 125 / 48, 25 / 16, 5 / 12, 1 / 24, fun s h1 h2 => ?_⟩
        have hy : s - ((4 : ℕ) : ℝ) < 0 := by push_cast; linarith
        simp only [kernelAt, dkernelAt]
        rw [abs_of_neg hy, if_neg (not_lt.mpr hy.le)]
        push_cast at hy ⊢
        rw [spl4_c (by linarith) (by linarith), dspl4_c (by linarith) (by linarith)]
        refine ⟨by ring, by ring, ?_⟩
        have : (-(s - 4) - 5 / 2) ^ 4 ≠ 0 := pow_ne_zero 4 (by linarith)
        intro h; apply this; linarith

theorem ctxWeight_kernelAt {t : Kernel} {order : ℕ} (ho : order ≠ 0) (p : ℝ) (j : ℕ) :
    ctxWeight t order p j = kernelAt t order |p - ctxOffset t order p - j| := by
  rw [ctxWeight_eq ho]; cases t <;> rfl

theorem ctxDWeight_dkernelAt {t : Kernel} {order : ℕ} (ho : order ≠ 0) (p : ℝ) (j : ℕ) :
    ctxDWeight t order p j = dkernelAt t order (p - ctxOffset t order p - j) := by
  simp only [ctxDWeight, if_neg ho, dkernelAt]
  rw [show p - (j : ℝ) - (ctxOffset t order p : ℝ) = p - (ctxOffset t order p : ℝ) - j by ring]
  cases t <;> rfl

theorem hasDerivAt_quartic (a b c d e o p : ℝ) :
    HasDerivAt (fun q => a + b * (q - o) + c * (q - o) ^ 2 + d * (q - o) ^ 3 + e * (q - o) ^ 4)
      (b + 2 * c * (p - o) + 3 * d * (p - o) ^ 2 + 4 * e * (p - o) ^ 3) p := by
  have h := (hasDerivAt_id p).sub_const o
  have h' := ((((h.const_mul b).const_add a).add ((h.pow 2).const_mul c)).add
    ((h.pow 3).const_mul d)).add ((h.pow 4).const_mul e)
  refine HasDerivAt.congr_deriv h' ?_
  simp
  ring

/-- A position that is not a knot of the kernel. -/
def OffKnot (t : Kernel) (order : ℕ) (p : ℝ) : Prop :=
  ∀ k : ℤ, p ≠ k + ctxHalf t order

theorem offKnot_bounds {t : Kernel} {order : ℕ} (ho : order ≠ 0) {p : ℝ} (h : OffKnot t order p) :
    ctxHalf t order < p - ctxOffset t order p ∧ p - ctxOffset t order p < ctxHalf t order + 1 := by
  have hb := ctxOffset_bounds (t := t) ho p
  refine ⟨lt_of_le_of_ne hb.1 fun he => h (ctxOffset t order p) ?_, hb.2⟩
  linarith

theorem ctxOffset_near {t : Kernel} {order : ℕ} (ho : order ≠ 0) {p : ℝ} (h : OffKnot t order p) :
    ∀ᶠ q in nhds p, ctxOffset t order q = ctxOffset t order p ∧
      ctxHalf t order < q - ctxOffset t order p ∧ q - ctxOffset t order p < ctxHalf t order + 1 := by
  obtain ⟨h1, h2⟩ := offKnot_bounds ho h
  have ho' : Set.Ioo ((ctxOffset t order p : ℝ) + ctxHalf t order)
      (ctxOffset t order p + ctxHalf t order + 1) ∈ nhds p :=
    Ioo_mem_nhds (by linarith) (by linarith)
  filter_upwards [ho'] with q hq
  refine ⟨?_, by linarith [hq.1], by linarith [hq.2]⟩
  simp only [ctxOffset, if_neg ho] at hq ⊢
  rw [Int.floor_eq_iff]
  simp only [ctxHalf] at hq
  constructor
  · linarith [hq.1]
  · linarith [hq.2]

/-- Between knots the derivative weights are the derivatives of the weights (cubic convolution,
splines of order 2 and 4), and no weight vanishes. -/
theorem C90_weights {t : Kernel} {order : ℕ} (h : DerivOK t order) {p : ℝ} (hp : OffKnot t order p)
    {j : ℕ} (hj : j < weightLength t order) :
    HasDerivAt (fun q => ctxWeight t order q j) (ctxDWeight t order p j) p ∧
      ctxWeight t order p j ≠ 0 := by
  obtain ⟨a, b, c, d, e, hpoly⟩ := weights_poly h hj
  have hb := offKnot_bounds h.ne hp
  have hp' := hpoly _ hb.1 hb.2
  refine ⟨?_, by rw [ctxWeight_kernelAt h.ne]; exact hp'.2.2⟩
  have hq := hasDerivAt_quartic a b c d e (ctxOffset t order p + j) p
  rw [ctxDWeight_dkernelAt h.ne, hp'.2.1]
  have e1 : p - (ctxOffset t order p : ℝ) - j = p - (ctxOffset t order p + j) := by ring
  rw [e1]
  refine hq.congr_of_eventuallyEq ?_
  filter_upwards [ctxOffset_near h.ne hp] with q hq'
  rw [ctxWeight_kernelAt h.ne, hq'.1, (hpoly _ hq'.2.1 hq'.2.2).1]
  rw [show q - (ctxOffset t order p : ℝ) - j = q - (ctxOffset t order p + j) by ring]

example : DerivOK .conv 3 ∧ OffKnot .conv 3 (1 / 3) := by
  refine ⟨rfl, fun k h => ?_⟩
  simp only [ctxHalf, weightLength] at h
  norm_num at h
  have : (1 : ℝ) = ((3 * k + 3 : ℤ) : ℝ) := by push_cast; linarith
  have : (1 : ℤ) = 3 * k + 3 := by exact_mod_cast this
  omega

theorem withWeights_cons (ax : CtxAxis ℝ) (axs : List (CtxAxis ℝ)) (i : ℕ) (dw : ℕ → ℝ) :
    withWeights (ax :: axs) (i + 1) dw = ax :: withWeights axs i dw := by
  simp [withWeights]

theorem hasDerivAt_ctxSpec {t : Kernel} {order : ℕ} (h : DerivOK t order) (b : Border)
    {shape : List ℕ} {pos : List ℝ} (hl : pos.length = shape.length) {i : ℕ} (hi : i < pos.length)
    (hp : OffKnot t order pos[i]) (D : List ℕ → ℝ) :
    HasDerivAt (fun q => ctxSpec b (weightLength t order) (ctxAxes t order shape (pos.set i q)) D)
      (ctxSpec b (weightLength t order)
        (withWeights (ctxAxes t order shape pos) i (ctxDWeight t order pos[i])) D) pos[i] := by
  induction shape generalizing pos i D with
  | nil => simp at hl; subst hl; simp at hi
  | cons n ns ih =>
    cases pos with
    | nil => simp at hi
    | cons p ps =>
      simp only [List.length_cons, Nat.add_right_cancel_iff] at hl
      cases i with
      | zero =>
        simp only [List.getElem_cons_zero] at hp ⊢
        simp only [List.set_cons_zero, ctxAxes, List.zipWith_cons_cons, withWeights,
          List.modify_zero_cons, ctxSpec]
        have hs := HasDerivAt.fun_sum (u := Finset.range (weightLength t order)) (x := p)
          (A := fun j q => ctxWeight t order q j *
            ctxSpec b (weightLength t order) (List.zipWith (fun n p => (⟨n, ctxOffset t order p,
              ctxWeight t order p⟩ : CtxAxis ℝ)) ns ps) fun xs =>
                D ((mapBorder b n (j + ctxOffset t order p)).toNat :: xs))
          (A' := fun j => ctxDWeight t order p j *
            ctxSpec b (weightLength t order) (List.zipWith (fun n p => (⟨n, ctxOffset t order p,
              ctxWeight t order p⟩ : CtxAxis ℝ)) ns ps) fun xs =>
                D ((mapBorder b n (j + ctxOffset t order p)).toNat :: xs))
          fun j hj => (C90_weights h hp (Finset.mem_range.mp hj)).1.mul_const _
        refine hs.congr_of_eventuallyEq ?_
        filter_upwards [ctxOffset_near h.ne hp] with q hq
        rw [hq.1]
      | succ i =>
        simp only [List.length_cons, Nat.add_lt_add_iff_right] at hi
        simp only [List.getElem_cons_succ] at hp ⊢
        simp only [List.set_cons_succ, ctxAxes, List.zipWith_cons_cons]
        rw [withWeights_cons]
        simp only [ctxSpec]
        exact HasDerivAt.fun_sum fun j _ => (ih hl hi hp _).const_mul _

theorem ctxAxes_length (t : Kernel) (order : ℕ) {shape : List ℕ} {pos : List ℝ}
    (h : pos.length = shape.length) : (ctxAxes t order shape pos).length = shape.length := by
  simp [ctxAxes, h]

/-- In any number of dimensions, `map_coordinates(deriv=True)` gives the partial derivatives of
`map_coordinates` with respect to the position, for cubic convolution and splines of order 2 and 4,
where the position along that axis is not a knot.

Full statement: the same for every kernel of order 2 or more, at every position.  It fails for the
default cubic spline (`C90_spline3_refuted`), for order 5 (`C90_order5_refuted`) and for cubic
convolution at the grid points (`C90_integer_refuted`). -/
theorem C90_deriv_partial {t : Kernel} {order : ℕ} (h : DerivOK t order) {b : Border}
    {shape : List ℕ} (hb : ∀ n ∈ shape, BorderOK b n) {pos : List ℝ}
    (hl : pos.length = shape.length) {i : ℕ} (hi : i < pos.length)
    (hp : OffKnot t order pos[i]) (data : ℕ → ℝ) :
    HasDerivAt (fun q => mapCoords t order b shape data (pos.set i q))
      (mapCoordsDeriv t order b shape data pos i) pos[i] := by
  have hw := weightLength_pos h.ok
  have hlen := ctxAxes_length t order hl
  have hg : pos.getD i 0 = pos[i] := by
    rw [List.getD_eq_getElem?_getD, List.getElem?_eq_getElem hi, Option.getD_some]
  unfold mapCoordsDeriv mapCoords
  rw [C90_value hw _ (ctxAxes_ok hb) (i := i) (by omega) _ ?_, ctxAxes_len t order hl, hg]
  · have := hasDerivAt_ctxSpec h b hl hi hp fun xs => data (ravelRev shape xs)
    refine this.congr_of_eventuallyEq (Filter.Eventually.of_forall fun q => ?_)
    simp only
    rw [C88_value hw _ (ctxAxes_ok hb), ctxAxes_len t order (by rw [List.length_set, hl])]
  · intro j hj h0
    exfalso
    have : (ctxAxes t order shape pos)[i].w j = ctxWeight t order pos[i] j := by
      simp [ctxAxes]
    rw [this] at h0
    exact (C90_weights h hp hj).2 h0

example : ∃ p : ℝ, OffKnot .spline 4 p ∧ ∀ n ∈ [5, 7], BorderOK .cyclic n := by
  refine ⟨0, fun k h => ?_, by simp [BorderOK]⟩
  simp only [ctxHalf, weightLength] at h
  norm_num at h
  have : (0 : ℝ) = ((2 * k + 3 : ℤ) : ℝ) := by push_cast; linarith
  have : (0 : ℤ) = 2 * k + 3 := by exact_mod_cast this
  omega

/-! ## Where it fails -/

/-- The default cubic spline: the derivative weights of a point do not add up to zero, unless it is
half-way between two grid points (or on one), so constant arrays have a non-zero derivative: at
every such point, for every border and length. -/
theorem C90_spline3_refuted {b : Border} {n : ℕ} (hb : BorderOK b n) (k : ℤ) {u : ℝ} (h0 : 0 < u)
    (h1 : u < 1) (c : ℝ) :
    mapCoordsDeriv .spline 3 b [n] (fun _ => c) [k + u] 0 = c * (5 / 3 * (u - 1 / 2)) ∧
    HasDerivAt (fun q => mapCoords .spline 3 b [n] (fun _ => c) [q]) 0 (k + u) := by
  have hoff : ctxOffset .spline 3 ((k : ℝ) + u) = k - 1 := by
    simp only [ctxOffset, weightLength]
    rw [if_neg (by decide), Int.floor_eq_iff]
    push_cast
    constructor <;> linarith
  constructor
  · unfold mapCoordsDeriv
    have hax : ctxAxes .spline 3 [n] [(k : ℝ) + u]
        = [⟨n, k - 1, ctxWeight .spline 3 ((k : ℝ) + u)⟩] := by
      simp [ctxAxes, hoff]
    have hs : ∀ j : ℕ, ctxWeight .spline 3 ((k : ℝ) + u) j = splineKernel 3 |1 + u - j| := by
      intro j
      rw [ctxWeight_eq (by decide), hoff]
      push_cast
      change splineKernel 3 _ = _
      rw [show (k : ℝ) + u - (k - 1) = 1 + u by ring]
    have hd : ∀ j : ℕ, ctxDWeight .spline 3 ((k : ℝ) + u) j
        = (if 1 + u - j > 0 then 1 else -1) * splineDKernel 3 |1 + u - j| := by
      intro j
      rw [ctxDWeight_dkernelAt (by decide), hoff]
      push_cast
      rw [show (k : ℝ) + u - (k - 1) = 1 + u by ring]
      rfl
    rw [hax, C90_value (by decide) _ (by simpa using hb) (i := 0) (by simp)]
    · simp only [withWeights, List.modify_zero_cons, ctxSpec, weightLength, Finset.sum_range_succ,
        Finset.sum_range_zero, List.getD_cons_zero, hd]
      push_cast
      rw [if_pos (by linarith), if_pos (by linarith), if_neg (by linarith), if_neg (by linarith),
        abs_of_pos (show (0 : ℝ) < 1 + u - 0 by linarith),
        abs_of_pos (show (0 : ℝ) < 1 + u - 1 by linarith),
        abs_of_neg (show 1 + u - 2 < (0 : ℝ) by linarith),
        abs_of_neg (show 1 + u - 3 < (0 : ℝ) by linarith),
        dspl3_b (by linarith) (by linarith), dspl3_a (by linarith), dspl3_a (by linarith),
        dspl3_b (by linarith) (by linarith)]
      ring
    · intro j hj h
      exfalso
      simp only [weightLength] at hj
      have hj' : j = 0 ∨ j = 1 ∨ j = 2 ∨ j = 3 := by omega
      simp only [List.getElem_cons_zero, hs] at h
      rcases hj' with rfl | rfl | rfl | rfl
      · push_cast at h
        rw [abs_of_pos (by linarith), spl3_b (by linarith) (by linarith)] at h
        have : 0 < (2 - (1 + u - 0)) ^ 3 := pow_pos (by linarith) 3
        linarith
      · push_cast at h
        rw [abs_of_pos (by linarith), spl3_a (by linarith)] at h
        nlinarith [mul_pos h0 h0]
      · push_cast at h
        rw [abs_of_neg (by linarith), spl3_a (by linarith)] at h
        have h3 : 0 < 1 - u := by linarith
        nlinarith [mul_pos h3 h3]
      · push_cast at h
        rw [abs_of_neg (by linarith), spl3_b (by linarith) (by linarith)] at h
        have : 0 < (2 - -(1 + u - 3)) ^ 3 := pow_pos (by linarith) 3
        linarith
  · have : (fun q : ℝ => mapCoords .spline 3 b [n] (fun _ => c) [q]) = fun _ => c := by
      funext q
      exact C88_constant (K := ℝ) (shape := [n]) (t := .spline) (order := 3) (by simp [KernelOK]) (by simpa using hb) rfl c
    rw [this]
    exact hasDerivAt_const _ _

/-- Splines of order 5: the derivative is zero for every array and position, although the
interpolated values change. -/
theorem C90_order5_refuted :
    (∀ b shape (data : ℕ → ℝ) pos i, mapCoordsDeriv .spline 5 b shape data pos i = 0) ∧
    ∃ data : ℕ → ℚ, mapCoords .spline 5 .cyclic [4] data [0]
      ≠ mapCoords .spline 5 .cyclic [4] data [1] := by
  constructor
  · intro b shape data pos i
    unfold mapCoordsDeriv derivAt
    have hz : ∀ j p, ctxDWeight .spline 5 (p : ℝ) j = 0 := by
      intro j p
      simp [ctxDWeight, splineDKernel]
    simp only [hz, mul_zero, zero_div, add_zero, ite_self]
    generalize derivLoop b _ _ _ _ = l
    induction l with
    | nil => rfl
    | cons a l ih => simpa using ih
  · exact ⟨fun g => if g = 0 then 1 else 0, by decide +kernel⟩

/-- Cubic convolution at the grid points: the derivative is zero for every array, although the
interpolated curve has slope `(d[i+1] - d[i-1])/2` to the right of the point. -/
theorem C90_integer_refuted {b : Border} {n : ℕ} (hb : BorderOK b n) (k : ℤ) (data : ℕ → ℝ) :
    mapCoordsDeriv .conv 3 b [n] data [(k : ℝ)] 0 = 0 ∧
    HasDerivWithinAt (fun q => mapCoords .conv 3 b [n] data [q])
      ((data (mapBorder b n (k + 1)).toNat - data (mapBorder b n (k - 1)).toNat) / 2)
      (Set.Ici (k : ℝ)) k := by
  have hoff : ∀ q : ℝ, (k : ℝ) ≤ q → q < k + 1 → ctxOffset .conv 3 q = k - 1 := by
    intro q h1 h2
    simp only [ctxOffset, weightLength]
    rw [if_neg (by decide), Int.floor_eq_iff]
    push_cast
    constructor <;> norm_num <;> linarith
  have hw4 : weightLength .conv 3 = 4 := rfl
  constructor
  · have hk := hoff k (le_refl _) (by linarith)
    unfold mapCoordsDeriv
    have hax : ctxAxes .conv 3 [n] [(k : ℝ)] = [⟨n, k - 1, ctxWeight .conv 3 (k : ℝ)⟩] := by
      simp [ctxAxes, hk]
    have hs : ∀ j : ℕ, ctxWeight .conv 3 (k : ℝ) j = convKernel 3 |1 - (j : ℝ)| := by
      intro j
      rw [ctxWeight_eq (by decide), hk]
      push_cast
      change convKernel 3 _ = _
      rw [show (k : ℝ) - (k - 1) = 1 by ring]
    have hd : ∀ j : ℕ, ctxDWeight .conv 3 (k : ℝ) j
        = (if 1 - (j : ℝ) > 0 then 1 else -1) * convDKernel 3 |1 - (j : ℝ)| := by
      intro j
      rw [ctxDWeight_dkernelAt (by decide), hk]
      push_cast
      rw [show (k : ℝ) - (k - 1) = 1 by ring]
      rfl
    rw [hax, derivAt_sum b (by decide) _ _ _
      (fun J => ravelRev ([n]) (cellIdx b [⟨n, k - 1, ctxWeight .conv 3 (k : ℝ)⟩] J)) data]
    · simp only [List.map_cons, List.map_nil, gridSum, ctxProd, hw4,
        Finset.sum_range_succ, Finset.sum_range_zero, hs, hd, List.getD_cons_zero, mul_one]
      norm_num [convKernel, convDKernel]
    · intro J hJ
      have hl : J.length = 1 := by rw [hJ.length_eq]; rfl
      refine ctxIndex_some hl ?_
      rw [List.forall₂_iff_get]
      refine ⟨by rw [hl]; rfl, fun i h1 h2 => (mapBorder_range ?_ _).1⟩
      simp only [List.length_cons, List.length_nil, Nat.zero_add, Nat.lt_one_iff] at h1
      subst h1
      exact hb
  · have hf : ∀ q : ℝ, (k : ℝ) ≤ q → q < k + 1 → mapCoords .conv 3 b [n] data [q]
        = data (mapBorder b n k).toNat
          + (data (mapBorder b n (k + 1)).toNat - data (mapBorder b n (k - 1)).toNat) / 2 * (q - k)
          + (data (mapBorder b n (k - 1)).toNat - 5 / 2 * data (mapBorder b n k).toNat
              + 2 * data (mapBorder b n (k + 1)).toNat - 1 / 2 * data (mapBorder b n (k + 2)).toNat)
            * (q - k) ^ 2
          + (-1 / 2 * data (mapBorder b n (k - 1)).toNat + 3 / 2 * data (mapBorder b n k).toNat
              - 3 / 2 * data (mapBorder b n (k + 1)).toNat
              + 1 / 2 * data (mapBorder b n (k + 2)).toNat) * (q - k) ^ 3
          + 0 * (q - k) ^ 4 := by
      intro q h1 h2
      unfold mapCoords
      rw [C88_value (by decide) _ (ctxAxes_ok (by simpa using hb))]
      simp only [ctxAxes, List.zipWith_cons_cons, ctxSpec, hw4, Finset.sum_range_succ,
        Finset.sum_range_zero, List.zipWith_nil_left, List.map_cons, List.map_nil, ravelRev]
      rw [ctxWeight_eq (by decide), ctxWeight_eq (by decide), ctxWeight_eq (by decide),
        ctxWeight_eq (by decide), hoff q h1 h2]
      norm_num [Finset.sum_range_succ]
      rw [abs_of_nonneg (show (0 : ℝ) ≤ q - (k - 1) by linarith),
        abs_of_nonneg (show (0 : ℝ) ≤ q - (k - 1) - 1 by linarith),
        abs_of_nonpos (show q - (k - 1) - 2 ≤ (0 : ℝ) by linarith),
        abs_of_nonpos (show q - (k - 1) - 3 ≤ (0 : ℝ) by linarith),
        conv3_b (by linarith) (by linarith), conv3_a (by linarith), conv3_a (by linarith),
        conv3_b (by linarith) (by linarith)]
      rw [show (2 : ℤ) + (k - 1) = k + 1 by ring,
        show (3 : ℤ) + (k - 1) = k + 2 by ring]
      ring
    have hq := (hasDerivAt_quartic (data (mapBorder b n k).toNat)
      ((data (mapBorder b n (k + 1)).toNat - data (mapBorder b n (k - 1)).toNat) / 2)
      (data (mapBorder b n (k - 1)).toNat - 5 / 2 * data (mapBorder b n k).toNat
              + 2 * data (mapBorder b n (k + 1)).toNat - 1 / 2 * data (mapBorder b n (k + 2)).toNat)
      (-1 / 2 * data (mapBorder b n (k - 1)).toNat + 3 / 2 * data (mapBorder b n k).toNat
              - 3 / 2 * data (mapBorder b n (k + 1)).toNat
              + 1 / 2 * data (mapBorder b n (k + 2)).toNat) 0 k k).hasDerivWithinAt
      (s := Set.Ici (k : ℝ))
    rw [sub_self] at hq
    norm_num at hq
    refine hq.congr_of_eventuallyEq ?_ ?_
    · have hm : Set.Ico (k : ℝ) (k + 1) ∈ nhdsWithin (k : ℝ) (Set.Ici k) :=
        Ico_mem_nhdsGE (by linarith)
      filter_upwards [hm] with q hq'
      rw [hf q hq'.1 hq'.2]; norm_num
    · rw [hf k (le_refl _) (by linarith)]; norm_num

/-- Cubic convolution on a ramp: the derivative at a grid point is not the derivative. -/
theorem C90_integer_wrong : ¬ HasDerivAt (fun q => mapCoords .conv 3 .nearest [3] (fun g => (g : ℝ)) [q])
    (mapCoordsDeriv .conv 3 .nearest [3] (fun g => (g : ℝ)) [((1 : ℤ) : ℝ)] 0) ((1 : ℤ) : ℝ) := by
  obtain ⟨h1, h2⟩ := C90_integer_refuted (b := .nearest) (n := 3)
    ⟨by decide, by decide, by decide⟩ 1 fun g => (g : ℝ)
  rw [h1]
  intro h
  have := (uniqueDiffWithinAt_Ici ((1 : ℤ) : ℝ)).eq_deriv _ h.hasDerivWithinAt h2
  have e1 : (mapBorder .nearest 3 (1 + 1)).toNat = 2 := by decide
  have e2 : (mapBorder .nearest 3 (1 - 1)).toNat = 0 := by decide
  rw [e1, e2] at this
  norm_num at this

/-! ## The transpose -/

/-- What a cell should receive in the transposed derivative: for each component the sum over the axes
of the output times the derivative weight times the other weights. -/
noncomputable def transCellSpec (ws dws : List ℝ) (res : List (List ℝ)) : List ℝ :=
  res.map fun row => ((List.range ws.length).map fun i =>
    row.getD i 0 * dws.getD i 0 * (ws.eraseIdx i).prod).sum

/-- The transposed derivative of a single component along a single axis is right where no weight
vanishes.

Full statement: `derivTransCell ws dws wt res = some (transCellSpec ws dws res)` for any number of
axes and components; refuted below. -/
theorem C90_trans_partial {w : ℝ} (hw : w ≠ 0) (dw : ℝ) {wt : ℕ → ℕ → ℝ} (h0 : wt 0 0 ≠ 0) (r : ℝ) :
    derivTransCell [w] [dw] wt [[r]] = some (transCellSpec [w] [dw] [[r]]) := by
  simp [derivTransCell, transCellSpec, h0]
  field_simp

/-- With fewer components than axes (such as one map with two axes) the routine accesses its work
array out of bounds, for all values; with two components and two axes the result is wrong. -/
theorem C90_trans_refuted :
    (∀ (ws dws : List ℝ) wt res, res.length < ws.length → derivTransCell ws dws wt res = none) ∧
    derivTransCell [(2 : ℝ), 3] [1, 1] (fun _ _ => 1) [[1, 0], [0, 1]]
      ≠ some (transCellSpec [2, 3] [1, 1] [[1, 0], [0, 1]]) := by
  constructor
  · intro ws dws wt res h
    rw [derivTransCell, if_neg (by omega)]
  · norm_num [derivTransCell, transCellSpec, List.range_succ, List.mapIdx, List.mapIdx.go]

end Weights

end Pixell
