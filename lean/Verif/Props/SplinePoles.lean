import Verif.Props.Spline
import Verif.Model.SplinePoles
import Mathlib.Analysis.SpecialFunctions.Pow.Real

/-!
# C89: the actual poles; what happens at the other borders
-/

namespace Pixell

/-! ## The poles of the code -/

/-- A root of `p² - s p + 1`. -/
theorem add_inv_of_root {p s : ℝ} (hp : p ≠ 0) (h : p ^ 2 - s * p + 1 = 0) : p + 1 / p = s := by
  field_simp
  linarith

theorem sqrt_lt_of_sq {x y : ℝ} (hy : 0 < y) (h : x < y ^ 2) : √x < y := by
  rw [Real.sqrt_lt' hy]; exact h

theorem lt_sqrt_of_sq {x y : ℝ} (hy : 0 ≤ y) (h : y ^ 2 < x) : y < √x := by
  rw [Real.lt_sqrt hy]; exact h

/-- The poles of order 2 to 5, and that none of them exceeds one half. -/
theorem splinePole_small {order : ℕ} {p : ℝ} (h : p ∈ splinePole order) : -1 / 2 < p ∧ p < 0 := by
  unfold splinePole at h
  split at h
  · simp only [List.mem_singleton] at h
    subst h
    have h1 := lt_sqrt_of_sq (x := 8) (y := 5 / 2) (by norm_num) (by norm_num)
    have h2 := sqrt_lt_of_sq (x := 8) (y := 3) (by norm_num) (by norm_num)
    constructor <;> linarith
  · simp only [List.mem_singleton] at h
    subst h
    have h1 := lt_sqrt_of_sq (x := 3) (y := 3 / 2) (by norm_num) (by norm_num)
    have h2 := sqrt_lt_of_sq (x := 3) (y := 2) (by norm_num) (by norm_num)
    constructor <;> linarith
  · have e : √438976 = 38 * √304 := by
      rw [show (438976 : ℝ) = 38 ^ 2 * 304 by norm_num, Real.sqrt_mul (by norm_num),
        Real.sqrt_sq (by norm_num)]
    have r2 : √304 ^ 2 = 304 := Real.sq_sqrt (by norm_num)
    have r1 := sqrt_lt_of_sq (x := 304) (y := 17.45) (by norm_num) (by norm_num)
    have r0 := lt_sqrt_of_sq (x := 304) (y := 17.4) (by norm_num) (by norm_num)
    simp only [List.mem_cons, List.not_mem_nil, or_false] at h
    rw [e] at h
    generalize √304 = r at *
    rcases h with rfl | rfl
    · have h1 := lt_sqrt_of_sq (x := 664 - 38 * r) (y := 18.5 - r) (by norm_num at *; linarith)
        (by norm_num at *; nlinarith)
      have h2 := sqrt_lt_of_sq (x := 664 - 38 * r) (y := 19 - r) (by norm_num at *; linarith)
        (by norm_num at *; nlinarith)
      norm_num at h1
      constructor <;> linarith
    · have h1 := lt_sqrt_of_sq (x := 664 + 38 * r) (y := 18.5 + r) (by norm_num at *; linarith)
        (by norm_num at *; nlinarith)
      have h2 := sqrt_lt_of_sq (x := 664 + 38 * r) (y := 19 + r) (by norm_num at *; linarith)
        (by norm_num at *; nlinarith)
      norm_num at h1
      constructor <;> linarith
  · have e : √4436.25 = 13 * √26.25 := by
      rw [show (4436.25 : ℝ) = 13 ^ 2 * 26.25 by norm_num, Real.sqrt_mul (by norm_num),
        Real.sqrt_sq (by norm_num)]
    have r2 : √26.25 ^ 2 = 26.25 := Real.sq_sqrt (by norm_num)
    have r1 := sqrt_lt_of_sq (x := 26.25) (y := 5.15) (by norm_num) (by norm_num)
    have r0 := lt_sqrt_of_sq (x := 26.25) (y := 5.1) (by norm_num) (by norm_num)
    simp only [List.mem_cons, List.not_mem_nil, or_false] at h
    rw [e] at h
    generalize √26.25 = r at *
    rcases h with rfl | rfl
    · have h1 := lt_sqrt_of_sq (x := 67.5 - 13 * r) (y := 6 - r) (by norm_num at *; linarith)
        (by norm_num at *; nlinarith)
      have h2 := sqrt_lt_of_sq (x := 67.5 - 13 * r) (y := 6.5 - r) (by norm_num at *; linarith)
        (by norm_num at *; nlinarith)
      norm_num at h1 h2 ⊢
      constructor <;> linarith
    · have h1 := lt_sqrt_of_sq (x := 67.5 + 13 * r) (y := 6 + r) (by norm_num at *; linarith)
        (by norm_num at *; nlinarith)
      have h2 := sqrt_lt_of_sq (x := 67.5 + 13 * r) (y := 6.5 + r) (by norm_num at *; linarith)
        (by norm_num at *; nlinarith)
      norm_num at h1 h2 ⊢
      constructor <;> linarith
  · simp at h

/-- The sums are cut where the next term is below the tolerance. -/
theorem poleTerms_spec {p : ℝ} (h0 : p ≠ 0) (h1 : |p| < 1) :
    1 ≤ poleTerms p ∧ |p| ^ poleTerms p ≤ 1e-15 := by
  have hp : 0 < |p| := abs_pos.mpr h0
  have hl : Real.log |p| < 0 := Real.log_neg hp h1
  have ht : Real.log 1e-15 < 0 := Real.log_neg (by norm_num) (by norm_num)
  have hr : 0 < Real.log 1e-15 / Real.log |p| := div_pos_of_neg_of_neg ht hl
  have hc : 0 < ⌈Real.log 1e-15 / Real.log |p|⌉ := Int.ceil_pos.mpr hr
  have hcast : ((poleTerms p : ℕ) : ℤ) = ⌈Real.log 1e-15 / Real.log |p|⌉ := by
    unfold poleTerms; omega
  refine ⟨by omega, ?_⟩
  have hle : Real.log 1e-15 / Real.log |p| ≤ (poleTerms p : ℝ) := by
    have := Int.le_ceil (Real.log 1e-15 / Real.log |p|)
    rw [← hcast] at this
    exact_mod_cast this
  rw [div_le_iff_of_neg hl] at hle
  rw [← Real.log_le_log_iff (pow_pos hp _) (by norm_num), Real.log_pow]
  exact hle

/-- The poles in the code are the right ones for splines of order 2 to 5. -/
theorem C89_poles {order : ℕ} (h2 : 2 ≤ order) (h5 : order ≤ 5) :
    PolesOK order (splinePoles order) := by
  constructor
  · intro x hx
    obtain ⟨p, hp, rfl⟩ := List.mem_map.mp hx
    have hs := splinePole_small hp
    have h0 : p ≠ 0 := hs.2.ne
    have h1 : |p| < 1 := by rw [abs_lt]; constructor <;> linarith
    exact ⟨h0, h1, (poleTerms_spec h0 h1).1⟩
  · have hne : ∀ {o : ℕ} {p : ℝ}, p ∈ splinePole o → p ≠ 0 := fun h => (splinePole_small h).2.ne
    obtain rfl | rfl | rfl | rfl : order = 2 ∨ order = 3 ∨ order = 4 ∨ order = 5 := by omega
    · refine Or.inl ⟨rfl, _, rfl, add_inv_of_root (hne (o := 2) (by simp [splinePole])) ?_⟩
      have : √8 ^ 2 = 8 := Real.sq_sqrt (by norm_num)
      simp only
      linear_combination this
    · refine Or.inr (Or.inl ⟨rfl, _, rfl, add_inv_of_root (hne (o := 3) (by simp [splinePole])) ?_⟩)
      have : √3 ^ 2 = 3 := Real.sq_sqrt (by norm_num)
      simp only
      linear_combination this
    · refine Or.inr (Or.inr (Or.inl ⟨rfl, _, _, rfl, ?_⟩))
      have r2 : √304 ^ 2 = 304 := Real.sq_sqrt (by norm_num)
      have e : √438976 = 38 * √304 := by
        rw [show (438976 : ℝ) = 38 ^ 2 * 304 by norm_num, Real.sqrt_mul (by norm_num),
          Real.sqrt_sq (by norm_num)]
      have r1 := sqrt_lt_of_sq (x := 304) (y := 17.45) (by norm_num) (by norm_num)
      have r0 := Real.sqrt_nonneg 304
      have t1 : √(664 - √438976) ^ 2 = 664 - 38 * √304 := by
        rw [e, Real.sq_sqrt]; norm_num at r1; linarith
      have t2 : √(664 + √438976) ^ 2 = 664 + 38 * √304 := by
        rw [e, Real.sq_sqrt]; linarith
      have s1 := add_inv_of_root (p := √(664 - √438976) + √304 - 19) (s := 2 * √304 - 38)
        (hne (o := 4) (by simp [splinePole])) (by linear_combination t1 - r2)
      have s2 := add_inv_of_root (p := √(664 + √438976) - √304 - 19) (s := -2 * √304 - 38)
        (hne (o := 4) (by simp [splinePole])) (by linear_combination t2 - r2)
      simp only [s1, s2]
      exact ⟨by ring, by linear_combination (-4) * r2⟩
    · refine Or.inr (Or.inr (Or.inr ⟨rfl, _, _, rfl, ?_⟩))
      have r2 : √26.25 ^ 2 = 26.25 := Real.sq_sqrt (by norm_num)
      have e : √4436.25 = 13 * √26.25 := by
        rw [show (4436.25 : ℝ) = 13 ^ 2 * 26.25 by norm_num, Real.sqrt_mul (by norm_num),
          Real.sqrt_sq (by norm_num)]
      have r1 := sqrt_lt_of_sq (x := 26.25) (y := 5.15) (by norm_num) (by norm_num)
      have r0 := Real.sqrt_nonneg 26.25
      have t1 : √(67.5 - √4436.25) ^ 2 = 67.5 - 13 * √26.25 := by
        rw [e, Real.sq_sqrt]; norm_num at r1 ⊢; linarith
      have t2 : √(67.5 + √4436.25) ^ 2 = 67.5 + 13 * √26.25 := by
        rw [e, Real.sq_sqrt]; linarith
      have s1 := add_inv_of_root (p := √(67.5 - √4436.25) + √26.25 - 6.5) (s := 2 * √26.25 - 13)
        (hne (o := 5) (by simp [splinePole])) (by linear_combination t1 - r2)
      have s2 := add_inv_of_root (p := √(67.5 + √4436.25) - √26.25 - 6.5) (s := -2 * √26.25 - 13)
        (hne (o := 5) (by simp [splinePole])) (by linear_combination t2 - r2)
      simp only [s1, s2]
      exact ⟨by ring, by linear_combination (-4) * r2⟩

theorem poleEps_small {order n : ℕ} {x : ℝ × ℕ} (h : x ∈ splinePoles order) :
    poleEps n x.2 x.1 ≤ 8e-15 ∧ |x.1| < 1 / 2 := by
  obtain ⟨p, hp, rfl⟩ := List.mem_map.mp h
  have hs := splinePole_small hp
  have h0 : p ≠ 0 := hs.2.ne
  have habs : |p| < 1 / 2 := by rw [abs_lt]; constructor <;> linarith
  refine ⟨?_, habs⟩
  unfold poleEps
  by_cases hn : n ≤ poleTerms p
  · rw [if_pos hn]; norm_num
  · rw [if_neg hn]
    have ht := (poleTerms_spec h0 (by linarith)).2
    have hsq : (1 / 4 : ℝ) ≤ (1 - |p|) ^ 2 := by nlinarith [abs_nonneg p]
    rw [div_le_iff₀ (by positivity)]
    norm_num at ht ⊢
    nlinarith

/-- With double precision constants the error of the filter is below `1e-13` of the data, for lines
of every length. -/
theorem C89_eps (order n : ℕ) : filterEps n (splinePoles order) ≤ 1e-13 := by
  have hall : ∀ x ∈ splinePoles order, 0 ≤ poleEps n x.2 x.1 := by
    intro x hx
    exact poleEps_nonneg (lt_trans (poleEps_small (n := n) hx).2 (by norm_num))
  have hsm : ∀ x ∈ splinePoles order, poleEps n x.2 x.1 ≤ 8e-15 ∧ |x.1| < 1 / 2 := fun x hx =>
    poleEps_small hx
  generalize splinePoles order = l at *
  unfold filterEps
  split
  · rename_i x
    refine le_trans (hsm x (by simp)).1 (by norm_num)
  · rename_i x y
    obtain ⟨h1, h2⟩ := hsm x (by simp)
    obtain ⟨h3, _⟩ := hsm y (by simp)
    have h4 := hall x (by simp)
    have h5 := hall y (by simp)
    have hr : ((1 + |x.1|) / (1 - |x.1|)) ^ 2 ≤ 9 := by
      have h6 : (0 : ℝ) < 1 - |x.1| := by linarith
      have h7 : (1 + |x.1|) / (1 - |x.1|) ≤ 3 := by rw [div_le_iff₀ h6]; linarith
      have h8 : 0 ≤ (1 + |x.1|) / (1 - |x.1|) := by have := abs_nonneg x.1; positivity
      nlinarith
    have hm : poleEps n y.2 y.1 * (1 + poleEps n x.2 x.1) ≤ 8e-15 * (1 + 8e-15) :=
      mul_le_mul h3 (by linarith) (by linarith) (by norm_num)
    have hm' : poleEps n y.2 y.1 * (1 + poleEps n x.2 x.1) * ((1 + |x.1|) / (1 - |x.1|)) ^ 2
        ≤ 8e-15 * (1 + 8e-15) * 9 :=
      mul_le_mul hm hr (by positivity) (by norm_num)
    refine le_trans (add_le_add h1 hm') (by norm_num)
  · norm_num

/-- Spline interpolation with the prefilter and the constants of the code, at the grid points of an
array of any size in any number `d` of dimensions, returns the data to `(1 + 1e-13)^d - 1`. -/
theorem C89_accuracy {order : ℕ} (h2 : 2 ≤ order) (h5 : order ≤ 5) {b : Border}
    (hb : b = .cyclic ∨ b = .mirror) {shape : List ℕ} (hok : ∀ n ∈ shape, BorderOK b n)
    {data : ℕ → ℝ} {A : ℝ} (hA0 : 0 ≤ A) (hA : ∀ g < shape.prod, |data g| ≤ A)
    {xs : List ℕ} (hx : List.Forall₂ (· < ·) xs shape) :
    |mapCoordsFilt order b (splinePoles order) shape data (xs.map fun (x : ℕ) => (x : ℝ))
        - data (ravelRev shape xs)| ≤ ((1 + 1e-13) ^ shape.length - 1) * A := by
  refine le_trans (C89_grid (C89_poles h2 h5) hb hok hA hx) (mul_le_mul_of_nonneg_right ?_ hA0)
  unfold arrayEps
  have : (shape.map fun n => 1 + filterEps n (splinePoles order)).prod
      ≤ (1 + 1e-13 : ℝ) ^ shape.length := by
    clear hok hA hx
    induction shape with
    | nil => simp
    | cons n ns ih =>
      rw [List.map_cons, List.prod_cons, List.length_cons, pow_succ']
      have h1 := C89_eps order n
      have h0 : 0 ≤ filterEps n (splinePoles order) := filterEps_nonneg (C89_poles h2 h5).1
      refine mul_le_mul (by linarith) ih ?_ (by norm_num)
      refine List.prod_nonneg fun x hx => ?_
      obtain ⟨m, _, rfl⟩ := List.mem_map.mp hx
      have := filterEps_nonneg (n := m) (C89_poles h2 h5).1
      linarith
  linarith

example : BorderOK .cyclic 1000 ∧ BorderOK .mirror 1000 ∧ List.Forall₂ (· < ·) [999, 0] [1000, 1000] :=
  ⟨⟨by decide, by decide, by decide⟩, ⟨by decide, by decide, by decide⟩, by decide⟩

/-! ## The other borders -/

/-- With any border the spline passes through the data at points that are not at the ends of their
line (one dimension, order 2 or 3). -/
theorem C89_interior_partial {order : ℕ} (ho : order = 2 ∨ order = 3) {poles : List (ℝ × ℕ)}
    (hpo : PolesOK order poles) (b : Border) {n : ℕ} (a : ℕ → ℝ) {i : ℕ} (h0 : 0 < i)
    (h1 : i + 1 < n) :
    splineSample order (extend b n (splineFilter b n poles a)) i = a i := by
  obtain ⟨k, rfl⟩ : ∃ k, i = k + 1 := ⟨i - 1, by omega⟩
  have key : ∀ x : ℝ × ℕ, poles = [x] → ∀ W : ℝ, W ≠ 0 → 2 - (x.1 + 1 / x.1) = W →
      stencil x.1 (extend b n (splineFilter b n poles a)) ((k + 1 : ℕ) : ℤ) / W = a (k + 1) := by
    rintro x rfl W hW hs
    obtain ⟨hp, _, _⟩ := hpo.1 x (by simp)
    have hwt : splineFilter b n [x] a = poleFilter b n x.2 x.1 fun i => a i * W := by
      simp only [splineFilter, List.map_cons, List.map_nil, List.prod_cons, List.prod_nil, mul_one,
        List.foldl_cons, List.foldl_nil]
      rw [pole_weight hp, hs]
    rw [hwt]
    have h := pole_interior (n := n) hp (a := fun i => a i * W)
      (c := poleFilter b n x.2 x.1 fun i => a i * W)
      (d := causal x.1 (causalInit b n x.2 x.1 fun i => a i * W) fun i => a i * W)
      (fun i hi => poleFilter_step b x.2 x.1 _ hi) (fun i => rfl) (i := k) (by omega)
    have e0 : mapBorder b n ((k + 1 : ℕ) : ℤ) = (k + 1 : ℕ) := by
      rw [mapBorder_inside] <;> push_cast <;> omega
    have e1 : mapBorder b n (((k + 1 : ℕ) : ℤ) - 1) = k := by
      rw [mapBorder_inside] <;> push_cast <;> omega
    have e2 : mapBorder b n (((k + 1 : ℕ) : ℤ) + 1) = (k + 2 : ℕ) := by
      rw [mapBorder_inside] <;> push_cast <;> omega
    unfold stencil extend
    rw [e0, e1, e2]
    simp only [Int.toNat_natCast]
    rw [h]
    field_simp
  rcases hpo.2 with ⟨rfl, x, hx, hs⟩ | ⟨rfl, x, hx, hs⟩ | ⟨rfl, _⟩ | ⟨rfl, _⟩
  · have := key x hx 8 (by norm_num) (by rw [hs]; norm_num)
    rw [stencil, hs] at this
    rw [sample2, ← this]
    ring
  · have := key x hx 6 (by norm_num) (by rw [hs]; norm_num)
    rw [stencil, hs] at this
    rw [sample3, ← this]
    ring
  · omega
  · omega

theorem cubicPole_sq : (√3 - 2) ^ 2 = -4 * (√3 - 2) - 1 := by
  have : √3 ^ 2 = 3 := Real.sq_sqrt (by norm_num)
  linear_combination this

theorem cubicPole_ne : (√3 - 2 : ℝ) ≠ -1 / 4 := by
  intro h
  have h1 : √3 = 7 / 4 := by linarith
  have : √3 ^ 2 = 3 := Real.sq_sqrt (by norm_num)
  rw [h1] at this
  norm_num at this

/-- With the `nearest` border the filter does not match the continuation of the coefficients, and the
cubic spline misses the data at the edge. -/
theorem C89_nearest_refuted :
    ∃ a : ℕ → ℝ,
      splineSample 3 (extend .nearest 2 (splineFilter .nearest 2 (splinePoles 3) a)) 1 ≠ a 1 := by
  refine ⟨fun i => if i = 1 then 1 else 0, ?_⟩
  rw [sample3]
  have hs := splinePole_small (order := 3) (p := √3 - 2) (by simp [splinePole])
  have hsq := cubicPole_sq
  have hne := cubicPole_ne
  simp only [splinePoles, splinePole, List.map_cons, List.map_nil, splineFilter, List.prod_cons,
    List.prod_nil, mul_one, List.foldl_cons, List.foldl_nil]
  generalize poleTerms (√3 - 2) = m
  generalize (√3 - 2 : ℝ) = p at *
  have hp : p ≠ 0 := hs.2.ne
  rw [pole_weight hp, add_inv_of_root (s := -4) hp (by rw [hsq]; ring)]
  have e1 : mapBorder .nearest 2 (1 : ℤ) = 1 := by decide
  have e0 : mapBorder .nearest 2 ((1 : ℤ) - 1) = 0 := by decide
  have e2 : mapBorder .nearest 2 ((1 : ℤ) + 1) = 1 := by decide
  simp only [extend, e0, e1, e2, poleFilter, anticausal, anticausalInit, causal, causalInit]
  norm_num [anticausal, causal]
  have h1 : (1 : ℝ) - p ≠ 0 := by linarith
  have h2 : (1 : ℝ) - p ^ 2 ≠ 0 := by rw [hsq]; intro h; nlinarith
  intro h
  field_simp at h
  apply hne
  have h3 : p ^ 3 = 15 * p + 4 := by
    have : p ^ 3 = p * p ^ 2 := by ring
    rw [this, hsq]; linear_combination (-4) * hsq
  nlinarith

/-- With the `zero` border too. -/
theorem C89_zero_refuted :
    ∃ a : ℕ → ℝ,
      splineSample 3 (fun i => if 0 ≤ i ∧ i < 2 then splineFilter .zero 2 (splinePoles 3) a i.toNat
        else 0) 1 ≠ a 1 := by
  refine ⟨fun i => if i = 1 then 1 else 0, ?_⟩
  rw [sample3]
  have hs := splinePole_small (order := 3) (p := √3 - 2) (by simp [splinePole])
  have hsq := cubicPole_sq
  simp only [splinePoles, splinePole, List.map_cons, List.map_nil, splineFilter, List.prod_cons,
    List.prod_nil, mul_one, List.foldl_cons, List.foldl_nil]
  generalize poleTerms (√3 - 2) = m
  generalize (√3 - 2 : ℝ) = p at *
  have hp : p ≠ 0 := hs.2.ne
  rw [pole_weight hp, add_inv_of_root (s := -4) hp (by rw [hsq]; ring)]
  norm_num [poleFilter, anticausal, anticausalInit, causal, causalInit]
  have h2 : (1 : ℝ) - p ^ 2 ≠ 0 := by rw [hsq]; intro h; nlinarith
  intro h
  field_simp at h
  nlinarith

/-- `border="reflect"` is accepted by `map_coordinates` as another name of `mirror`, but in spline
mode the prefilter does not know it. -/
theorem C89_reflect_refuted :
    borderOfName "reflect" = borderOfName "mirror" ∧
    (∀ order shape data pos, mapCoordsNamed order "reflect" shape data pos = none) ∧
    ∀ order shape data pos, mapCoordsNamed order "mirror" shape data pos
      = some (mapCoordsFilt order .mirror (splinePoles order) shape data pos) := by
  refine ⟨by decide, fun _ _ _ _ => ?_, fun _ _ _ _ => ?_⟩
  · simp [mapCoordsNamed, filterBorderOfName]
  · simp [mapCoordsNamed, filterBorderOfName, borderOfName, mapCoordsFilt]

end Pixell
