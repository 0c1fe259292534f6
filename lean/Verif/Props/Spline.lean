import Verif.Lemmas.Spline
import Verif.Props.Interpol
import Mathlib.Analysis.Real.Sqrt

/-!
# C89: spline interpolation with the prefilter passes through the data, and its transpose is its
adjoint

`interpol.spline_filter` and `interpol.map_coordinates(..., mode="spline", prefilter=True)`.
-/

set_option linter.unusedSectionVars false

namespace Pixell

variable {K : Type} [Field K] [LinearOrder K] [IsStrictOrderedRing K] [FloorRing K]

/-! ## The poles -/

/-- What the poles (with the number of terms kept) of a spline of the given order must satisfy. -/
def PolesOK (order : ℕ) (poles : List (K × ℕ)) : Prop :=
  (∀ x ∈ poles, x.1 ≠ 0 ∧ |x.1| < 1 ∧ 1 ≤ x.2) ∧
  ((order = 2 ∧ ∃ x, poles = [x] ∧ x.1 + 1 / x.1 = -6) ∨
   (order = 3 ∧ ∃ x, poles = [x] ∧ x.1 + 1 / x.1 = -4) ∨
   (order = 4 ∧ ∃ x y, poles = [x, y] ∧ (x.1 + 1 / x.1) + (y.1 + 1 / y.1) = -76 ∧
      (x.1 + 1 / x.1) * (y.1 + 1 / y.1) = 228) ∨
   (order = 5 ∧ ∃ x y, poles = [x, y] ∧ (x.1 + 1 / x.1) + (y.1 + 1 / y.1) = -26 ∧
      (x.1 + 1 / x.1) * (y.1 + 1 / y.1) = 64))

/-- The error of the filter due to the cut sums, relative to the size of the data. -/
def filterEps (n : ℕ) : List (K × ℕ) → K
  | [x] => poleEps n x.2 x.1
  | [x, y] => poleEps n x.2 x.1
      + poleEps n y.2 y.1 * (1 + poleEps n x.2 x.1) * ((1 + |x.1|) / (1 - |x.1|)) ^ 2
  | _ => 0

theorem filterEps_nonneg {n : ℕ} {poles : List (K × ℕ)}
    (h : ∀ x ∈ poles, x.1 ≠ 0 ∧ |x.1| < 1 ∧ 1 ≤ x.2) : 0 ≤ filterEps n poles := by
  unfold filterEps
  split
  · exact poleEps_nonneg (h _ (by simp)).2.1
  · rename_i x y
    have h1 := poleEps_nonneg (n := n) (m := x.2) (h x (by simp)).2.1
    have h2 := poleEps_nonneg (n := n) (m := y.2) (h y (by simp)).2.1
    positivity
  · exact le_refl _

/-- Lines no longer than the number of terms kept are filtered exactly. -/
theorem filterEps_zero {n : ℕ} {poles : List (K × ℕ)} (h : ∀ x ∈ poles, n ≤ x.2) :
    filterEps n poles = 0 := by
  unfold filterEps
  split
  · rename_i x; simp [poleEps, h x (by simp)]
  · rename_i x y; simp [poleEps, h x (by simp), h y (by simp)]
  · rfl

theorem abs_add_inv {p : K} (hp : p ≠ 0) : |p + 1 / p| = |p| + 1 / |p| := by
  rcases lt_or_gt_of_ne hp with h | h
  · rw [abs_of_neg h, abs_of_neg]
    · field_simp; ring
    · have : 1 / p < 0 := by rw [one_div]; exact inv_neg''.mpr h
      linarith
  · rw [abs_of_pos h, abs_of_pos]
    positivity

/-- The filtered line is bounded by the data. -/
theorem pole_bound {b : Border} {n m : ℕ} (hb : b = .cyclic ∨ b = .mirror) (hok : BorderOK b n)
    {p A : K} (hp : p ≠ 0) (hq : |p| < 1) (hm : 1 ≤ m) {a : ℕ → K} (ha : ∀ i < n, |a i| ≤ A)
    (i : ℕ) (hi : i < n) :
    |poleFilter b n m p a i| ≤ |p| / (1 - |p|) ^ 2 * ((1 + poleEps n m p) * A) := by
  have hpp : 0 < |p| := abs_pos.mpr hp
  have h1 : (0 : K) < 1 - |p| := by linarith
  obtain ⟨j, hj, hmax⟩ := Finset.exists_max_image (Finset.range n)
    (fun i => |poleFilter b n m p a i|) ⟨i, Finset.mem_range.mpr hi⟩
  have hj' := Finset.mem_range.mp hj
  refine le_trans (hmax i (Finset.mem_range.mpr hi)) ?_
  have hr := pole_grid hb hok hp hq hm ha j hj'
  have hbd : ∀ k : ℤ, |extend b n (poleFilter b n m p a) k| ≤ |poleFilter b n m p a j| := by
    intro k
    have := mapBorder_range hok k
    exact hmax _ (Finset.mem_range.mpr (by omega))
  have hself : extend b n (poleFilter b n m p a) j = poleFilter b n m p a j := by
    unfold extend
    rw [mapBorder_inside b (by omega) (by omega)]; rfl
  unfold stencil at hr
  rw [hself] at hr
  have e1 := hbd ((j : ℤ) - 1)
  have e2 := hbd ((j : ℤ) + 1)
  generalize extend b n (poleFilter b n m p a) ((j : ℤ) - 1) = x at hr e1
  generalize extend b n (poleFilter b n m p a) ((j : ℤ) + 1) = y at hr e2
  generalize poleFilter b n m p a j = c at *
  have e3 := ha j hj'
  have : |p + 1 / p| * |c| ≤ 2 * |c| + (1 + poleEps n m p) * A := by
    rw [← abs_mul]
    have e4 : (p + 1 / p) * c = x + y - a j - (x - (p + 1 / p) * c + y - a j) := by ring
    have t1 := abs_sub (x + y - a j) (x - (p + 1 / p) * c + y - a j)
    have t2 := abs_sub (x + y) (a j)
    have t3 := abs_add_le x y
    rw [← e4] at t1
    linarith
  rw [abs_add_inv hp] at this
  have hs : |p| + 1 / |p| - 2 = (1 - |p|) ^ 2 / |p| := by field_simp; ring
  have h2 : (1 - |p|) ^ 2 / |p| * |c| ≤ (1 + poleEps n m p) * A := by
    rw [← hs]; linarith
  have h3 : |c| = |p| / (1 - |p|) ^ 2 * ((1 - |p|) ^ 2 / |p| * |c|) := by field_simp
  rw [h3]
  exact mul_le_mul_of_nonneg_left h2 (by positivity)

/-! ## Sampling a spline at the grid points -/

/-- The value of a spline with the given coefficients at a grid point. -/
def splineSample (order : ℕ) (f : ℤ → K) (i : ℤ) : K :=
  ∑ j ∈ Finset.range (order + 1),
    ctxWeight .spline order (i : K) j * f (j + ctxOffset .spline order (i : K))

theorem splineSample_eq (order : ℕ) (ho : order ≠ 0) (f : ℤ → K) (i : ℤ) :
    splineSample order f i = ∑ j ∈ Finset.range (order + 1),
      splineKernel order |(((order : ℤ) / 2 : ℤ) : K) - j| * f (i + (j - (order : ℤ) / 2)) := by
  unfold splineSample
  have hoff := ctxOffset_int (K := K) .spline ho i
  have hw : ((weightLength .spline order : ℕ) : ℤ) - 1 = order := by simp [weightLength]
  rw [hw] at hoff
  refine Finset.sum_congr rfl fun j _ => ?_
  rw [ctxWeight_eq (t := .spline) ho, hoff]
  simp only
  congr 2
  · congr 1; push_cast; ring
  · ring

theorem sample2 (f : ℤ → K) (i : ℤ) :
    splineSample 2 f i = (f (i - 1) + 6 * f i + f (i + 1)) / 8 := by
  rw [splineSample_eq 2 (by norm_num)]
  norm_num [Finset.sum_range_succ, splineKernel]
  rw [show i + -1 = i - 1 by ring]
  ring

theorem sample3 (f : ℤ → K) (i : ℤ) :
    splineSample 3 f i = (f (i - 1) + 4 * f i + f (i + 1)) / 6 := by
  rw [splineSample_eq 3 (by norm_num)]
  norm_num [Finset.sum_range_succ, splineKernel]
  rw [show i + -1 = i - 1 by ring]
  ring

theorem sample4 (f : ℤ → K) (i : ℤ) :
    splineSample 4 f i
      = (f (i - 2) + 76 * f (i - 1) + 230 * f i + 76 * f (i + 1) + f (i + 2)) / 384 := by
  rw [splineSample_eq 4 (by norm_num)]
  norm_num [Finset.sum_range_succ, splineKernel]
  rw [show i + -1 = i - 1 by ring, show i + -2 = i - 2 by ring]
  ring

theorem sample5 (f : ℤ → K) (i : ℤ) :
    splineSample 5 f i
      = (f (i - 2) + 26 * f (i - 1) + 66 * f i + 26 * f (i + 1) + f (i + 2)) / 120 := by
  rw [splineSample_eq 5 (by norm_num)]
  norm_num [Finset.sum_range_succ, splineKernel]
  rw [show i + -1 = i - 1 by ring, show i + -2 = i - 2 by ring]
  ring

theorem stencil_stencil (p q : K) (f : ℤ → K) (i : ℤ) :
    stencil p (stencil q f) i
      = f (i - 2) - ((p + 1 / p) + (q + 1 / q)) * f (i - 1)
        + (2 + (p + 1 / p) * (q + 1 / q)) * f i
        - ((p + 1 / p) + (q + 1 / q)) * f (i + 1) + f (i + 2) := by
  unfold stencil
  rw [show i - 1 - 1 = i - 2 by ring, show i - 1 + 1 = i by ring, show i + 1 - 1 = i by ring,
    show i + 1 + 1 = i + 2 by ring]
  ring

theorem pole_weight {p : K} (hp : p ≠ 0) : (1 - p) * (1 - 1 / p) = 2 - (p + 1 / p) := by
  field_simp; ring

/-- One line: the spline through the filtered line takes the values of the data at the grid points,
up to the error of the cut sums. -/
theorem spline_line {order : ℕ} {poles : List (K × ℕ)} (hpo : PolesOK order poles) {b : Border}
    {n : ℕ} (hb : b = .cyclic ∨ b = .mirror) (hok : BorderOK b n) {A : K} {a : ℕ → K}
    (ha : ∀ i < n, |a i| ≤ A) (i : ℕ) (hi : i < n) :
    |splineSample order (extend b n (splineFilter b n poles a)) i - a i|
      ≤ filterEps n poles * A := by
  have hA : 0 ≤ A := le_trans (abs_nonneg _) (ha i hi)
  have hself : ∀ c : ℕ → K, extend b n c i = c i := by
    intro c
    unfold extend
    rw [mapBorder_inside b (by omega) (by omega)]; rfl
  obtain ⟨hall, horder⟩ := hpo
  -- one pole
  have one : ∀ x : K × ℕ, poles = [x] → ∀ W : K, 0 < W → 2 - (x.1 + 1 / x.1) = W →
      |stencil x.1 (extend b n (splineFilter b n poles a)) i / W - a i| ≤ filterEps n poles * A := by
    rintro x rfl W hW hs
    obtain ⟨h0, hq, hm⟩ := hall x (by simp)
    have hwt : splineFilter b n [x] a = poleFilter b n x.2 x.1 fun i => a i * W := by
      simp only [splineFilter, List.map_cons, List.map_nil, List.prod_cons, List.prod_nil, mul_one,
        List.foldl_cons, List.foldl_nil]
      rw [pole_weight h0, hs]
    rw [hwt]
    have := pole_grid hb hok h0 hq hm (a := fun i => a i * W) (A := A * W) (fun j hj => by
      rw [abs_mul, abs_of_pos hW]; exact mul_le_mul_of_nonneg_right (ha j hj) hW.le) i hi
    simp only [filterEps]
    rw [show ∀ s : K, s / W - a i = (s - a i * W) / W by intro s; field_simp, abs_div,
      abs_of_pos hW, div_le_iff₀ hW]
    linarith
  -- two poles
  have two : ∀ x y : K × ℕ, poles = [x, y] → ∀ W : K, 0 < W →
      (2 - (x.1 + 1 / x.1)) * (2 - (y.1 + 1 / y.1)) = W →
      |stencil x.1 (stencil y.1 (extend b n (splineFilter b n poles a))) i / W - a i|
        ≤ filterEps n poles * A := by
    rintro x y rfl W hW hs
    obtain ⟨h0, hq, hm⟩ := hall x (by simp)
    obtain ⟨h0', hq', hm'⟩ := hall y (by simp)
    have hpp : 0 < |x.1| := abs_pos.mpr h0
    have hqq : (0 : K) < 1 - |x.1| := by linarith
    set c1 := poleFilter b n x.2 x.1 (fun i => a i * W) with hc1
    have hwt : splineFilter b n [x, y] a = poleFilter b n y.2 y.1 c1 := by
      simp only [splineFilter, List.map_cons, List.map_nil, List.prod_cons, List.prod_nil, mul_one,
        List.foldl_cons, List.foldl_nil]
      rw [pole_weight h0, pole_weight h0', hs]
    rw [hwt]
    have ha' : ∀ j < n, |a j * W| ≤ A * W := fun j hj => by
      rw [abs_mul, abs_of_pos hW]; exact mul_le_mul_of_nonneg_right (ha j hj) hW.le
    have r1 := pole_grid hb hok h0 hq hm ha' i hi
    have hM := pole_bound hb hok h0 hq hm ha'
    have r2 := pole_resid hb hok h0' hq' hm' hM
    set M := |x.1| / (1 - |x.1|) ^ 2 * ((1 + poleEps n x.2 x.1) * (A * W)) with hMdef
    set f := extend b n (poleFilter b n y.2 y.1 c1) with hf
    -- split the residual
    have e : stencil x.1 (stencil y.1 f) i - a i * W
        = (stencil x.1 (extend b n c1) i - a i * W)
          + stencil x.1 (fun k => stencil y.1 f k - extend b n c1 k) i := by
      unfold stencil; ring
    have h3 : |stencil x.1 (fun k => stencil y.1 f k - extend b n c1 k) i|
        ≤ (2 + (|x.1| + 1 / |x.1|)) * (poleEps n y.2 y.1 * M) := by
      rw [stencil]
      have t1 := r2 ((i : ℤ) - 1)
      have t2 := r2 (i : ℤ)
      have t3 := r2 ((i : ℤ) + 1)
      generalize stencil y.1 f ((i : ℤ) - 1) - extend b n c1 ((i : ℤ) - 1) = u at t1
      generalize stencil y.1 f (i : ℤ) - extend b n c1 (i : ℤ) = v at t2
      generalize stencil y.1 f ((i : ℤ) + 1) - extend b n c1 ((i : ℤ) + 1) = w at t3
      have s1 := abs_add_le (u - (x.1 + 1 / x.1) * v) w
      have s2 := abs_sub u ((x.1 + 1 / x.1) * v)
      rw [abs_mul, abs_add_inv h0] at s2
      have s3 := mul_le_mul_of_nonneg_left t2 (show (0 : K) ≤ |x.1| + 1 / |x.1| by positivity)
      linarith
    rw [show ∀ s : K, s / W - a i = (s - a i * W) / W by intro s; field_simp, abs_div,
      abs_of_pos hW, div_le_iff₀ hW, e]
    refine le_trans (abs_add_le _ _) ?_
    refine le_trans (add_le_add r1 h3) (le_of_eq ?_)
    simp only [filterEps, hMdef]
    have hk : (2 + (|x.1| + 1 / |x.1|)) * (|x.1| / (1 - |x.1|) ^ 2)
        = ((1 + |x.1|) / (1 - |x.1|)) ^ 2 := by
      field_simp; ring
    linear_combination (poleEps n y.2 y.1 * ((1 + poleEps n x.2 x.1) * (A * W))) * hk
  rcases horder with ⟨rfl, x, hx, hs⟩ | ⟨rfl, x, hx, hs⟩ | ⟨rfl, x, y, hx, hs, hs'⟩ |
    ⟨rfl, x, y, hx, hs, hs'⟩
  · have := one x hx 8 (by norm_num) (by rw [hs]; norm_num)
    rw [stencil, hs] at this
    rw [sample2]
    convert this using 4; ring
  · have := one x hx 6 (by norm_num) (by rw [hs]; norm_num)
    rw [stencil, hs] at this
    rw [sample3]
    convert this using 4; ring
  · have := two x y hx 384 (by norm_num) (by linear_combination (-2) * hs + hs')
    rw [stencil_stencil, hs, hs'] at this
    rw [sample4]
    convert this using 4; ring
  · have := two x y hx 120 (by norm_num) (by linear_combination (-2) * hs + hs')
    rw [stencil_stencil, hs, hs'] at this
    rw [sample5]
    convert this using 4; ring

/-! ## The filter is linear -/

/-- A linear function of the first `n` entries. -/
def LinN (n : ℕ) (Φ : (ℕ → K) → K) : Prop := ∃ l : ℕ → K, ∀ g, Φ g = ∑ y ∈ Finset.range n, l y * g y

theorem LinN.proj {n i : ℕ} (h : i < n) : LinN (K := K) n fun g => g i :=
  ⟨fun y => if y = i then 1 else 0, fun g => by
    simp [Finset.sum_ite_eq', Finset.mem_range.mpr h]⟩

theorem LinN.zero {n : ℕ} : LinN (K := K) n fun _ => 0 := ⟨fun _ => 0, fun g => by simp⟩

theorem LinN.add {n : ℕ} {Φ Ψ : (ℕ → K) → K} (h : LinN n Φ) (h' : LinN n Ψ) :
    LinN n fun g => Φ g + Ψ g := by
  obtain ⟨l, hl⟩ := h
  obtain ⟨l', hl'⟩ := h'
  exact ⟨fun y => l y + l' y, fun g => by simp only [hl, hl', add_mul, Finset.sum_add_distrib]⟩

theorem LinN.mul {n : ℕ} {Φ : (ℕ → K) → K} (c : K) (h : LinN n Φ) : LinN n fun g => c * Φ g := by
  obtain ⟨l, hl⟩ := h
  exact ⟨fun y => c * l y, fun g => by simp only [hl, Finset.mul_sum, mul_assoc]⟩

theorem LinN.mul' {n : ℕ} {Φ : (ℕ → K) → K} (c : K) (h : LinN n Φ) : LinN n fun g => Φ g * c := by
  simp only [mul_comm]; exact h.mul c

theorem LinN.div {n : ℕ} {Φ : (ℕ → K) → K} (c : K) (h : LinN n Φ) : LinN n fun g => Φ g / c := by
  simp only [div_eq_mul_inv]; exact h.mul' _

theorem LinN.sub {n : ℕ} {Φ Ψ : (ℕ → K) → K} (h : LinN n Φ) (h' : LinN n Ψ) :
    LinN n fun g => Φ g - Ψ g := by
  have := h.add (h'.mul (-1))
  simpa only [neg_one_mul, ← sub_eq_add_neg] using this

theorem LinN.lsum {n : ℕ} {Φ : ℕ → (ℕ → K) → K} {k : ℕ} (h : ∀ i < k, LinN n (Φ i)) :
    LinN n fun g => ((List.range k).map fun i => Φ i g).sum := by
  simp only [listSum_range]
  induction k with
  | zero => simpa using LinN.zero
  | succ k ih =>
    simp only [Finset.sum_range_succ]
    exact (ih fun i hi => h i (by omega)).add (h k (by omega))

theorem LinN.comp {n : ℕ} {Φ : (ℕ → K) → K} {Ψ : (ℕ → K) → ℕ → K} (h : LinN n Φ)
    (h' : ∀ i < n, LinN n fun g => Ψ g i) : LinN n fun g => Φ (Ψ g) := by
  obtain ⟨l, hl⟩ := h
  simp only [hl]
  have := LinN.lsum (k := n) (Φ := fun i g => l i * Ψ g i) fun i hi => (h' i hi).mul (l i)
  simpa only [listSum_range] using this

theorem linN_causalInit (b : Border) {n : ℕ} (hn : 1 ≤ n) (m : ℕ) (p : K) :
    LinN n fun a => causalInit b n m p a := by
  have h0 : LinN (K := K) n fun g => g 0 := .proj (by omega)
  cases b with
  | zero => exact h0
  | nearest => exact h0.div _
  | cyclic =>
    simp only [causalInit]
    have hs : LinN n fun a : ℕ → K =>
        a 0 + ((List.range (min n m - 1)).map fun i => p ^ (i + 1) * a (n - 1 - i)).sum :=
      h0.add (.lsum fun i _ => (LinN.proj (by omega)).mul _)
    by_cases h : m ≥ n
    · simp only [if_pos h]; exact hs.div _
    · simp only [if_neg h]; exact hs
  | mirror =>
    simp only [causalInit]
    have hs : LinN n fun a : ℕ → K =>
        a 0 + ((List.range (min m n - 1)).map fun i => p ^ (i + 1) * a (i + 1)).sum :=
      h0.add (.lsum fun i _ => (LinN.proj (by omega)).mul _)
    by_cases h : m ≥ n
    · simp only [if_pos h]
      exact (hs.add (.lsum fun i _ => (LinN.proj (by omega)).mul _)).div _
    · simp only [if_neg h]; exact hs

theorem linN_causal (b : Border) {n : ℕ} (hn : 1 ≤ n) (m : ℕ) (p : K) (i : ℕ) (hi : i < n) :
    LinN n fun a => causal p (causalInit b n m p a) a i := by
  induction i with
  | zero => exact linN_causalInit b hn m p
  | succ i ih => exact (LinN.proj hi).add ((ih (by omega)).mul p)

theorem linN_anticausalInit (b : Border) {n : ℕ} (hn : 1 ≤ n) (m : ℕ) (p : K) :
    LinN n fun d => anticausalInit b n m p d := by
  have h1 : LinN (K := K) n fun g => g (n - 1) := .proj (by omega)
  have h2 : LinN (K := K) n fun g => g (n - 2) := .proj (by omega)
  cases b with
  | zero => exact h1.mul _
  | nearest => exact (h1.sub (h2.mul _)).mul _
  | cyclic =>
    simp only [anticausalInit]
    have hs : LinN n fun d : ℕ → K => ((List.range (min m n)).map fun i => d i * p ^ i).sum :=
      .lsum fun i _ => (LinN.proj (by omega)).mul' _
    by_cases h : m ≥ n
    · simp only [if_pos h]; exact (h1.add ((hs.div _).mul _)).mul _
    · simp only [if_neg h]; exact (h1.add (hs.mul _)).mul _
  | mirror => exact (h1.add (h2.mul _)).mul _

theorem linN_poleFilter (b : Border) {n : ℕ} (hn : 1 ≤ n) (m : ℕ) (p : K) (i : ℕ) (hi : i < n) :
    LinN n fun a => poleFilter b n m p a i := by
  simp only [poleFilter]
  have key : ∀ k < n, LinN n fun a => anticausal p
      (anticausalInit b n m p (causal p (causalInit b n m p a) a)) n
      (causal p (causalInit b n m p a) a) k := by
    intro k hk
    induction k with
    | zero =>
      exact (linN_anticausalInit b hn m p).comp (fun i hi => linN_causal b hn m p i hi)
    | succ k ih =>
      exact ((ih (by omega)).sub (linN_causal b hn m p _ (by omega))).mul p
  exact key _ (by omega)

theorem linN_splineFilter (b : Border) {n : ℕ} (hn : 1 ≤ n) (poles : List (K × ℕ)) (i : ℕ)
    (hi : i < n) : LinN n fun a => splineFilter b n poles a i := by
  simp only [splineFilter]
  generalize (poles.map fun pm => (1 - pm.1) * (1 - 1 / pm.1)).prod = W
  have key : ∀ (l : List (K × ℕ)) (Ψ : (ℕ → K) → ℕ → K), (∀ j < n, LinN n fun g => Ψ g j) →
      ∀ j < n, LinN n fun g => l.foldl (fun a pm => poleFilter b n pm.2 pm.1 a) (Ψ g) j := by
    intro l
    induction l with
    | nil => intro Ψ h j hj; exact h j hj
    | cons x l ih =>
      intro Ψ h j hj
      simp only [List.foldl_cons]
      exact ih (fun g => poleFilter b n x.2 x.1 (Ψ g))
        (fun j hj => (linN_poleFilter b hn x.2 x.1 j hj).comp h) j hj
  exact key poles (fun a i => a i * W) (fun j hj => (LinN.proj hj).mul' W) i hi

/-! ## All axes -/

theorem ctxSpec_congr {b : Border} (nw : ℕ) {axs : List (CtxAxis K)}
    (hb : ∀ ax ∈ axs, BorderOK b ax.n) {D E : List ℕ → K}
    (h : ∀ xs, List.Forall₂ (· < ·) xs (axs.map (·.n)) → D xs = E xs) :
    ctxSpec b nw axs D = ctxSpec b nw axs E := by
  induction axs generalizing D E with
  | nil => exact h [] .nil
  | cons ax axs ih =>
    simp only [ctxSpec]
    refine Finset.sum_congr rfl fun j _ => ?_
    congr 1
    have hr := mapBorder_range (hb ax (by simp)) (j + ax.off)
    have hlt : (mapBorder b ax.n (j + ax.off)).toNat < ax.n := by omega
    exact ih (fun a ha => hb a (by simp [ha])) fun xs hxs => h _ (.cons hlt hxs)

/-- The relative error for a whole array: the axes compound. -/
def arrayEps (poles : List (K × ℕ)) (shape : List ℕ) : K :=
  (shape.map fun n => 1 + filterEps n poles).prod - 1

theorem filter_grid {order : ℕ} {poles : List (K × ℕ)} (hpo : PolesOK order poles) {b : Border}
    (hb : b = .cyclic ∨ b = .mirror) {shape xs : List ℕ} (hx : List.Forall₂ (· < ·) xs shape)
    (hok : ∀ n ∈ shape, BorderOK b n) {A : K} {D : List ℕ → K}
    (hD : ∀ ys, List.Forall₂ (· < ·) ys shape → |D ys| ≤ A) :
    |ctxSpec b (order + 1) (ctxAxes .spline order shape (xs.map fun (x : ℕ) => (x : K)))
        (filterAll b poles shape D) - D xs| ≤ arrayEps poles shape * A := by
  induction hx generalizing D with
  | nil => simp [ctxSpec, ctxAxes, filterAll, arrayEps]
  | cons hlt hxs ih =>
    rename_i x n xs ns
    have hokn := hok n (by simp)
    have hn := hokn.2.1
    have ih' := fun (y : ℕ) (hy : y < n) => ih (fun m hm => hok m (by simp [hm]))
      (D := fun ys => D (y :: ys)) fun ys hys => hD _ (.cons hy hys)
    set axs := ctxAxes .spline order ns (xs.map fun (x : ℕ) => (x : K)) with haxs
    -- the value after interpolating along all other axes
    set h : ℕ → K := fun y => ctxSpec b (order + 1) axs (filterAll b poles ns fun ys => D (y :: ys))
      with hh
    have hE : 0 ≤ filterEps n poles := filterEps_nonneg hpo.1
    set P := (ns.map fun n => 1 + filterEps n poles).prod with hP
    have hmain : ctxSpec b (order + 1)
        (ctxAxes .spline order (n :: ns) ((x :: xs).map fun (x : ℕ) => (x : K)))
        (filterAll b poles (n :: ns) D)
        = splineSample order (extend b n (splineFilter b n poles h)) x := by
      have hcons : ctxAxes .spline order (n :: ns) ((x :: xs).map fun (x : ℕ) => (x : K))
          = ⟨n, ctxOffset .spline order (x : K), ctxWeight .spline order (x : K)⟩ :: axs := by
        rw [haxs]; rfl
      rw [hcons]
      simp only [ctxSpec, filterAll, splineSample, Int.cast_natCast]
      refine Finset.sum_congr rfl fun j _ => ?_
      congr 1
      have hr := mapBorder_range hokn (j + ctxOffset .spline order (x : K))
      obtain ⟨l, hl⟩ := linN_splineFilter b hn poles
        (mapBorder b n (j + ctxOffset .spline order (x : K))).toNat (by omega)
      have hl' : ∀ g : ℕ → K, splineFilter b n poles g
          (mapBorder b n (j + ctxOffset .spline order (x : K))).toNat
          = ∑ y ∈ Finset.range n, l y * g y := hl
      simp only [hl']
      rw [ctxSpec_sum]
      unfold extend
      rw [hl']
      exact Finset.sum_congr rfl fun y _ => ctxSpec_mul b _ axs (l y) _
    rw [hmain]
    have hhD : ∀ y < n, |h y - D (y :: xs)| ≤ (P - 1) * A := fun y hy => ih' y hy
    have hhA : ∀ y < n, |h y| ≤ P * A := by
      intro y hy
      have h1 := hhD y hy
      have h2 := hD (y :: xs) (.cons hy hxs)
      have h3 := abs_add_le (h y - D (y :: xs)) (D (y :: xs))
      rw [sub_add_cancel] at h3
      linarith
    have hline := spline_line hpo hb hokn hhA x hlt
    have h1 := hhD x hlt
    have h2 := abs_add_le (splineSample order (extend b n (splineFilter b n poles h)) x - h x)
      (h x - D (x :: xs))
    rw [sub_add_sub_cancel] at h2
    refine le_trans h2 (le_trans (add_le_add hline h1) (le_of_eq ?_))
    simp only [arrayEps, List.map_cons, List.prod_cons, ← hP]
    ring

/-- Spline interpolation of order 2 to 5 with the prefilter returns the data at the grid points, in
any number of dimensions, with the `cyclic` and `mirror` borders: up to a relative error that is zero
along axes no longer than the number of terms kept by the filter, and `2|p|^m/(1-|p|)^2` for a pole
`p` cut after `m` terms otherwise. -/
theorem C89_grid {order : ℕ} {poles : List (K × ℕ)} (hpo : PolesOK order poles) {b : Border}
    (hb : b = .cyclic ∨ b = .mirror) {shape : List ℕ} (hok : ∀ n ∈ shape, BorderOK b n)
    {data : ℕ → K} {A : K} (hA : ∀ g < shape.prod, |data g| ≤ A)
    {xs : List ℕ} (hx : List.Forall₂ (· < ·) xs shape) :
    |mapCoordsFilt order b poles shape data (xs.map fun (x : ℕ) => (x : K))
        - data (ravelRev shape xs)| ≤ arrayEps poles shape * A := by
  have hord : order ≤ 5 := by
    rcases hpo.2 with ⟨h, _⟩ | ⟨h, _⟩ | ⟨h, _⟩ | ⟨h, _⟩ <;> omega
  unfold mapCoordsFilt mapCoords
  have hlen : ((xs.map fun (x : ℕ) => (x : K))).length = shape.length := by
    rw [List.length_map, hx.length_eq]
  rw [C88_value (weightLength_pos (t := .spline) hord) _ (ctxAxes_ok hok),
    ctxAxes_len .spline order hlen]
  have hcongr := ctxSpec_congr (b := b) (weightLength .spline order)
    (axs := ctxAxes .spline order shape (xs.map fun (x : ℕ) => (x : K))) (ctxAxes_ok hok)
    (D := fun ys => filterAll b poles shape (fun x => data (ravelRev shape x))
      (unravelRev shape (ravelRev shape ys)))
    (E := filterAll b poles shape fun x => data (ravelRev shape x)) (by
      rw [ctxAxes_len .spline order hlen]
      intro ys hys
      rw [(unravelRev_ravelRev hys).1])
  rw [hcongr]
  exact filter_grid hpo hb hx hok (D := fun x => data (ravelRev shape x)) fun ys hys =>
    hA _ (unravelRev_ravelRev hys).2

/-- When no axis is longer than the number of terms kept, the data are returned exactly. -/
theorem C89_exact {order : ℕ} {poles : List (K × ℕ)} (hpo : PolesOK order poles) {b : Border}
    (hb : b = .cyclic ∨ b = .mirror) {shape : List ℕ} (hok : ∀ n ∈ shape, BorderOK b n)
    (hshort : ∀ n ∈ shape, ∀ x ∈ poles, n ≤ x.2) (data : ℕ → K)
    {xs : List ℕ} (hx : List.Forall₂ (· < ·) xs shape) :
    mapCoordsFilt order b poles shape data (xs.map fun (x : ℕ) => (x : K))
      = data (ravelRev shape xs) := by
  obtain ⟨A, hA⟩ : ∃ A, ∀ g < shape.prod, |data g| ≤ A := by
    refine ⟨∑ g ∈ Finset.range shape.prod, |data g|, fun g hg => ?_⟩
    exact Finset.single_le_sum (f := fun g => |data g|) (fun i _ => abs_nonneg _)
      (Finset.mem_range.mpr hg)
  have h := C89_grid hpo hb hok hA hx
  have h0 : arrayEps poles shape = 0 := by
    have : (shape.map fun n => 1 + filterEps n poles) = shape.map fun _ => (1 : K) :=
      List.map_congr_left fun n hn => by rw [filterEps_zero (hshort n hn), add_zero]
    unfold arrayEps
    rw [this, List.map_const', List.prod_replicate, one_pow, sub_self]
  rw [h0, zero_mul] at h
  exact sub_eq_zero.mp (abs_nonpos_iff.mp h)

end Pixell
