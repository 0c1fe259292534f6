import Verif.Model.RandMap
import Verif.Lemmas.FlatFourier
import Verif.Props.MatPow
import Mathlib.MeasureTheory.Integral.Bochner.Basic
import Mathlib.MeasureTheory.Integral.Bochner.Set
import Mathlib.MeasureTheory.Integral.Bochner.ContinuousLinearMap
import Mathlib.MeasureTheory.Measure.Count
import Mathlib.MeasureTheory.Integral.Bochner.SumMeasure

/-!
C157: random maps on the flat sky have the covariance and the power spectrum they are asked to have.
-/
namespace Pixell
open Complex Matrix MeasureTheory
open scoped ComplexConjugate

/-! ### Specification -/

/-- The numbers drawn by np.random.standard_normal as far as second moments go: on a probability space the numbers for the
pixels of the map have variance 1 and are uncorrelated. -/
structure WhiteNoise {Ω : Type} [MeasurableSpace Ω] (μ : Measure Ω) {n : ℕ} (ny nx : ℕ) (g : Bool → Fin n → ℕ → ℕ → Ω → ℝ) : Prop where
  int : ∀ s d ky kx s' d' ky' kx', ky < ny → kx < nx → ky' < ny → kx' < nx →
    Integrable (fun ω => g s d ky kx ω * g s' d' ky' kx' ω) μ
  moment : ∀ s d ky kx s' d' ky' kx', ky < ny → kx < nx → ky' < ny → kx' < nx →
    ∫ ω, g s d ky kx ω * g s' d' ky' kx' ω ∂μ = if s = s' ∧ d = d' ∧ ky = ky' ∧ kx = kx' then 1 else 0

/-- The random map of a draw ω. -/
noncomputable def drawMap {Ω : Type} {n : ℕ} (ny nx : ℕ) (S : ℕ → ℕ → Matrix (Fin n) (Fin n) ℝ) (g : Bool → Fin n → ℕ → ℕ → Ω → ℝ)
    (ω : Ω) : Fin n → ℕ → ℕ → ℝ :=
  randMapScalar ny nx S (fun d y x => g false d y x ω) (fun d y x => g true d y x ω)

/-- The covariance of two pixels of a stationary map with power matrices P (in pixel units). -/
noncomputable def statCov {n : ℕ} (ny nx : ℕ) (P : ℕ → ℕ → Matrix (Fin n) (Fin n) ℝ) (c c' : Fin n) (dy dx : ℤ) : ℝ :=
  (1 / ((ny : ℝ) * nx)) * ∑ ky ∈ Finset.range ny, ∑ kx ∈ Finset.range nx,
    P ky kx c c' * Real.cos (2 * Real.pi * ((ky : ℝ) * dy / ny + (kx : ℝ) * dx / nx))

/-! ### Lemmas -/

/-- The second moment of two combinations of uncorrelated numbers. -/
theorem moment_real {Ω ι : Type} [MeasurableSpace Ω] [DecidableEq ι] (μ : Measure Ω) (s : Finset ι) (g : ι → Ω → ℝ)
    (hi : ∀ i ∈ s, ∀ j ∈ s, Integrable (fun ω => g i ω * g j ω) μ)
    (hm : ∀ i ∈ s, ∀ j ∈ s, ∫ ω, g i ω * g j ω ∂μ = if i = j then 1 else 0) (u v : ι → ℝ) :
    ∫ ω, (∑ i ∈ s, u i * g i ω) * (∑ j ∈ s, v j * g j ω) ∂μ = ∑ i ∈ s, u i * v i := by
  have e1 : ∀ ω, (∑ i ∈ s, u i * g i ω) * (∑ j ∈ s, v j * g j ω) = ∑ i ∈ s, ∑ j ∈ s, (u i * v j) * (g i ω * g j ω) := by
    intro ω
    rw [Finset.sum_mul_sum]
    refine Finset.sum_congr rfl fun i _ => Finset.sum_congr rfl fun j _ => by ring
  simp_rw [e1]
  rw [integral_finsetSum]
  · refine Finset.sum_congr rfl fun i h => ?_
    rw [integral_finsetSum]
    · rw [Finset.sum_eq_single i]
      · rw [integral_const_mul, hm i h i h, if_pos rfl, mul_one]
      · intro j hj hne
        rw [integral_const_mul, hm i h j hj, if_neg hne.symm, mul_zero]
      · intro h'; exact absurd h h'
    · intro j hj; exact (hi i h j hj).const_mul _
  · intro i h
    exact integrable_finsetSum _ fun j hj => (hi i h j hj).const_mul _

theorem cis_re_cos (t : ℝ) : (cis t).re = Real.cos (2 * Real.pi * t) := by
  unfold cis
  have : (2 * Real.pi * t * I : ℂ) = ((2 * Real.pi * t : ℝ) : ℂ) * I := by push_cast; ring
  rw [this, exp_ofReal_mul_I_re]

theorem cis_im_sin (t : ℝ) : (cis t).im = Real.sin (2 * Real.pi * t) := by
  unfold cis
  have : (2 * Real.pi * t * I : ℂ) = ((2 * Real.pi * t : ℝ) : ℂ) * I := by push_cast; ring
  rw [this, exp_ofReal_mul_I_im]

/-- The weight of one number in one pixel. -/
noncomputable def noiseW {n : ℕ} (ny nx : ℕ) (S : ℕ → ℕ → Matrix (Fin n) (Fin n) ℝ) (c : Fin n) (y x : ℕ)
    (i : Bool × Fin n × ℕ × ℕ) : ℝ :=
  let t := 2 * Real.pi * ((i.2.2.1 : ℝ) * y / ny + (i.2.2.2 : ℝ) * x / nx)
  (1 / Real.sqrt (ny * nx)) * S i.2.2.1 i.2.2.2 c i.2.1 * (if i.1 then -Real.sin t else Real.cos t)

def noiseIx (n ny nx : ℕ) : Finset (Bool × Fin n × ℕ × ℕ) :=
  Finset.univ ×ˢ (Finset.univ ×ˢ (Finset.range ny ×ˢ Finset.range nx))

theorem noise_sum {n ny nx : ℕ} (f : Bool × Fin n × ℕ × ℕ → ℝ) :
    ∑ i ∈ noiseIx n ny nx, f i =
      ∑ ky ∈ Finset.range ny, ∑ kx ∈ Finset.range nx, ∑ d, (f (true, d, ky, kx) + f (false, d, ky, kx)) := by
  unfold noiseIx
  rw [Finset.sum_product, Fintype.sum_bool]
  simp only [Finset.sum_product]
  rw [← Finset.sum_add_distrib]
  simp only [← Finset.sum_add_distrib]
  rw [Finset.sum_comm]
  refine Finset.sum_congr rfl fun ky _ => ?_
  rw [Finset.sum_comm]

theorem randMap_eq {n : ℕ} (ny nx : ℕ) (S : ℕ → ℕ → Matrix (Fin n) (Fin n) ℝ) (a b : Fin n → ℕ → ℕ → ℝ) (c : Fin n) (y x : ℕ) :
    randMapScalar ny nx S a b c y x =
      ∑ i ∈ noiseIx n ny nx, noiseW ny nx S c y x i * (if i.1 then b i.2.1 i.2.2.1 i.2.2.2 else a i.2.1 i.2.2.1 i.2.2.2) := by
  rw [noise_sum]
  unfold randMapScalar enmapIfft ifft2 idftRaw
  have hn : ifftNorm .unit false ny nx 1 = 1 / Real.sqrt (ny * nx) := by simp [ifftNorm]
  rw [hn, mul_comm, re_ofReal_mul, re_sum, Finset.mul_sum]
  refine Finset.sum_congr rfl fun ky _ => ?_
  rw [Finset.sum_mul, re_sum, Finset.mul_sum]
  refine Finset.sum_congr rfl fun kx _ => ?_
  unfold randHarm
  rw [Finset.sum_mul, Finset.sum_mul, re_sum, Finset.mul_sum]
  refine Finset.sum_congr rfl fun d _ => ?_
  have e1 : cis ((x : ℝ) * kx / nx) * cis ((y : ℝ) * ky / ny) = cis ((ky : ℝ) * y / ny + (kx : ℝ) * x / nx) := by
    rw [← cis_add]; congr 1; ring
  rw [mul_assoc, e1, mul_assoc, re_ofReal_mul]
  unfold noiseW randGaussHarm
  simp only [add_mul, add_re, mul_re, ofReal_re, ofReal_im, I_re, I_im, cis_re_cos, cis_im_sin, mul_im]
  simp
  ring

theorem draw_eq {Ω : Type} {n : ℕ} (ny nx : ℕ) (S : ℕ → ℕ → Matrix (Fin n) (Fin n) ℝ)
    (g : Bool → Fin n → ℕ → ℕ → Ω → ℝ) (ω : Ω) (c : Fin n) (y x : ℕ) : drawMap ny nx S g ω c y x =
      ∑ i ∈ noiseIx n ny nx, noiseW ny nx S c y x i * g i.1 i.2.1 i.2.2.1 i.2.2.2 ω := by
  unfold drawMap
  rw [randMap_eq]
  refine Finset.sum_congr rfl fun i _ => ?_
  congr 1
  rcases i with ⟨s, d, ky, kx⟩
  cases s <;> rfl

theorem draw_int {Ω : Type} [MeasurableSpace Ω] (μ : Measure Ω) {n : ℕ} (ny nx : ℕ) (S : ℕ → ℕ → Matrix (Fin n) (Fin n) ℝ)
    (g : Bool → Fin n → ℕ → ℕ → Ω → ℝ) (hg : WhiteNoise μ ny nx g) (c c' : Fin n) (y x y' x' : ℕ) :
    Integrable (fun ω => drawMap ny nx S g ω c y x * drawMap ny nx S g ω c' y' x') μ := by
  simp_rw [draw_eq, Finset.sum_mul_sum]
  refine integrable_finsetSum _ fun i h => integrable_finsetSum _ fun j h' => ?_
  obtain ⟨s, d, ky, kx⟩ := i
  obtain ⟨s', d', ky', kx'⟩ := j
  simp only [noiseIx, Finset.mem_product, Finset.mem_univ, true_and, Finset.mem_range] at h h'
  have := (hg.int s d ky kx s' d' ky' kx' h.1 h.2 h'.1 h'.2).const_mul
    (noiseW ny nx S c y x (s, d, ky, kx) * noiseW ny nx S c' y' x' (s', d', ky', kx'))
  refine this.congr (Filter.Eventually.of_forall fun ω => ?_)
  simp only []
  ring

/-- The mode of the opposite frequency. -/
def negK (n k : ℕ) : ℕ := (n - k) % n

theorem dvd_neg_add {n q k : ℕ} (hq : q < n) (hk : k < n) : (n : ℤ) ∣ -((q : ℤ) + k) ↔ q = negK n k := by
  unfold negK
  rw [Int.dvd_neg]
  constructor
  · rintro ⟨t, ht⟩
    rcases Nat.eq_zero_or_pos k with h | h
    · subst h
      rw [Nat.sub_zero, Nat.mod_self]
      have : (n : ℤ) ∣ (q : ℤ) - ((0 : ℕ) : ℤ) := ⟨t, by push_cast; push_cast at ht; omega⟩
      rw [dvd_sub_nat hq (by omega)] at this
      omega
    · rw [Nat.mod_eq_of_lt (by omega)]
      have : (n : ℤ) ∣ (q : ℤ) - ((n - k : ℕ) : ℤ) := ⟨t - 1, by rw [Int.ofNat_sub hk.le, mul_sub, ← ht]; ring⟩
      rw [dvd_sub_nat hq (by omega)] at this
      omega
  · intro h
    rcases Nat.eq_zero_or_pos k with hz | hz
    · subst hz
      rw [Nat.sub_zero, Nat.mod_self] at h
      subst h; simp
    · rw [Nat.mod_eq_of_lt (by omega)] at h
      exact ⟨1, by omega⟩

theorem ortho2 (ny nx : ℕ) (hy : 0 < ny) (hx : 0 < nx) (dy dx : ℤ) :
    ∑ p ∈ Finset.range ny ×ˢ Finset.range nx, cis ((p.1 : ℝ) * (dy / ny)) * cis ((p.2 : ℝ) * (dx / nx)) =
      if (ny : ℤ) ∣ dy ∧ (nx : ℤ) ∣ dx then (ny : ℂ) * nx else 0 := by
  rw [Finset.sum_product]
  simp only []
  simp_rw [← Finset.mul_sum]
  rw [← Finset.sum_mul, cis_sum ny hy, cis_sum nx hx]
  by_cases h1 : (ny : ℤ) ∣ dy <;> by_cases h2 : (nx : ℤ) ∣ dx <;> simp [h1, h2]

noncomputable def fmode (ny nx : ℕ) (q p : ℕ × ℕ) : ℂ := cis ((q.1 : ℝ) * p.1 / ny + (q.2 : ℝ) * p.2 / nx)

theorem fmode_same (ny nx : ℕ) (k q : ℕ × ℕ) (hk : k.1 < ny ∧ k.2 < nx) (hq : q.1 < ny ∧ q.2 < nx) :
    ∑ p ∈ Finset.range ny ×ˢ Finset.range nx, conj (fmode ny nx k p) * fmode ny nx q p =
      if q = k then (ny : ℂ) * nx else 0 := by
  have e : ∀ p ∈ Finset.range ny ×ˢ Finset.range nx, conj (fmode ny nx k p) * fmode ny nx q p =
      cis ((p.1 : ℝ) * ((((q.1 : ℤ) - k.1 : ℤ) : ℝ) / ny)) * cis ((p.2 : ℝ) * ((((q.2 : ℤ) - k.2 : ℤ) : ℝ) / nx)) := by
    intro p _
    unfold fmode
    rw [← cis_neg, ← cis_add, ← cis_add]
    congr 1; push_cast; ring
  rw [Finset.sum_congr rfl e, ortho2 ny nx (by omega) (by omega)]
  refine if_congr ?_ rfl rfl
  rw [dvd_sub_nat hq.1 hk.1, dvd_sub_nat hq.2 hk.2, Prod.ext_iff]
  exact ⟨fun h => ⟨h.1.symm, h.2.symm⟩, fun h => ⟨h.1.symm, h.2.symm⟩⟩

theorem fmode_neg (ny nx : ℕ) (k q : ℕ × ℕ) (hk : k.1 < ny ∧ k.2 < nx) (hq : q.1 < ny ∧ q.2 < nx) :
    ∑ p ∈ Finset.range ny ×ˢ Finset.range nx, conj (fmode ny nx k p) * conj (fmode ny nx q p) =
      if q = (negK ny k.1, negK nx k.2) then (ny : ℂ) * nx else 0 := by
  have e : ∀ p ∈ Finset.range ny ×ˢ Finset.range nx, conj (fmode ny nx k p) * conj (fmode ny nx q p) =
      cis ((p.1 : ℝ) * (((-((q.1 : ℤ) + k.1) : ℤ) : ℝ) / ny)) * cis ((p.2 : ℝ) * (((-((q.2 : ℤ) + k.2) : ℤ) : ℝ) / nx)) := by
    intro p _
    unfold fmode
    rw [← cis_neg, ← cis_neg, ← cis_add, ← cis_add]
    congr 1; push_cast; ring
  rw [Finset.sum_congr rfl e, ortho2 ny nx (by omega) (by omega)]
  refine if_congr ?_ rfl rfl
  rw [dvd_neg_add hq.1 hk.1, dvd_neg_add hq.2 hk.2, Prod.ext_iff]

theorem fft_fmode (nm : FNorm) (ny nx : ℕ) (A : ℝ) (m : ℕ → ℕ → ℝ) (ky kx : ℕ) :
    enmapFft nm false ny nx A (fun y x => (m y x : ℂ)) ky kx =
      ∑ p ∈ Finset.range ny ×ˢ Finset.range nx, ((m p.1 p.2 : ℝ) : ℂ) * (conj (fmode ny nx (ky, kx) p) * (fftNorm nm false ny nx A : ℂ)) := by
  unfold enmapFft fft2 dftRaw
  rw [Finset.sum_product, Finset.sum_mul]
  refine Finset.sum_congr rfl fun y _ => ?_
  rw [Finset.sum_mul, Finset.sum_mul]
  refine Finset.sum_congr rfl fun x _ => ?_
  have : conj (fmode ny nx (ky, kx) (y, x)) = cis (-((x : ℝ) * kx / nx)) * cis (-((y : ℝ) * ky / ny)) := by
    unfold fmode
    rw [← cis_neg, ← cis_add]; congr 1; simp only []; ring
  rw [this]; simp only []; ring

theorem statCov_fmode {n : ℕ} (ny nx : ℕ) (P : ℕ → ℕ → Matrix (Fin n) (Fin n) ℝ) (c c' : Fin n) (p p' : ℕ × ℕ) :
    ((statCov ny nx P c c' ((p.1 : ℤ) - p'.1) ((p.2 : ℤ) - p'.2) : ℝ) : ℂ) =
      ∑ q ∈ Finset.range ny ×ˢ Finset.range nx, (1 / ((ny : ℂ) * nx)) * ((P q.1 q.2 c c' : ℂ) / 2) *
        (fmode ny nx q p * conj (fmode ny nx q p') + conj (fmode ny nx q p) * fmode ny nx q p') := by
  unfold statCov
  rw [Finset.sum_product]
  push_cast
  rw [Finset.mul_sum]
  refine Finset.sum_congr rfl fun ky _ => ?_
  rw [Finset.mul_sum]
  refine Finset.sum_congr rfl fun kx _ => ?_
  have h1 : fmode ny nx (ky, kx) p * conj (fmode ny nx (ky, kx) p') =
      cis ((ky : ℝ) * (((p.1 : ℤ) - p'.1 : ℤ) : ℝ) / ny + (kx : ℝ) * (((p.2 : ℤ) - p'.2 : ℤ) : ℝ) / nx) := by
    unfold fmode
    rw [← cis_neg, ← cis_add]; congr 1; push_cast; ring
  have h2 : conj (fmode ny nx (ky, kx) p) * fmode ny nx (ky, kx) p' = conj (fmode ny nx (ky, kx) p * conj (fmode ny nx (ky, kx) p')) := by
    rw [map_mul, Complex.conj_conj]
  rw [h2, h1, Complex.add_conj, cis_re_cos]
  push_cast
  ring

theorem drawCov {Ω : Type} [MeasurableSpace Ω] (μ : Measure Ω) {n : ℕ} (ny nx : ℕ) (S : ℕ → ℕ → Matrix (Fin n) (Fin n) ℝ)
    (g : Bool → Fin n → ℕ → ℕ → Ω → ℝ) (hg : WhiteNoise μ ny nx g) (c c' : Fin n) (y x y' x' : ℕ) :
    ∫ ω, drawMap ny nx S g ω c y x * drawMap ny nx S g ω c' y' x' ∂μ =
      statCov ny nx (fun ky kx => S ky kx * (S ky kx)ᵀ) c c' ((y : ℤ) - y') ((x : ℤ) - x') := by
  have hm := moment_real μ (noiseIx n ny nx) (fun i ω => g i.1 i.2.1 i.2.2.1 i.2.2.2 ω) ?_ ?_
    (noiseW ny nx S c y x) (noiseW ny nx S c' y' x')
  · simp_rw [draw_eq]
    rw [hm, noise_sum]
    unfold statCov
    rw [Finset.mul_sum]
    refine Finset.sum_congr rfl fun ky _ => ?_
    rw [Finset.mul_sum]
    refine Finset.sum_congr rfl fun kx _ => ?_
    beta_reduce
    rw [Matrix.mul_apply, Finset.sum_mul, Finset.mul_sum]
    refine Finset.sum_congr rfl fun d _ => ?_
    unfold noiseW
    have hs : Real.sqrt ((ny : ℝ) * nx) * Real.sqrt ((ny : ℝ) * nx) = (ny : ℝ) * nx :=
      Real.mul_self_sqrt (by positivity)
    have hc : Real.cos (2 * Real.pi * ((ky : ℝ) * (((y : ℤ) - y' : ℤ) : ℝ) / ny + (kx : ℝ) * (((x : ℤ) - x' : ℤ) : ℝ) / nx)) =
        Real.cos (2 * Real.pi * ((ky : ℝ) * y / ny + (kx : ℝ) * x / nx)) * Real.cos (2 * Real.pi * ((ky : ℝ) * y' / ny + (kx : ℝ) * x' / nx)) +
        Real.sin (2 * Real.pi * ((ky : ℝ) * y / ny + (kx : ℝ) * x / nx)) * Real.sin (2 * Real.pi * ((ky : ℝ) * y' / ny + (kx : ℝ) * x' / nx)) := by
      rw [← Real.cos_sub]; congr 1; push_cast; ring
    rw [hc, Matrix.transpose_apply]
    simp only [if_true, Bool.false_eq_true, if_false]
    rw [show 1 / ((ny : ℝ) * nx) = (1 / Real.sqrt ((ny : ℝ) * nx)) * (1 / Real.sqrt ((ny : ℝ) * nx)) by
      rw [div_mul_div_comm, hs, one_mul]]
    ring
  · rintro ⟨s, d, ky, kx⟩ h ⟨s', d', ky', kx'⟩ h'
    simp only [noiseIx, Finset.mem_product, Finset.mem_univ, true_and, Finset.mem_range] at h h'
    exact hg.int s d ky kx s' d' ky' kx' h.1 h.2 h'.1 h'.2
  · rintro ⟨s, d, ky, kx⟩ h ⟨s', d', ky', kx'⟩ h'
    simp only [noiseIx, Finset.mem_product, Finset.mem_univ, true_and, Finset.mem_range] at h h'
    rw [hg.moment s d ky kx s' d' ky' kx' h.1 h.2 h'.1 h'.2]
    simp only [Prod.mk.injEq]

theorem drawPower {Ω : Type} [MeasurableSpace Ω] (μ : Measure Ω) {n : ℕ} (ny nx : ℕ) (S : ℕ → ℕ → Matrix (Fin n) (Fin n) ℝ)
    (g : Bool → Fin n → ℕ → ℕ → Ω → ℝ) (hg : WhiteNoise μ ny nx g) (nm : FNorm) (A : ℝ) (c c' : Fin n) (ky kx : ℕ) (hy : ky < ny) (hx : kx < nx) :
    ∫ ω, enmapFft nm false ny nx A (fun y x => (drawMap ny nx S g ω c y x : ℂ)) ky kx *
        conj (enmapFft nm false ny nx A (fun y x => (drawMap ny nx S g ω c' y x : ℂ)) ky kx) ∂μ =
      (((fftNorm nm false ny nx A) ^ 2 * ((ny : ℝ) * nx) *
        (((S ky kx * (S ky kx)ᵀ) c c' + (S (negK ny ky) (negK nx kx) * (S (negK ny ky) (negK nx kx))ᵀ) c c') / 2) : ℝ) : ℂ) := by
  set R := Finset.range ny ×ˢ Finset.range nx with hR
  set P : ℕ → ℕ → Matrix (Fin n) (Fin n) ℝ := fun ky kx => S ky kx * (S ky kx)ᵀ with hP
  set N : ℂ := (fftNorm nm false ny nx A : ℂ) with hN
  set k : ℕ × ℕ := (ky, kx) with hk
  have e1 : ∀ ω, enmapFft nm false ny nx A (fun y x => (drawMap ny nx S g ω c y x : ℂ)) ky kx *
        conj (enmapFft nm false ny nx A (fun y x => (drawMap ny nx S g ω c' y x : ℂ)) ky kx) =
      ∑ p ∈ R, ∑ p' ∈ R, (conj (fmode ny nx k p) * fmode ny nx k p' * N ^ 2) *
        ((drawMap ny nx S g ω c p.1 p.2 * drawMap ny nx S g ω c' p'.1 p'.2 : ℝ) : ℂ) := by
    intro ω
    rw [fft_fmode, fft_fmode, map_sum, Finset.sum_mul_sum]
    refine Finset.sum_congr rfl fun p _ => Finset.sum_congr rfl fun p' _ => ?_
    rw [map_mul, map_mul, Complex.conj_conj, conj_ofReal, conj_ofReal]
    push_cast
    ring
  simp_rw [e1]
  have hint : ∀ p p' : ℕ × ℕ, Integrable (fun ω => (conj (fmode ny nx k p) * fmode ny nx k p' * N ^ 2) *
        ((drawMap ny nx S g ω c p.1 p.2 * drawMap ny nx S g ω c' p'.1 p'.2 : ℝ) : ℂ)) μ := fun p p' =>
    (draw_int μ ny nx S g hg c c' p.1 p.2 p'.1 p'.2).ofReal.const_mul _
  rw [integral_finsetSum _ fun p _ => integrable_finsetSum _ fun p' _ => hint p p']
  have e2 : ∀ p ∈ R, ∫ ω, ∑ p' ∈ R, (conj (fmode ny nx k p) * fmode ny nx k p' * N ^ 2) *
        ((drawMap ny nx S g ω c p.1 p.2 * drawMap ny nx S g ω c' p'.1 p'.2 : ℝ) : ℂ) ∂μ =
      ∑ q ∈ R, ∑ p' ∈ R, (N ^ 2 * (1 / ((ny : ℂ) * nx)) * ((P q.1 q.2 c c' : ℂ) / 2)) *
        ((conj (fmode ny nx k p) * fmode ny nx q p) * conj (conj (fmode ny nx k p') * fmode ny nx q p') +
         (conj (fmode ny nx k p) * conj (fmode ny nx q p)) * conj (conj (fmode ny nx k p') * conj (fmode ny nx q p'))) := by
    intro p _
    rw [integral_finsetSum _ fun p' _ => hint p p', Finset.sum_comm]
    refine Finset.sum_congr rfl fun p' _ => ?_
    rw [integral_const_mul, integral_complex_ofReal, drawCov μ ny nx S g hg, statCov_fmode, Finset.mul_sum]
    refine Finset.sum_congr rfl fun q _ => ?_
    simp only [map_mul, Complex.conj_conj]
    ring
  rw [Finset.sum_congr rfl e2, Finset.sum_comm]
  have e3 : ∀ q ∈ R, ∑ p ∈ R, ∑ p' ∈ R, (N ^ 2 * (1 / ((ny : ℂ) * nx)) * ((P q.1 q.2 c c' : ℂ) / 2)) *
        ((conj (fmode ny nx k p) * fmode ny nx q p) * conj (conj (fmode ny nx k p') * fmode ny nx q p') +
         (conj (fmode ny nx k p) * conj (fmode ny nx q p)) * conj (conj (fmode ny nx k p') * conj (fmode ny nx q p'))) =
      (N ^ 2 * ((ny : ℂ) * nx) / 2) * ((if q = k then (P q.1 q.2 c c' : ℂ) else 0) +
        (if q = (negK ny ky, negK nx kx) then (P q.1 q.2 c c' : ℂ) else 0)) := by
    intro q hq
    simp only [hR, Finset.mem_product, Finset.mem_range] at hq
    simp_rw [← Finset.mul_sum, Finset.sum_add_distrib, ← Finset.sum_mul_sum, ← map_sum]
    rw [fmode_same ny nx k q ⟨hy, hx⟩ hq, fmode_neg ny nx k q ⟨hy, hx⟩ hq]
    have h1 : (ny : ℂ) ≠ 0 := by have : 0 < ny := by omega
                                 exact_mod_cast this.ne'
    have h2 : (nx : ℂ) ≠ 0 := by have : 0 < nx := by omega
                                 exact_mod_cast this.ne'
    generalize (P q.1 q.2 c c' : ℂ) = z
    simp only [hk]
    split_ifs <;> simp only [map_mul, map_natCast, map_zero, mul_zero, add_zero, zero_add] <;> field_simp
  rw [Finset.sum_congr rfl e3, ← Finset.mul_sum, Finset.sum_add_distrib, Finset.sum_ite_eq', Finset.sum_ite_eq',
    if_pos, if_pos]
  · push_cast; simp only [hk]; ring
  · simp only [hR, Finset.mem_product, Finset.mem_range, negK]
    exact ⟨Nat.mod_lt _ (by omega), Nat.mod_lt _ (by omega)⟩
  · simp only [hR, hk, Finset.mem_product, Finset.mem_range]
    exact ⟨hy, hx⟩

theorem fftfreq_negK (n k : ℕ) (hk : k < n) : fftfreq n (negK n k) ^ 2 = fftfreq n k ^ 2 := by
  unfold negK fftfreq
  have hn : (n : ℝ) ≠ 0 := by have : 0 < n := by omega
                              exact_mod_cast this.ne'
  rcases Nat.eq_zero_or_pos k with h | h
  · subst h; rw [Nat.sub_zero, Nat.mod_self]
  · rw [Nat.mod_eq_of_lt (by omega), Nat.cast_sub hk.le]
    by_cases h1 : k < (n - 1) / 2 + 1
    · rw [if_neg (by omega), if_pos h1]; ring
    · rw [if_neg h1]
      by_cases h2 : n - k < (n - 1) / 2 + 1
      · rw [if_pos h2]; ring
      · have : n = 2 * k := by omega
        rw [if_neg h2, this]; push_cast; ring

theorem modL_negK (ny nx : ℕ) (sy sx : ℝ) (ky kx : ℕ) (hy : ky < ny) (hx : kx < nx) :
    modL ny nx sy sx (negK ny ky) (negK nx kx) = modL ny nx sy sx ky kx := by
  have e : ∀ (n k : ℕ) (s : ℝ), k < n → lAxis n s (negK n k) ^ 2 = lAxis n s k ^ 2 := by
    intro n k s h
    have := fftfreq_negK n k h
    unfold lAxis
    calc (fftfreq n (negK n k) / s * 2 * Real.pi) ^ 2 = fftfreq n (negK n k) ^ 2 * (2 * Real.pi / s) ^ 2 := by ring
      _ = _ := by rw [this]; ring
  unfold modL
  rw [e ny ky sy hy, e nx kx sx hx]

/-! ### Theorems -/

/-- C157: a random map made from power matrices C(ky,kx) has between any two pixels the covariance of a stationary map with
these matrices, in pixel units. -/
theorem C157_cov {Ω : Type} [MeasurableSpace Ω] (μ : Measure Ω) {n : ℕ} (ny nx : ℕ) (pixelUnits : Bool) (area : ℝ)
    (C : ℕ → ℕ → Matrix (Fin n) (Fin n) ℝ) (E : ℕ → ℕ → Fin n → ℝ) (V : ℕ → ℕ → Matrix (Fin n) (Fin n) ℝ) (rlim alim : ℝ)
    (hE : ∀ ky kx, ky < ny → kx < nx → IsEigh (covScaled pixelUnits ny nx area (C ky kx)) (E ky kx) (V ky kx) ∧ ∀ i, 0 ≤ E ky kx i)
    (g : Bool → Fin n → ℕ → ℕ → Ω → ℝ) (hg : WhiteNoise μ ny nx g) (c c' : Fin n) (y x y' x' : ℕ) :
    ∫ ω, drawMap ny nx (fun ky kx => eigpow (E ky kx) (V ky kx) (1 / 2) rlim alim) g ω c y x *
        drawMap ny nx (fun ky kx => eigpow (E ky kx) (V ky kx) (1 / 2) rlim alim) g ω c' y' x' ∂μ =
      statCov ny nx (fun ky kx => covScaled pixelUnits ny nx area (C ky kx)) c c' ((y : ℤ) - y') ((x : ℤ) - x') := by
  rw [drawCov μ ny nx _ g hg]
  unfold statCov
  congr 1
  refine Finset.sum_congr rfl fun ky hy => Finset.sum_congr rfl fun kx hx => ?_
  have h := hE ky kx (Finset.mem_range.1 hy) (Finset.mem_range.1 hx)
  beta_reduce
  rw [C132_symm, C132_sqrt h.1 rlim alim h.2]

/-- C157: with pixel_units a spectrum of one at every mode gives independent pixels of variance one, whatever the area of the map. -/
theorem C157_pixel {Ω : Type} [MeasurableSpace Ω] (μ : Measure Ω) {n : ℕ} (ny nx : ℕ) (area : ℝ)
    (E : ℕ → ℕ → Fin n → ℝ) (V : ℕ → ℕ → Matrix (Fin n) (Fin n) ℝ) (rlim alim : ℝ)
    (hE : ∀ ky kx, ky < ny → kx < nx → IsEigh (covScaled true ny nx area (1 : Matrix (Fin n) (Fin n) ℝ)) (E ky kx) (V ky kx) ∧ ∀ i, 0 ≤ E ky kx i)
    (g : Bool → Fin n → ℕ → ℕ → Ω → ℝ) (hg : WhiteNoise μ ny nx g) (c c' : Fin n) (y x y' x' : ℕ) (hy : y < ny) (hx : x < nx)
    (hy' : y' < ny) (hx' : x' < nx) :
    ∫ ω, drawMap ny nx (fun ky kx => eigpow (E ky kx) (V ky kx) (1 / 2) rlim alim) g ω c y x *
        drawMap ny nx (fun ky kx => eigpow (E ky kx) (V ky kx) (1 / 2) rlim alim) g ω c' y' x' ∂μ =
      if c = c' ∧ y = y' ∧ x = x' then 1 else 0 := by
  rw [C157_cov μ ny nx true area (fun _ _ => 1) E V rlim alim hE g hg]
  unfold statCov covScaled
  simp only [if_true, Matrix.one_apply]
  have hn : ((ny : ℝ) * nx) ≠ 0 := by
    have h1 : (ny : ℝ) ≠ 0 := by exact_mod_cast (by omega : ny ≠ 0)
    have h2 : (nx : ℝ) ≠ 0 := by exact_mod_cast (by omega : nx ≠ 0)
    exact mul_ne_zero h1 h2
  by_cases hc : c = c'
  · subst hc
    have ho := congrArg Complex.re (ortho2 ny nx (by omega) (by omega) ((y : ℤ) - y') ((x : ℤ) - x'))
    rw [Complex.re_sum] at ho
    have e : ∀ p ∈ Finset.range ny ×ˢ Finset.range nx,
        (cis ((p.1 : ℝ) * ((((y : ℤ) - y' : ℤ) : ℝ) / ny)) * cis ((p.2 : ℝ) * ((((x : ℤ) - x' : ℤ) : ℝ) / nx))).re =
        Real.cos (2 * Real.pi * ((p.1 : ℝ) * (((y : ℤ) - y' : ℤ) : ℝ) / ny + (p.2 : ℝ) * (((x : ℤ) - x' : ℤ) : ℝ) / nx)) := by
      intro p _
      rw [← cis_add, cis_re_cos]
      congr 2
      ring
    rw [Finset.sum_congr rfl e, Finset.sum_product] at ho
    simp only [if_true, one_mul, true_and]
    rw [ho]
    have h1 : ((ny : ℤ) ∣ (y : ℤ) - y') ↔ y = y' := by rw [dvd_sub_nat hy hy']; exact eq_comm
    have h2 : ((nx : ℤ) ∣ (x : ℤ) - x') ↔ x = x' := by rw [dvd_sub_nat hx hx']; exact eq_comm
    simp only [h1, h2]
    split
    · rw [show ((ny : ℂ) * nx).re = (ny : ℝ) * nx by simp]
      exact one_div_mul_cancel hn
    · simp
  · simp [hc]

/-- C157: in physical units the expected power of the map at each mode is the spectrum asked for, averaged over the mode and its
opposite. `area` is the area of the map. -/
theorem C157_power {Ω : Type} [MeasurableSpace Ω] (μ : Measure Ω) {n : ℕ} (ny nx : ℕ) (area : ℝ) (ha : 0 < area)
    (C : ℕ → ℕ → Matrix (Fin n) (Fin n) ℝ) (E : ℕ → ℕ → Fin n → ℝ) (V : ℕ → ℕ → Matrix (Fin n) (Fin n) ℝ) (rlim alim : ℝ)
    (hE : ∀ ky kx, ky < ny → kx < nx → IsEigh (covScaled false ny nx area (C ky kx)) (E ky kx) (V ky kx) ∧ ∀ i, 0 ≤ E ky kx i)
    (g : Bool → Fin n → ℕ → ℕ → Ω → ℝ) (hg : WhiteNoise μ ny nx g) (c c' : Fin n) (ky kx : ℕ) (hy : ky < ny) (hx : kx < nx) :
    let m := fun ω c => enmapFft .phys false ny nx (area / ((ny : ℝ) * nx))
      (fun y x => ((drawMap ny nx (fun ky kx => eigpow (E ky kx) (V ky kx) (1 / 2) rlim alim) g ω c y x : ℝ) : ℂ)) ky kx
    ∫ ω, m ω c * conj (m ω c') ∂μ = (((C ky kx c c' + C (negK ny ky) (negK nx kx) c c') / 2 : ℝ) : ℂ) := by
  intro m
  rw [drawPower μ ny nx _ g hg _ _ c c' ky kx hy hx]
  have h := hE ky kx hy hx
  have h' := hE (negK ny ky) (negK nx kx) (Nat.mod_lt _ (by omega)) (Nat.mod_lt _ (by omega))
  rw [C132_symm, C132_symm, C132_sqrt h.1 rlim alim h.2, C132_sqrt h'.1 rlim alim h'.2]
  congr 1
  have hn : (0 : ℝ) < (ny : ℝ) * nx := by
    have h1 : (0 : ℝ) < ny := by exact_mod_cast (by omega : 0 < ny)
    have h2 : (0 : ℝ) < nx := by exact_mod_cast (by omega : 0 < nx)
    positivity
  have hf : fftNorm .phys false ny nx (area / ((ny : ℝ) * nx)) ^ 2 = area / ((ny : ℝ) * nx) / ((ny : ℝ) * nx) := by
    simp only [fftNorm, ne_eq, reduceCtorEq, not_false_eq_true, if_true, Bool.false_eq_true, if_false]
    rw [mul_pow, div_pow, Real.sq_sqrt hn.le, Real.sq_sqrt (by positivity)]
    ring
  rw [hf]
  unfold covScaled
  simp only [Bool.false_eq_true, if_false, Matrix.smul_apply, smul_eq_mul]
  generalize (ny : ℝ) * nx = t at hn ⊢
  have := hn.ne'
  field_simp

/-- C157: a random map made from an isotropic spectrum, through the interpolated roots of its matrices, has at each mode the
power of these roots at the length of its wave vector. -/
theorem C157_iso {Ω : Type} [MeasurableSpace Ω] (μ : Measure Ω) {n : ℕ} (nl ny nx : ℕ) (sy sx area : ℝ) (ha : 0 < area)
    (root : ℕ → Matrix (Fin n) (Fin n) ℝ)
    (g : Bool → Fin n → ℕ → ℕ → Ω → ℝ) (hg : WhiteNoise μ ny nx g) (c c' : Fin n) (ky kx : ℕ) (hy : ky < ny) (hx : kx < nx) :
    let m := fun ω c => enmapFft .phys false ny nx (area / ((ny : ℝ) * nx))
      (fun y x => ((drawMap ny nx (specExpand nl ny nx sy sx root) g ω c y x : ℝ) : ℂ)) ky kx
    ∫ ω, m ω c * conj (m ω c') ∂μ = ((area / ((ny : ℝ) * nx) *
      ∑ d, linInterpConst nl (fun l => root l c d) (modL ny nx sy sx ky kx) * linInterpConst nl (fun l => root l c' d) (modL ny nx sy sx ky kx) : ℝ) : ℂ) := by
  intro m
  rw [drawPower μ ny nx _ g hg _ _ c c' ky kx hy hx]
  have he : specExpand nl ny nx sy sx root (negK ny ky) (negK nx kx) = specExpand nl ny nx sy sx root ky kx := by
    funext c d
    unfold specExpand
    rw [modL_negK ny nx sy sx ky kx hy hx]
  rw [he]
  congr 1
  have hn : (0 : ℝ) < (ny : ℝ) * nx := by
    have h1 : (0 : ℝ) < ny := by exact_mod_cast (by omega : 0 < ny)
    have h2 : (0 : ℝ) < nx := by exact_mod_cast (by omega : 0 < nx)
    positivity
  have hf : fftNorm .phys false ny nx (area / ((ny : ℝ) * nx)) ^ 2 = area / ((ny : ℝ) * nx) / ((ny : ℝ) * nx) := by
    simp only [fftNorm, ne_eq, reduceCtorEq, not_false_eq_true, if_true, Bool.false_eq_true, if_false]
    rw [mul_pow, div_pow, Real.sq_sqrt hn.le, Real.sq_sqrt (by positivity)]
    ring
  rw [hf, Matrix.mul_apply]
  simp only [Matrix.transpose_apply]
  have : ∀ d, specExpand nl ny nx sy sx root ky kx c d * specExpand nl ny nx sy sx root ky kx c' d =
    linInterpConst nl (fun l => root l c d) (modL ny nx sy sx ky kx) * linInterpConst nl (fun l => root l c' d) (modL ny nx sy sx ky kx) := fun d => rfl
  simp_rw [this]
  field_simp
  ring

/-- C157: at a mode whose wave vector has the whole length l below the end of the spectrum the expected power is the
spectrum at l; beyond the end it is zero. -/
theorem C157_iso_whole {Ω : Type} [MeasurableSpace Ω] (μ : Measure Ω) {n : ℕ} (nl ny nx : ℕ) (sy sx area : ℝ) (ha : 0 < area)
    (C : ℕ → Matrix (Fin n) (Fin n) ℝ) (E : ℕ → Fin n → ℝ) (V : ℕ → Matrix (Fin n) (Fin n) ℝ) (rlim alim : ℝ)
    (hE : ∀ l, l < nl → IsEigh (covScaled false ny nx area (C l)) (E l) (V l) ∧ ∀ i, 0 ≤ E l i)
    (g : Bool → Fin n → ℕ → ℕ → Ω → ℝ) (hg : WhiteNoise μ ny nx g) (c c' : Fin n) (ky kx : ℕ) (hy : ky < ny) (hx : kx < nx) :
    let m := fun ω c => enmapFft .phys false ny nx (area / ((ny : ℝ) * nx))
      (fun y x => ((drawMap ny nx (specExpand nl ny nx sy sx (fun l => eigpow (E l) (V l) (1 / 2) rlim alim)) g ω c y x : ℝ) : ℂ)) ky kx
    (∀ l : ℕ, l < nl → modL ny nx sy sx ky kx = l → ∫ ω, m ω c * conj (m ω c') ∂μ = ((C l c c' : ℝ) : ℂ)) ∧
    ((nl : ℝ) - 1 < modL ny nx sy sx ky kx → ∫ ω, m ω c * conj (m ω c') ∂μ = 0) := by
  intro m
  have h := C157_iso μ nl ny nx sy sx area ha (fun l => eigpow (E l) (V l) (1 / 2) rlim alim) g hg c c' ky kx hy hx
  simp only [] at h
  have hn : (0 : ℝ) < (ny : ℝ) * nx := by
    have h1 : (0 : ℝ) < ny := by exact_mod_cast (by omega : 0 < ny)
    have h2 : (0 : ℝ) < nx := by exact_mod_cast (by omega : 0 < nx)
    positivity
  constructor
  · intro l hl hm
    rw [h, hm]
    congr 1
    have hl' : ((l : ℝ)) ≤ (nl : ℝ) - 1 := by
      have : ((l + 1 : ℕ) : ℝ) ≤ nl := by exact_mod_cast hl
      push_cast at this; linarith
    have e : ∀ f : ℕ → ℝ, linInterpConst nl f (l : ℝ) = f l := by
      intro f
      unfold linInterpConst
      rw [if_pos ⟨by positivity, hl'⟩, Nat.floor_natCast]
      ring
    simp_rw [e]
    have h2 := congrFun (congrFun (C132_sqrt (hE l hl).1 rlim alim (hE l hl).2) c) c'
    have h3 : ∀ d, eigpow (E l) (V l) (1 / 2) rlim alim d c' = eigpow (E l) (V l) (1 / 2) rlim alim c' d := fun d =>
      congrFun (congrFun (C132_symm (E l) (V l) (1 / 2) rlim alim) c') d
    rw [Matrix.mul_apply] at h2
    simp_rw [h3] at h2
    rw [h2]
    unfold covScaled
    simp only [Bool.false_eq_true, if_false, Matrix.smul_apply, smul_eq_mul]
    generalize (ny : ℝ) * nx = t at hn ⊢
    have := hn.ne'
    field_simp
  · intro hm
    rw [h]
    have e : ∀ f : ℕ → ℝ, linInterpConst nl f (modL ny nx sy sx ky kx) = 0 := by
      intro f
      unfold linInterpConst
      rw [if_neg (by rintro ⟨_, h2⟩; linarith)]
    simp_rw [e]
    simp

/-- Such numbers exist for every size of map, on a probability space. -/
theorem whiteNoise_exists (n ny nx : ℕ) (hp : 0 < n ∧ 0 < ny ∧ 0 < nx) :
    ∃ (Ω : Type) (_ : MeasurableSpace Ω) (μ : Measure Ω) (g : Bool → Fin n → ℕ → ℕ → Ω → ℝ), IsProbabilityMeasure μ ∧ WhiteNoise μ ny nx g := by
  let Ω := {i : Bool × Fin n × ℕ × ℕ // i ∈ noiseIx n ny nx}
  let _ : MeasurableSpace Ω := ⊤
  have : MeasurableSingletonClass Ω := ⟨fun _ => trivial⟩
  have hne : 0 < Fintype.card Ω := Fintype.card_pos_iff.2 ⟨⟨(true, ⟨0, hp.1⟩, 0, 0), by
    simp [noiseIx, hp]⟩⟩
  let N : ℝ := Fintype.card Ω
  have hN : 0 < N := Nat.cast_pos.2 hne
  let μ : Measure Ω := ENNReal.ofReal (1 / N) • Measure.count
  let g : Bool → Fin n → ℕ → ℕ → Ω → ℝ := fun s d y x ω => if ω.1 = (s, d, y, x) then Real.sqrt N else 0
  have hprob : IsProbabilityMeasure μ := ⟨by
    simp only [μ, Measure.smul_apply, smul_eq_mul]
    rw [Measure.count_apply_finite _ Set.finite_univ]
    simp only [Set.Finite.toFinset_univ, Finset.card_univ]
    rw [show ((Fintype.card Ω : ℕ) : ENNReal) = ENNReal.ofReal N by simp [N], ← ENNReal.ofReal_mul (by positivity),
      one_div, inv_mul_cancel₀ hN.ne', ENNReal.ofReal_one]⟩
  refine ⟨Ω, ⊤, μ, g, hprob, ?_, ?_⟩
  · intros; exact Integrable.of_finite
  · intro s d ky kx s' d' ky' kx' h1 h2 h3 h4
    simp only [μ]
    rw [integral_smul_measure, integral_count, ENNReal.toReal_ofReal (by positivity)]
    by_cases hc : s = s' ∧ d = d' ∧ ky = ky' ∧ kx = kx'
    · rw [if_pos hc]
      obtain ⟨rfl, rfl, rfl, rfl⟩ := hc
      rw [Finset.sum_eq_single (⟨(s, d, ky, kx), by simp [noiseIx, h1, h2]⟩ : Ω)]
      · simp only [g, if_true, smul_eq_mul]
        rw [Real.mul_self_sqrt hN.le, one_div, inv_mul_cancel₀ hN.ne']
      · intro ω _ hω
        have : ω.1 ≠ (s, d, ky, kx) := fun h => hω (Subtype.ext h)
        simp only [g, if_neg this, mul_zero]
      · intro h; exact absurd (Finset.mem_univ _) h
    · rw [if_neg hc, Finset.sum_eq_zero, smul_zero]
      intro ω _
      by_cases e1 : ω.1 = (s, d, ky, kx)
      · have : ω.1 ≠ (s', d', ky', kx') := by
          rw [e1]; intro h; simp only [Prod.mk.injEq] at h; exact hc h
        simp only [g, if_neg this, mul_zero]
      · simp only [g, if_neg e1, zero_mul]

/-- A case of C157_cov and C157_power: two components with power 1 at every mode of a 2 x 3 map of area 6. -/
example : ∀ ky kx : ℕ, ky < 2 → kx < 3 → IsEigh (covScaled false 2 3 6 (1 : Matrix (Fin 2) (Fin 2) ℝ)) (fun _ => 1) 1 ∧
    ∀ _ : Fin 2, (0 : ℝ) ≤ 1 := by
  intro ky kx _ _
  refine ⟨⟨by simp, by simp, ?_⟩, fun _ => by norm_num⟩
  unfold covScaled
  norm_num

/-- The power expected at a mode whose wave vector has no whole length is the spectrum interpolated there. -/
def C157_between_claim (nl ny nx : ℕ) (sy sx area : ℝ) (C : ℕ → ℝ) : Prop :=
  ∀ (Ω : Type) (_ : MeasurableSpace Ω) (μ : Measure Ω) (g : Bool → Fin 1 → ℕ → ℕ → Ω → ℝ), WhiteNoise μ ny nx g →
    ∀ ky kx, ky < ny → kx < nx →
    let m := fun ω => enmapFft .phys false ny nx (area / ((ny : ℝ) * nx))
      (fun y x => ((drawMap ny nx (specExpand nl ny nx sy sx (fun l _ _ => Real.sqrt ((ny : ℝ) * nx / area * C l))) g ω 0 y x : ℝ) : ℂ)) ky kx
    ∫ ω, m ω * conj (m ω) ∂μ = ((linInterpConst nl C (modL ny nx sy sx ky kx) : ℝ) : ℂ)

/-- C157: between whole lengths this is false: the roots are interpolated, and the power of the interpolated roots is lower. -/
theorem C157_between_refuted : ¬ C157_between_claim 2 1 3 1 (4 * Real.pi / 3) 3 (fun l => l) := by
  intro h
  obtain ⟨Ω, mΩ, μ, g, _, hg⟩ := whiteNoise_exists 1 1 3 (by omega)
  have h1 := h Ω mΩ μ g hg 0 1 (by omega) (by omega)
  have h2 := C157_iso μ 2 1 3 1 (4 * Real.pi / 3) 3 (by norm_num)
    (fun l _ _ => Real.sqrt (((1 : ℕ) : ℝ) * (3 : ℕ) / 3 * l)) g hg 0 0 0 1 (by omega) (by omega)
  simp only [] at h1 h2
  rw [h2] at h1
  have hl : modL 1 3 1 (4 * Real.pi / 3) 0 1 = 1 / 2 := by
    unfold modL lAxis fftfreq
    have hp := Real.pi_pos.ne'
    norm_num
    rw [show 1 / 3 / (4 * Real.pi / 3) * 2 * Real.pi = 1 / 2 by field_simp; norm_num]
    rw [Real.sqrt_sq (by norm_num)]
  have e : ∀ f : ℕ → ℝ, linInterpConst 2 f (1 / 2) = f 0 + 1 / 2 * (f 1 - f 0) := by
    intro f
    unfold linInterpConst
    have : ⌊(1 / 2 : ℝ)⌋₊ = 0 := by rw [Nat.floor_eq_zero]; norm_num
    rw [if_pos (by norm_num), this]
    simp
  rw [hl, e, e] at h1
  have h3 := ofReal_injective h1
  norm_num at h3

end Pixell
