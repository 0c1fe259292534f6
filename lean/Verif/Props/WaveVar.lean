import Verif.Model.WaveVar
import Verif.Lemmas.Wavelets
import Verif.Props.Wavelets
import Verif.Props.WaveFlat

/-
Property C176: variance bases and the arguments of wavelet transforms.
-/
namespace Pixell
open Complex Finset
open scoped ComplexConjugate

/-! ### The profile of the variance basis -/

theorem low_pass_le {p a b l : ℝ} (hp : 0 ≤ p) (ha : 0 < a) (hab : a ≤ b) (hl : 0 ≤ l) :
    1 / (1 + (l / a) ^ p) ≤ 1 / (1 + (l / b) ^ p) := by
  have hb : 0 < b := lt_of_lt_of_le ha hab
  have h1 : 0 ≤ (l / b) ^ p := Real.rpow_nonneg (div_nonneg hl hb.le) _
  apply one_div_le_one_div_of_le (by linarith)
  have : (l / b) ^ p ≤ (l / a) ^ p :=
    Real.rpow_le_rpow (div_nonneg hl hb.le) (div_le_div_of_nonneg_left hl ha hab) hp
  linarith

theorem cutKernel_range {step shape lmax l : ℝ} (hm : 0 < lmax) (h : 0 ≤ l) :
    0 < cutKernel step shape lmax l ∧ cutKernel step shape lmax l ≤ 1 := by
  unfold cutKernel
  have : 0 ≤ (l / lmax) ^ (shape / Real.log step) := Real.rpow_nonneg (div_nonneg h hm.le) _
  refine ⟨by positivity, ?_⟩
  rw [div_le_one (by linarith)]
  linarith

theorem butterKernelZ_nat (step shape lmin : ℝ) (i : ℕ) (l : ℝ) :
    butterKernelZ step shape lmin i l = butterKernel step shape lmin i l := by
  unfold butterKernelZ butterKernel
  norm_num

theorem kernelZ_le_cut {step shape lmin lmax : ℝ} (hs : 1 < step) (hsh : 0 < shape) (hl : 0 < lmin) (hm : lmin ≤ lmax) {i : ℤ}
    (hi : i + 1 ≤ waveLevels step lmin lmax) {l : ℝ} (h : 0 ≤ l) :
    butterKernelZ step shape lmin i l ≤ cutKernel step shape lmax l := by
  unfold butterKernelZ cutKernel
  apply low_pass_le (wave_exp_pos hs hsh).le (mul_pos hl (Real.rpow_pos_of_pos (by linarith) _)) _ h
  refine le_trans ?_ (C91_levels hs hl hm).1
  apply mul_le_mul_of_nonneg_left _ hl.le
  rw [← Real.rpow_natCast]
  apply Real.rpow_le_rpow_of_exponent_le hs.le
  have : ((i + 1 : ℤ) : ℝ) ≤ (waveLevels step lmin lmax : ℝ) := by exact_mod_cast hi
  push_cast at this
  linarith

/-- C176: the squared filters that the variance basis starts from are between 0 and 1 for every scale and multipole (so no square
root of a negative number is taken). All but the last are the squared filters of the Butterworth basis, and with at least two
scales the last one is that of the basis less the power that the cutoff at lmax removes. -/
theorem C176_profile {step shape lmin lmax : ℝ} (hs : 1 < step) (hsh : 0 < shape) (hl : 0 < lmin) (hm : lmin ≤ lmax) {n i : ℕ}
    (hn : n = waveLevels step lmin lmax) (hi : i < n) {l : ℝ} (h : 0 ≤ l) :
    0 ≤ varProfile step shape lmin lmax n i l ∧ varProfile step shape lmin lmax n i l ≤ 1 ∧
    (i + 1 < n → varProfile step shape lmin lmax n i l = bandFilter (butterKernel step shape lmin) n i l ^ 2) ∧
    (i + 1 = n → 2 ≤ n → varProfile step shape lmin lmax n i l =
      bandFilter (butterKernel step shape lmin) n i l ^ 2 - (1 - cutKernel step shape lmax l)) := by
  have hr := butter_rising hs hsh hl h
  have hc := cutKernel_range (step := step) (shape := shape) (lmax := lmax) (by linarith) h
  have hz : 0 ≤ butterKernelZ step shape lmin ((i : ℤ) - 1) l := by
    unfold butterKernelZ
    have : 0 ≤ (l / (lmin * step ^ (((((i : ℤ) - 1 : ℤ)) : ℝ) + 0.5))) ^ (shape / Real.log step) :=
      Real.rpow_nonneg (div_nonneg h (mul_pos hl (Real.rpow_pos_of_pos (by linarith) _)).le) _
    positivity
  have hk := kernelZ_le_cut hs hsh hl hm (i := (i : ℤ) - 1) (by rw [← hn]; omega) h
  rw [bandFilter_sq hr]
  by_cases c : i + 1 < n
  · have e : varProfile step shape lmin lmax n i l = bandProfile (butterKernel step shape lmin) n i l := by
      unfold varProfile
      rw [if_pos (by omega)]
    refine ⟨by rw [e]; exact bandProfile_nonneg hr n i, ?_, fun _ => e, fun c' => by omega⟩
    rw [e]
    unfold bandProfile
    have c' : i + 1 ≠ n := by omega
    have h1 := hr.2.1 i
    have h2 := hr.1 (i - 1)
    simp only [if_neg c']
    split <;> linarith
  · have e : varProfile step shape lmin lmax n i l =
        cutKernel step shape lmax l - butterKernelZ step shape lmin ((i : ℤ) - 1) l := by
      unfold varProfile
      rw [if_neg (by omega)]
    refine ⟨by rw [e]; linarith, by rw [e]; linarith [hc.2], fun c' => absurd c' c, fun c1 c2 => ?_⟩
    rw [e]
    unfold bandProfile
    have c3 : 0 < i := by omega
    have e2 : butterKernelZ step shape lmin ((i : ℤ) - 1) l = butterKernel step shape lmin (i - 1) l := by
      rw [← butterKernelZ_nat]; congr 1; omega
    simp only [if_pos c1, if_pos c3, e2]
    ring

example : (2 : ℕ) = waveLevels 2 1 4 ∧ (0 : ℕ) < 2 := by
  refine ⟨?_, by norm_num⟩
  unfold waveLevels
  have h4 : Real.log 4 = 2 * Real.log 2 := by
    rw [show (4 : ℝ) = 2 ^ (2 : ℕ) by norm_num, Real.log_pow]; norm_num
  have h2 := Real.log_pos (show (1 : ℝ) < 2 by norm_num)
  rw [h4, Real.log_one, sub_zero, mul_div_assoc, div_self h2.ne']
  norm_num

/-- C176: with a single scale the basis passes everything, but the variance basis removes the low multipoles: at multipole 0 its
filter is 0 where that of the basis is 1. -/
theorem C176_one_scale_refuted {step shape lmin lmax : ℝ} (hs : 1 < step) (hsh : 0 < shape) :
    varProfile step shape lmin lmax 1 0 0 = 0 ∧ bandFilter (butterKernel step shape lmin) 1 0 0 = 1 := by
  have hp := wave_exp_pos hs hsh
  constructor
  · unfold varProfile cutKernel butterKernelZ
    simp only [zero_div, Real.zero_rpow hp.ne']
    norm_num
  · unfold bandFilter bandProfile
    simp

/-- C176: the variance basis of the trimmed basis is that of the untrimmed one. Its first scale has power at every multipole,
also at those from trimCut on where the filter of the trimmed basis is zero. -/
theorem C176_trim_refuted {step shape trim lmin lmax : ℝ} (hs : 1 < step) (hsh : 0 < shape) (ht : 0 < trim) (hl : 0 < lmin) {n : ℕ}
    (hn : 2 ≤ n) {l : ℝ} (h0 : 0 ≤ l) (h : trimCut step shape trim lmin 0 ≤ l) :
    bandFilter (trimmedKernel step shape trim lmin) n 0 l = 0 ∧ 0 < varProfile step shape lmin lmax n 0 l := by
  have c : ¬ 0 + 1 = n := by omega
  constructor
  · unfold bandFilter bandProfile
    simp only [if_neg c, lt_irrefl, if_false]
    rw [trimmed_zero hs hsh hl ht 0 h]
    simp
  · unfold varProfile
    rw [if_pos (by push_cast; omega)]
    unfold bandProfile
    simp only [if_neg c, lt_irrefl, if_false]
    exact butter_pos hs hl 0 h0

/-! ### Bounds -/

/-- C176: with both bounds, or without the lower one, the variance basis is in the same state, with the same number of scales, as
the basis it is made from. -/
theorem C176_bounds_partial (step : ℝ) (lmin lmax : Option ℝ) (h : lmin = none ∨ lmax ≠ none) :
    varianceBasis step lmin lmax = butterInit step lmin lmax := by
  unfold varianceBasis varButterInit
  rcases lmin with _ | a
  · simp [butterInit]
  · rcases lmax with _ | b
    · simp at h
    · simp only [Option.isSome_some, and_self, if_true]
      unfold butterInit
      by_cases c : waveLevels step a b = 0
      · simp [c]
      · simp [c]

example : (some (5 : ℝ)) = none ∨ (some (100 : ℝ)) ≠ none := by simp

/-- C176: a basis with a lower bound only is fine and waits for the upper one, but its variance basis cannot be made. -/
theorem C176_bounds_refuted (step lmin : ℝ) :
    butterInit step (some lmin) none = some .waiting ∧ varianceBasis step (some lmin) none = none := by
  constructor
  · rfl
  · simp [varianceBasis, varButterInit, butterInit]

/-! ### Arguments of the transform -/

/-- C176: by default there is a resolution for every scale, never finer than the map's own and never coarser than its largest
multipole needs, unless the map's is. -/
theorem C176_ores_default (ires : ℝ) (lmaxs : List ℝ) :
    ∃ r, waveOress ires lmaxs none .none = some r ∧ r.length = lmaxs.length ∧
      ∀ i (h : i < r.length) (h' : i < lmaxs.length), ires ≤ r[i] ∧ (r[i] = ires ∨ r[i] * lmaxs[i] = Real.pi ∨ lmaxs[i] = 0) := by
  refine ⟨_, rfl, by simp, ?_⟩
  intro i h h'
  simp only [List.getElem_map, waveRes]
  refine ⟨le_max_right _ _, ?_⟩
  rcases max_choice (Real.pi / lmaxs[i]) ires with e | e
  · rw [e]
    by_cases z : lmaxs[i] = 0
    · exact Or.inr (Or.inr z)
    · exact Or.inr (Or.inl (div_mul_cancel₀ _ z))
  · exact Or.inl e

/-- C176: the argument ores cannot be used: every value raises. -/
theorem C176_ores_refuted (ires : ℝ) (lmaxs : List ℝ) (ores : OresArg) (h : ores ≠ .none) : waveOress ires lmaxs none ores = none := by
  cases ores with
  | none => exact absurd rfl h
  | one r => rfl
  | each r => rfl

example : OresArg.one 1 ≠ .none := by simp

/-- C176: the geometry that the documentation asks the output map of wave2map to have is never the geometry of the transform: its
second part is the shape again and not the coordinate system. -/
theorem C176_geometry_refuted {S W : Type} (shape : S) (wcs : W) : waveGeometry shape wcs ≠ (shape, .inr wcs) := by
  simp [waveGeometry]

/-- C176: all scales are returned, the wanted ones with the same coefficients as without a selection, the others zero; in curved
mode, or without a fill value, they are filled as asked. -/
theorem C176_scales_partial (flat : Bool) (n : ℕ) (npix : ℕ → ℕ) (coeff : ℕ → List (Option ℝ)) (scales : List ℤ) (fill : Option ℝ)
    (hf : flat = false ∨ fill = none) :
    let r := map2waveScales flat n npix coeff (some scales) fill
    let full := map2waveScales flat n npix coeff none fill
    r.length = n ∧ full = (List.range n).map coeff ∧
    ∀ i : ℕ, i < n → ((i : ℤ) ∈ scales → r[i]? = full[i]?) ∧
      ((i : ℤ) ∉ scales → r[i]? = some (List.replicate (npix i) (some (fill.getD 0)))) := by
  intro r full
  have hfull : full = (List.range n).map coeff := by
    apply List.map_congr_left
    intro i hi
    have : (i : ℤ) ∈ ((none : Option (List ℤ)).getD ((List.range n).map fun (i : ℕ) => (i : ℤ))) := by
      simp only [Option.getD_none, List.mem_map]
      exact ⟨i, hi, rfl⟩
    rw [if_pos this]
  refine ⟨by simp [r, map2waveScales], hfull, ?_⟩
  intro i hi
  constructor
  · intro hs
    rw [hfull]
    simp only [r, map2waveScales, List.getElem?_map, Option.getD_some, List.getElem?_range hi, Option.map_some, if_pos hs]
  · intro hs
    simp only [r, map2waveScales, List.getElem?_map, Option.getD_some, List.getElem?_range hi, Option.map_some, if_neg hs]
    rcases hf with rfl | rfl
    · cases fill <;> simp
    · simp

example : map2waveScales false 2 (fun _ => 1) (fun _ => [some 5]) (some [1]) (some 7) = [[some 7], [some 5]] := by
  simp [map2waveScales, List.range_succ]

/-- C176: in flat mode every fill value is replaced by NaN. -/
theorem C176_fill_refuted (n : ℕ) (npix : ℕ → ℕ) (coeff : ℕ → List (Option ℝ)) (scales : List ℤ) (v : ℝ) {i : ℕ} (hi : i < n)
    (hs : (i : ℤ) ∉ scales) :
    (map2waveScales true n npix coeff (some scales) (some v))[i]? = some (List.replicate (npix i) none) := by
  simp only [map2waveScales, List.getElem?_map, Option.getD_some, List.getElem?_range hi, Option.map_some, if_neg hs, if_true]

/-! ### How noise transforms -/

/-- The response of the coefficient at one pixel to a unit pulse `(dy,dx)` pixels away: the inverse transform of the filter. -/
noncomputable def waveKernel (my mx : ℕ) (F : ℕ → ℕ → ℝ) (dy dx : ℤ) : ℝ :=
  (∑ q ∈ range my ×ˢ range mx, (F q.1 q.2 : ℂ) * cis ((q.1 : ℝ) * dy / my + (q.2 : ℝ) * dx / mx)).re / (my * mx)

theorem fft2_grid (ny nx : ℕ) (f : ℕ → ℕ → ℂ) (y x : ℕ) :
    fft2 ny nx f y x = ∑ p ∈ range ny ×ˢ range nx, f p.1 p.2 * cis (-((p.1 : ℝ) * y / ny + (p.2 : ℝ) * x / nx)) := by
  unfold fft2 dftRaw
  rw [Finset.sum_product]
  apply Finset.sum_congr rfl
  intro a _
  rw [Finset.sum_mul]
  apply Finset.sum_congr rfl
  intro b _
  rw [mul_assoc, ← cis_add]
  congr 2
  ring

/-- C176: a scale whose map has the size of the full map (the last scale always has): each of its coefficients is the sum over the
pixels of the map of the pixel times the response at the distance to it. -/
theorem C176_convolution {my mx : ℕ} (hy : 0 < my) (hx : 0 < mx) (F : ℕ → ℕ → ℝ) (c : ℝ) (m : ℕ → ℕ → ℝ) (y x : ℕ) :
    map2waveFlat1 my mx m ⟨my, mx, c, F⟩ y x =
      ∑ p ∈ range my ×ˢ range mx, m p.1 p.2 * (waveKernel my mx F ((y : ℤ) - p.1) ((x : ℤ) - p.2) / c) := by
  unfold map2waveFlat1
  simp only
  rw [ifft2_grid]
  have e1 : ∀ q ∈ range my ×ˢ range mx,
      resampleFftMap (fun _ b => b) (fft2 my mx fun y x => (m y x : ℂ)) (fun _ _ => 0) my mx my mx q.1 q.2 *
        ((F q.1 q.2 / (c * ((my * mx : ℕ) : ℝ)) : ℝ) : ℂ) * fmode my mx q (y, x) =
      ∑ p ∈ range my ×ˢ range mx, (((m p.1 p.2 / (c * ((my * mx : ℕ) : ℝ)) : ℝ)) : ℂ) * ((F q.1 q.2 : ℂ) *
        cis ((q.1 : ℝ) * ((y : ℤ) - p.1 : ℤ) / my + (q.2 : ℝ) * ((x : ℤ) - p.2 : ℤ) / mx)) := by
    intro q hq
    simp only [Finset.mem_product, Finset.mem_range] at hq
    rw [resampleFftMap_eq, quads_copied _ _ _ hy hx hy hx (copied_down le_rfl hq.1 (Or.inl rfl)) (copied_down le_rfl hq.2 (Or.inl rfl)),
      freqSlot_slotMode hq.1, freqSlot_slotMode hq.2, cornerOff_self hy, cornerOff_self hx, shiftPhase_zero, shiftPhase_zero, fft2_grid]
    simp only [mul_one]
    rw [Finset.sum_mul, Finset.sum_mul]
    apply Finset.sum_congr rfl
    intro p _
    unfold fmode
    simp only
    have e : (q.1 : ℝ) * (((y : ℤ) - p.1 : ℤ) : ℝ) / my + (q.2 : ℝ) * (((x : ℤ) - p.2 : ℤ) : ℝ) / mx =
        -((p.1 : ℝ) * q.1 / my + (p.2 : ℝ) * q.2 / mx) + ((q.1 : ℝ) * y / my + (q.2 : ℝ) * x / mx) := by push_cast; ring
    rw [e, cis_add (-((p.1 : ℝ) * q.1 / my + (p.2 : ℝ) * q.2 / mx))]
    push_cast
    ring
  rw [Finset.sum_congr rfl e1, Finset.sum_comm, re_sum]
  apply Finset.sum_congr rfl
  intro p _
  rw [← Finset.mul_sum, re_ofReal_mul]
  unfold waveKernel
  push_cast
  ring

/-- The mean over finitely many outcomes `w` of probability `P w`. -/
def meanOver {Ω : Type} (s : Finset Ω) (P f : Ω → ℝ) : ℝ := ∑ w ∈ s, P w * f w

/-- C176: how independent noise of any variances V transforms. If the filter F2 of the variance transform is the transform of the
squared response of F, up to a factor A (the inverse area of a pixel), then the variance transform, which divides by the squared
norm, gives A times the variance of each coefficient of the wavelet transform of the noise. -/
theorem C176_variance {Ω : Type} (s : Finset Ω) (P : Ω → ℝ) {my mx : ℕ} (hy : 0 < my) (hx : 0 < mx) (F F2 : ℕ → ℕ → ℝ) (c A : ℝ)
    (hF : ∀ dy dx : ℤ, waveKernel my mx F2 dy dx = A * waveKernel my mx F dy dx ^ 2)
    (noise : Ω → ℕ → ℕ → ℝ) (V : ℕ → ℕ → ℝ)
    (hV : ∀ p ∈ range my ×ˢ range mx, ∀ q ∈ range my ×ˢ range mx,
      meanOver s P (fun w => noise w p.1 p.2 * noise w q.1 q.2) = if p = q then V p.1 p.2 else 0) (y x : ℕ) :
    map2waveFlat1 my mx V ⟨my, mx, c ^ 2, F2⟩ y x =
      A * meanOver s P (fun w => map2waveFlat1 my mx (noise w) ⟨my, mx, c, F⟩ y x ^ 2) := by
  rw [C176_convolution hy hx]
  simp only [C176_convolution hy hx F c]
  set K : ℕ × ℕ → ℝ := fun p => waveKernel my mx F ((y : ℤ) - p.1) ((x : ℤ) - p.2) / c with hK
  have e : meanOver s P (fun w => (∑ p ∈ range my ×ˢ range mx, noise w p.1 p.2 * K p) ^ 2) =
      ∑ p ∈ range my ×ˢ range mx, V p.1 p.2 * K p ^ 2 := by
    unfold meanOver
    have e1 : ∀ w ∈ s, P w * (∑ p ∈ range my ×ˢ range mx, noise w p.1 p.2 * K p) ^ 2 =
        ∑ p ∈ range my ×ˢ range mx, ∑ q ∈ range my ×ˢ range mx, (K p * K q) * (P w * (noise w p.1 p.2 * noise w q.1 q.2)) := by
      intro w _
      rw [sq, Finset.sum_mul_sum, Finset.mul_sum]
      apply Finset.sum_congr rfl
      intro p _
      rw [Finset.mul_sum]
      apply Finset.sum_congr rfl
      intro q _
      ring
    rw [Finset.sum_congr rfl e1, Finset.sum_comm]
    apply Finset.sum_congr rfl
    intro p hp
    rw [Finset.sum_comm]
    have e2 : ∀ q ∈ range my ×ˢ range mx, ∑ w ∈ s, (K p * K q) * (P w * (noise w p.1 p.2 * noise w q.1 q.2)) =
        if p = q then K p * K q * V p.1 p.2 else 0 := by
      intro q hq
      rw [← Finset.mul_sum]
      have := hV p hp q hq
      unfold meanOver at this
      rw [this]
      split <;> simp
    rw [Finset.sum_congr rfl e2, Finset.sum_ite_eq, if_pos hp]
    ring
  rw [e, Finset.mul_sum]
  apply Finset.sum_congr rfl
  intro p _
  rw [hF, hK]
  simp only
  ring

/-- The filter that passes everything in a map of two pixels: the response is 1 at the pixel itself and 0 at the other, and so is its
square; noise of two independent signs of sizes 1 and 2. -/
example : (∀ dy dx : ℤ, waveKernel 1 2 (fun _ _ => 1) dy dx = 1 * waveKernel 1 2 (fun _ _ => 1) dy dx ^ 2) ∧
    ∀ p ∈ range 1 ×ˢ range 2, ∀ q ∈ range 1 ×ˢ range 2,
      meanOver (Finset.univ : Finset (Bool × Bool)) (fun _ => 1 / 4)
        (fun w => (fun (_ x : ℕ) => if x = 0 then (if w.1 then (1 : ℝ) else -1) else (if w.2 then 2 else -2)) p.1 p.2 *
          (fun (_ x : ℕ) => if x = 0 then (if w.1 then (1 : ℝ) else -1) else (if w.2 then 2 else -2)) q.1 q.2) =
      if p = q then (fun (_ x : ℕ) => if x = 0 then (1 : ℝ) else 4) p.1 p.2 else 0 := by
  constructor
  · intro dy dx
    unfold waveKernel
    rw [Finset.sum_product]
    simp only [Finset.sum_range_succ, Finset.range_one, Finset.sum_singleton]
    rcases Int.even_or_odd' dx with ⟨k, rfl | rfl⟩
    · have e : cis ((1 : ℝ) * ((2 * k : ℤ) : ℝ) / ((2 : ℕ) : ℝ)) = 1 := by
        rw [show (1 : ℝ) * ((2 * k : ℤ) : ℝ) / ((2 : ℕ) : ℝ) = (k : ℝ) by push_cast; ring, cis_int]
      norm_num [cis_zero] at e ⊢
      rw [e]; norm_num
    · have e : cis ((1 : ℝ) * ((2 * k + 1 : ℤ) : ℝ) / ((2 : ℕ) : ℝ)) = -1 := by
        rw [show (1 : ℝ) * ((2 * k + 1 : ℤ) : ℝ) / ((2 : ℕ) : ℝ) = (k : ℝ) + 1 / 2 by push_cast; ring, cis_add, cis_int]
        unfold cis
        rw [show (2 : ℂ) * Real.pi * ((1 / 2 : ℝ) : ℂ) * I = Real.pi * I by push_cast; ring, exp_pi_mul_I, one_mul]
      norm_num [cis_zero] at e ⊢
      rw [e]; norm_num
  · intro p hp q hq
    simp only [Finset.mem_product, Finset.mem_range] at hp hq
    obtain ⟨p1, p2⟩ := p
    obtain ⟨q1, q2⟩ := q
    obtain ⟨hp1, hp2⟩ := hp
    obtain ⟨hq1, hq2⟩ := hq
    interval_cases p1
    interval_cases q1
    interval_cases p2 <;> interval_cases q2 <;> simp [meanOver, Fintype.sum_prod_type] <;> norm_num

end Pixell
