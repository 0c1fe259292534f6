import Verif.Model.WaveFlat
import Verif.Lemmas.FlatFourier
import Verif.Lemmas.MapFilter
import Verif.Props.Fourier
import Verif.Props.RandMap
import Mathlib.Analysis.Real.Pi.Bounds
import Mathlib.Tactic.IntervalCases

/-
Property C162: the flat-sky wavelet transform.
-/
namespace Pixell
open Complex Finset
open scoped ComplexConjugate

/-! ### Specification: signed modes, resolved modes -/

/-- The signed number of a Fourier slot. -/
def slotMode (n K : ℕ) : ℤ := if 2 * K < n then K else (K : ℤ) - n

/-- A mode of a full axis of length `N` that an axis of length `n` represents together with its negative. -/
def Resolves (N n : ℕ) (k : ℤ) : Prop := n = N ∨ 2 * |k| + 1 < n

theorem slotMode_lt {n K : ℕ} (h : K < n) : -(n : ℤ) ≤ 2 * slotMode n K ∧ 2 * slotMode n K < n := by
  unfold slotMode; split <;> omega

theorem freqSlot_lt {n : ℕ} (k : ℤ) (h : 0 < n) : freqSlot n k < n := by
  unfold freqSlot
  have := Int.emod_lt_of_pos k (b := (n : ℤ)) (by omega)
  have := Int.emod_nonneg k (b := (n : ℤ)) (by omega)
  omega

theorem freqSlot_slotMode {n K : ℕ} (h : K < n) : freqSlot n (slotMode n K) = K := by
  unfold slotMode
  split
  · rw [freqSlot_nonneg (by omega) (by omega)]; omega
  · rw [freqSlot_neg (by omega) (by omega)]; omega

theorem slotMode_freqSlot {n : ℕ} {k : ℤ} (h1 : -(n : ℤ) ≤ 2 * k) (h2 : 2 * k < n) : slotMode n (freqSlot n k) = k := by
  unfold slotMode
  rcases lt_or_ge k 0 with h | h
  · rw [freqSlot_neg h (by omega), if_neg (by omega)]; omega
  · rw [freqSlot_nonneg h (by omega), if_pos (by omega)]; omega

theorem fftfreq_slotMode {n K : ℕ} (h : K < n) : fftfreq n K = (slotMode n K : ℝ) / n := by
  unfold fftfreq slotMode
  by_cases h1 : 2 * K < n
  · rw [if_pos (by omega), if_pos h1]; simp
  · rw [if_neg (by omega), if_neg h1]; push_cast; rfl

theorem resolves_small {N n : ℕ} {k : ℤ} (h : Resolves N n k) (hN : n ≤ N) (h1 : -(N : ℤ) ≤ 2 * k) (h2 : 2 * k < N) :
    slotMode n (freqSlot n k) = k := by
  rcases h with rfl | h
  · exact slotMode_freqSlot h1 h2
  · have := abs_lt.1 (show |k| < (n : ℤ) by omega)
    have a1 := le_abs_self k
    have a2 := neg_abs_le k
    exact slotMode_freqSlot (by omega) (by omega)

theorem resolves_big {N n a : ℕ} (ha : a < n) (hN : n ≤ N) : slotMode N (freqSlot N (slotMode n a)) = slotMode n a := by
  have := slotMode_lt ha
  exact slotMode_freqSlot (by omega) (by omega)

/-! ### The copies -/

/-- Which slot of the input a slot of the output is copied from. -/
def CopiedFrom (m n a a' : ℕ) : Prop :=
  (a < min m n / 2 ∧ a' = a) ∨ (n - (min m n - min m n / 2) ≤ a ∧ a < n ∧ a' + n = a + m)

theorem quads_copied (op : ℂ → ℂ → ℂ) (fi fo : ℕ → ℕ → ℂ) {my mx ny nx a a' b b' : ℕ}
    (hmy : 0 < my) (hmx : 0 < mx) (hny : 0 < ny) (hnx : 0 < nx) (ha : CopiedFrom my ny a a') (hb : CopiedFrom mx nx b b') :
    resampleQuads op id fi fo my mx ny nx a b = op (fo a b) (fi a' b') := by
  have key : ∀ {m n a a' : ℕ}, 0 < m → 0 < n → CopiedFrom m n a a' → ∃ k : ℤ, (-((min m n - min m n / 2 : ℕ) : ℤ) ≤ k ∧ k < ((min m n / 2 : ℕ) : ℤ)) ∧
      freqSlot n k = a ∧ freqSlot m k = a' := by
    intro m n a a' hm hn h
    rcases h with ⟨h1, rfl⟩ | ⟨h1, h2, h3⟩
    · exact ⟨a', by omega, by rw [freqSlot_nonneg (by omega) (by omega)]; omega, by rw [freqSlot_nonneg (by omega) (by omega)]; omega⟩
    · exact ⟨(a : ℤ) - n, by omega, by rw [freqSlot_neg (by omega) (by omega)]; omega, by rw [freqSlot_neg (by omega) (by omega)]; omega⟩
  obtain ⟨ky, hy, rfl, rfl⟩ := key hmy hny ha
  obtain ⟨kx, hx, rfl, rfl⟩ := key hmx hnx hb
  exact (C44_map op id fi fo my mx ny nx hmy hmx hny hnx).1 ky kx hy hx

theorem quads_not_copied (op : ℂ → ℂ → ℂ) (fi fo : ℕ → ℕ → ℂ) {my mx ny nx a b : ℕ}
    (hmy : 0 < my) (hmx : 0 < mx) (hny : 0 < ny) (hnx : 0 < nx) (ha : a < ny) (hb : b < nx)
    (h : ¬ ((∃ a', CopiedFrom my ny a a') ∧ ∃ b', CopiedFrom mx nx b b')) :
    resampleQuads op id fi fo my mx ny nx a b = fo a b := by
  apply (C44_map op id fi fo my mx ny nx hmy hmx hny hnx).2 a b ha hb
  rintro ⟨ky, kx, hy, hx, rfl, rfl⟩
  have key : ∀ {m n : ℕ} {k : ℤ}, 0 < m → 0 < n → -((min m n - min m n / 2 : ℕ) : ℤ) ≤ k → k < ((min m n / 2 : ℕ) : ℤ) →
      ∃ a', CopiedFrom m n (freqSlot n k) a' := by
    intro m n k hm hn h1 h2
    rcases lt_or_ge k 0 with hk | hk
    · refine ⟨(k + m).toNat, Or.inr ?_⟩
      rw [freqSlot_neg hk (by omega)]
      omega
    · refine ⟨k.toNat, Or.inl ?_⟩
      rw [freqSlot_nonneg hk (by omega)]
      omega
  exact h ⟨key hmy hny hy.1 hy.2, key hmx hnx hx.1 hx.2⟩

/-- Shrinking: a resolved slot gets the coefficient of its mode. -/
theorem copied_down {N n a : ℕ} (hN : n ≤ N) (ha : a < n) (h : Resolves N n (slotMode n a)) : CopiedFrom N n a (freqSlot N (slotMode n a)) := by
  unfold CopiedFrom
  rw [min_eq_right hN]
  rcases h with rfl | h
  · rw [freqSlot_slotMode ha]; omega
  · unfold slotMode at h ⊢
    split at h
    · rename_i h1
      rw [if_pos h1, freqSlot_nonneg (by omega) (by omega)]
      rw [abs_of_nonneg (by omega)] at h
      omega
    · rename_i h1
      rw [if_neg h1, freqSlot_neg (by omega) (by omega)]
      rw [abs_of_nonpos (by omega)] at h
      omega

/-- Growing: a resolved slot of the large map is copied from the slot of its mode. -/
theorem copied_up {N n K : ℕ} (hN : n ≤ N) (hK : K < N) (h : Resolves N n (slotMode N K)) : CopiedFrom n N K (freqSlot n (slotMode N K)) := by
  unfold CopiedFrom
  rw [min_eq_left hN]
  rcases h with rfl | h
  · rw [freqSlot_slotMode hK]; omega
  · unfold slotMode at h ⊢
    split at h
    · rename_i h1
      rw [if_pos h1]
      rw [abs_of_nonneg (by omega)] at h
      rw [freqSlot_nonneg (by omega) (by omega)]
      omega
    · rename_i h1
      rw [if_neg h1]
      rw [abs_of_nonpos (by omega)] at h
      rw [freqSlot_neg (by omega) (by omega)]
      omega

/-- Growing: an unresolved slot of the large map is copied, if at all, from an unresolved slot. -/
theorem unresolved_up {N n K a : ℕ} (hn : 0 < n) (hN : n ≤ N) (hK : K < N) (h : ¬ Resolves N n (slotMode N K)) (hc : CopiedFrom n N K a) :
    a < n ∧ ¬ Resolves N n (slotMode n a) := by
  unfold CopiedFrom at hc
  rw [min_eq_left hN] at hc
  unfold Resolves at h ⊢
  unfold slotMode at h ⊢
  rw [not_or] at h ⊢
  rcases hc with ⟨h1, rfl⟩ | ⟨h1, h2, h3⟩
  · rw [if_pos (by omega)] at h ⊢
    rw [abs_of_nonneg (by omega)] at h ⊢
    omega
  · refine ⟨by omega, h.1, ?_⟩
    have h4 := h.2
    split at h4
    · rename_i h5
      rw [abs_of_nonneg (by omega)] at h4
      split <;> [rw [abs_of_nonneg (by omega)]; rw [abs_of_nonpos (by omega)]] <;> omega
    · rename_i h5
      rw [abs_of_nonpos (by omega)] at h4
      split <;> [rw [abs_of_nonneg (by omega)]; rw [abs_of_nonpos (by omega)]] <;> omega

/-! ### The phases -/

theorem shiftPhase_zero (n k : ℕ) : shiftPhase n 0 false k = 1 := by
  unfold shiftPhase; simp [cis_zero]

theorem resampleFftMap_eq (op : ℂ → ℂ → ℂ) (fi fo : ℕ → ℕ → ℂ) (my mx ny nx y x : ℕ) :
    resampleFftMap op fi fo my mx ny nx y x = resampleQuads op id fi fo my mx ny nx y x *
      (shiftPhase ny (cornerOff my ny) false y * shiftPhase nx (cornerOff mx nx) false x) := by
  unfold resampleFftMap
  by_cases h : cornerOff my ny ≠ 0 ∨ cornerOff mx nx ≠ 0
  · rw [if_pos h, mul_assoc]
  · rw [if_neg h]
    rw [not_or, not_not, not_not] at h
    rw [h.1, h.2, shiftPhase_zero, shiftPhase_zero]; ring

theorem cornerOff_self {n : ℕ} (h : 0 < n) : cornerOff n n = 0 := by
  unfold cornerOff
  have : (n : ℝ) ≠ 0 := by positivity
  field_simp; norm_num

/-- The phase of a mode when an axis is resized from `m` to `n`. -/
theorem corner_phase {m n a : ℕ} (hm : 0 < m) (ha : a < n) :
    shiftPhase n (cornerOff m n) false a = cis ((slotMode n a : ℝ) * (1 / n - 1 / m) / 2) := by
  unfold shiftPhase cornerOff
  have h1 : (m : ℝ) ≠ 0 := by positivity
  have h2 : (n : ℝ) ≠ 0 := by have : 0 < n := by omega
                              positivity
  simp only [Bool.false_eq_true, if_false]
  rw [fftfreq_slotMode ha]
  congr 1
  field_simp
  ring

/-- Shrinking and growing an axis shift a resolved mode back and forth. -/
theorem phase_down_up {N n K : ℕ} (hn : 0 < n) (hN : n ≤ N) (hK : K < N) (h : Resolves N n (slotMode N K)) :
    shiftPhase n (cornerOff N n) false (freqSlot n (slotMode N K)) * shiftPhase N (cornerOff n N) false K = 1 := by
  rw [corner_phase (by omega) (freqSlot_lt _ hn), corner_phase hn hK,
    resolves_small h hN (slotMode_lt hK).1 (slotMode_lt hK).2, ← cis_add]
  rw [show (slotMode N K : ℝ) * (1 / n - 1 / N) / 2 + (slotMode N K : ℝ) * (1 / N - 1 / n) / 2 = 0 by ring, cis_zero]

theorem slotMode_hneg {n a : ℕ} (ha : a < n) (h : 2 * |slotMode n a| + 1 < n) : slotMode n (hneg n a) = -slotMode n a := by
  unfold slotMode at h ⊢
  unfold hneg
  by_cases h0 : a = 0
  · subst h0; simp [ha]
  · rw [Nat.mod_eq_of_lt (by omega)]
    split at h
    · rename_i h1
      rw [abs_of_nonneg (by omega)] at h
      rw [if_neg (by omega), if_pos h1]; omega
    · rename_i h1
      rw [abs_of_nonpos (by omega)] at h
      rw [if_pos (by omega), if_neg h1]; omega

theorem freqSlot_hneg {N : ℕ} (k : ℤ) (hN : 0 < N) : freqSlot N (-k) = hneg N (freqSlot N k) := by
  unfold freqSlot hneg
  have h1 := Int.emod_nonneg k (b := (N : ℤ)) (by omega)
  have h2 := Int.emod_lt_of_pos k (b := (N : ℤ)) (by omega)
  zify
  rw [Nat.cast_sub (by omega), Int.toNat_of_nonneg h1, Int.toNat_of_nonneg (Int.emod_nonneg _ (by omega))]
  apply (Int.emod_emod_of_dvd _ (dvd_refl _)).symm.trans
  rw [Int.emod_emod_of_dvd _ (dvd_refl _)]
  apply Int.emod_eq_emod_iff_emod_sub_eq_zero.2
  apply Int.emod_eq_zero_of_dvd
  have e := Int.emod_add_mul_ediv k N
  exact ⟨-(k / N) - 1, by linear_combination e⟩

theorem axis_herm {N n a : ℕ} (hN : n ≤ N) (ha : a < n) (h : Resolves N n (slotMode n a)) :
    freqSlot N (slotMode n (hneg n a)) = hneg N (freqSlot N (slotMode n a)) ∧
    shiftPhase n (cornerOff N n) false (hneg n a) = conj (shiftPhase n (cornerOff N n) false a) := by
  rcases h with rfl | h
  · rw [freqSlot_slotMode ha, freqSlot_slotMode (hneg_lt (by omega) a), cornerOff_self (by omega), shiftPhase_zero, shiftPhase_zero]
    simp
  · refine ⟨by rw [slotMode_hneg ha h, freqSlot_hneg _ (by omega)], ?_⟩
    rw [corner_phase (by omega) ha, corner_phase (by omega) (hneg_lt (by omega) a), slotMode_hneg ha h, ← cis_neg]
    congr 1
    push_cast
    ring

/-! ### One scale -/

/-- A scale that fits: not larger than the map, with a nonzero norm, an even filter, and no response at modes that its map
does not represent. -/
structure FlatScale.Fits (s : FlatScale) (my mx : ℕ) : Prop where
  hy : 0 < s.ny ∧ s.ny ≤ my
  hx : 0 < s.nx ∧ s.nx ≤ mx
  norm : s.norm ≠ 0
  even : ∀ a b, a < s.ny → b < s.nx → s.F (hneg s.ny a) (hneg s.nx b) = s.F a b
  band : ∀ a b, a < s.ny → b < s.nx → ¬ (Resolves my s.ny (slotMode s.ny a) ∧ Resolves mx s.nx (slotMode s.nx b)) → s.F a b = 0

open Classical in
/-- The response of a scale at a mode of the full map: the filter value at that mode, zero if the scale does not see it. -/
noncomputable def FlatScale.gain (s : FlatScale) (my mx Ky Kx : ℕ) : ℝ :=
  if Resolves my s.ny (slotMode my Ky) ∧ Resolves mx s.nx (slotMode mx Kx) then
    s.F (freqSlot s.ny (slotMode my Ky)) (freqSlot s.nx (slotMode mx Kx)) else 0

/-- The phase that growing the map of a scale to full size applies to the whole output. -/
noncomputable def FlatScale.upPhase (s : FlatScale) (my mx Ky Kx : ℕ) : ℂ :=
  shiftPhase my (cornerOff s.ny my) false Ky * shiftPhase mx (cornerOff s.nx mx) false Kx

theorem upPhase_eq (s : FlatScale) {my mx Ky Kx : ℕ} (h : s.Fits my mx) (hKy : Ky < my) (hKx : Kx < mx) :
    s.upPhase my mx Ky Kx = cis (-((slotMode my Ky : ℝ) / my * ((my / s.ny - 1) / 2) + (slotMode mx Kx : ℝ) / mx * ((mx / s.nx - 1) / 2))) := by
  unfold FlatScale.upPhase
  rw [corner_phase h.hy.1 hKy, corner_phase h.hx.1 hKx, ← cis_add]
  congr 1
  have h1 : (my : ℝ) ≠ 0 := by have : 0 < my := by omega
                               positivity
  have h2 : (mx : ℝ) ≠ 0 := by have : 0 < mx := by omega
                               positivity
  have h3 : (s.ny : ℝ) ≠ 0 := by have := h.hy.1; positivity
  have h4 : (s.nx : ℝ) ≠ 0 := by have := h.hx.1; positivity
  field_simp
  ring

/-- The Fourier map of a scale in map2wave. -/
noncomputable def downF (my mx : ℕ) (s : FlatScale) (M : ℕ → ℕ → ℂ) (a b : ℕ) : ℂ :=
  M (freqSlot my (slotMode s.ny a)) (freqSlot mx (slotMode s.nx b)) *
    (shiftPhase s.ny (cornerOff my s.ny) false a * shiftPhase s.nx (cornerOff mx s.nx) false b) *
    ((s.F a b / (s.norm * ((my * mx : ℕ) : ℝ)) : ℝ) : ℂ)

theorem down_eq {my mx : ℕ} {s : FlatScale} (hs : s.Fits my mx) (M : ℕ → ℕ → ℂ) {a b : ℕ} (ha : a < s.ny) (hb : b < s.nx) :
    resampleFftMap (fun _ b => b) M (fun _ _ => 0) my mx s.ny s.nx a b * ((s.F a b / (s.norm * ((my * mx : ℕ) : ℝ)) : ℝ) : ℂ) =
      downF my mx s M a b := by
  obtain ⟨⟨h1, h2⟩, ⟨h3, h4⟩, -, -, hband⟩ := hs
  by_cases h : Resolves my s.ny (slotMode s.ny a) ∧ Resolves mx s.nx (slotMode s.nx b)
  · rw [resampleFftMap_eq, quads_copied _ _ _ (by omega) (by omega) h1 h3 (copied_down h2 ha h.1) (copied_down h4 hb h.2)]
    rfl
  · unfold downF
    rw [hband a b ha hb h]
    simp

theorem downF_hermitian {my mx : ℕ} {s : FlatScale} (hs : s.Fits my mx) (M : ℕ → ℕ → ℂ) (hM : HermitianF my mx M) :
    HermitianF s.ny s.nx (downF my mx s M) := by
  obtain ⟨⟨h1, h2⟩, ⟨h3, h4⟩, -, heven, hband⟩ := hs
  intro a b ha hb
  unfold downF
  by_cases h : Resolves my s.ny (slotMode s.ny a) ∧ Resolves mx s.nx (slotMode s.nx b)
  · rw [heven a b ha hb, (axis_herm h2 ha h.1).1, (axis_herm h2 ha h.1).2, (axis_herm h4 hb h.2).1, (axis_herm h4 hb h.2).2,
      hM _ _ (freqSlot_lt _ (by omega)) (freqSlot_lt _ (by omega)), map_mul, map_mul, map_mul, conj_ofReal]
  · rw [heven a b ha hb, hband a b ha hb h]
    simp

theorem map2waveFlat1_complex {my mx : ℕ} {s : FlatScale} (hs : s.Fits my mx) (m : ℕ → ℕ → ℝ) (y x : ℕ) :
    ((map2waveFlat1 my mx m s y x : ℝ) : ℂ) = ifft2 s.ny s.nx (downF my mx s (fft2 my mx fun y x => (m y x : ℂ))) y x := by
  unfold map2waveFlat1
  rw [ifft2_congr (x' := downF my mx s (fft2 my mx fun y x => (m y x : ℂ))) (fun a b ha hb => down_eq hs _ ha hb)]
  exact conj_eq_iff_re.1 (ifft2_real _ _ _ (downF_hermitian hs _ (fft2_hermitian my mx m)) y x)

/-- What a scale adds to the output in wave2map, after map2wave. -/
theorem step_eq {my mx : ℕ} {s : FlatScale} (hs : s.Fits my mx) (m : ℕ → ℕ → ℝ) (fo : ℕ → ℕ → ℂ) {Ky Kx : ℕ} (hKy : Ky < my) (hKx : Kx < mx) :
    wave2mapFlatStep my mx fo (s, map2waveFlat1 my mx m s) Ky Kx = fo Ky Kx * s.upPhase my mx Ky Kx +
      fft2 my mx (fun y x => (m y x : ℂ)) Ky Kx / ((my * mx : ℕ) : ℂ) * ((s.gain my mx Ky Kx ^ 2 : ℝ) : ℂ) := by
  have hs' := hs
  obtain ⟨⟨h1, h2⟩, ⟨h3, h4⟩, hnorm, heven, hband⟩ := hs
  unfold wave2mapFlatStep
  simp only
  set M := fft2 my mx fun y x => (m y x : ℂ) with hM
  rw [resampleFftMap_eq]
  have fs : ∀ a b, a < s.ny → b < s.nx → fft2 s.ny s.nx (fun y x => ((map2waveFlat1 my mx m s y x : ℝ) : ℂ)) a b *
      ((s.F a b * (s.norm / ((s.ny * s.nx : ℕ) : ℝ)) : ℝ) : ℂ) =
      M (freqSlot my (slotMode s.ny a)) (freqSlot mx (slotMode s.nx b)) *
      (shiftPhase s.ny (cornerOff my s.ny) false a * shiftPhase s.nx (cornerOff mx s.nx) false b) / ((my * mx : ℕ) : ℂ) * ((s.F a b ^ 2 : ℝ) : ℂ) := by
    intro a b ha hb
    simp only [map2waveFlat1_complex hs']
    rw [show (fun y x => ifft2 s.ny s.nx (downF my mx s (fft2 my mx fun y x => (m y x : ℂ))) y x) =
      ifft2 s.ny s.nx (downF my mx s (fft2 my mx fun y x => (m y x : ℂ))) from rfl, fft2_ifft2 _ _ _ _ _ ha hb]
    unfold downF
    rw [← hM]
    have e1 : (s.ny : ℂ) ≠ 0 := by exact_mod_cast h1.ne'
    have e2 : (s.nx : ℂ) ≠ 0 := by exact_mod_cast h3.ne'
    have e3 : (s.norm : ℂ) ≠ 0 := by exact_mod_cast hnorm
    have e4 : (my : ℂ) ≠ 0 := by exact_mod_cast (by omega : my ≠ 0)
    have e5 : (mx : ℂ) ≠ 0 := by exact_mod_cast (by omega : mx ≠ 0)
    push_cast
    field_simp
  by_cases h : Resolves my s.ny (slotMode my Ky) ∧ Resolves mx s.nx (slotMode mx Kx)
  · rw [quads_copied _ _ _ h1 h3 (by omega) (by omega) (copied_up h2 hKy h.1) (copied_up h4 hKx h.2),
      fs _ _ (freqSlot_lt _ h1) (freqSlot_lt _ h3), resolves_small h.1 h2 (slotMode_lt hKy).1 (slotMode_lt hKy).2,
      resolves_small h.2 h4 (slotMode_lt hKx).1 (slotMode_lt hKx).2, freqSlot_slotMode hKy, freqSlot_slotMode hKx]
    have p1 := phase_down_up h1 h2 hKy h.1
    have p2 := phase_down_up h3 h4 hKx h.2
    unfold FlatScale.gain FlatScale.upPhase
    rw [if_pos h]
    generalize shiftPhase s.ny (cornerOff my s.ny) false (freqSlot s.ny (slotMode my Ky)) = p at p1 ⊢
    generalize shiftPhase my (cornerOff s.ny my) false Ky = q at p1 ⊢
    generalize shiftPhase s.nx (cornerOff mx s.nx) false (freqSlot s.nx (slotMode mx Kx)) = p' at p2 ⊢
    generalize shiftPhase mx (cornerOff s.nx mx) false Kx = q' at p2 ⊢
    generalize ((s.F (freqSlot s.ny (slotMode my Ky)) (freqSlot s.nx (slotMode mx Kx)) ^ 2 : ℝ) : ℂ) = f
    linear_combination (M Ky Kx / ((my * mx : ℕ) : ℂ) * f * (p' * q')) * p1 + (M Ky Kx / ((my * mx : ℕ) : ℂ) * f) * p2
  · have hg : s.gain my mx Ky Kx = 0 := by unfold FlatScale.gain; rw [if_neg h]
    rw [hg]
    unfold FlatScale.upPhase
    by_cases hc : (∃ a', CopiedFrom s.ny my Ky a') ∧ ∃ b', CopiedFrom s.nx mx Kx b'
    · obtain ⟨⟨a, ha⟩, b, hb⟩ := hc
      rw [quads_copied _ _ _ h1 h3 (by omega) (by omega) ha hb]
      have hlt : ∀ {n N K a : ℕ}, 0 < n → n ≤ N → K < N → CopiedFrom n N K a → a < n := by
        intro n N K a q1 q2 q3 q4
        unfold CopiedFrom at q4
        rw [min_eq_left q2] at q4
        omega
      have la := hlt h1 h2 hKy ha
      have lb := hlt h3 h4 hKx hb
      have hF : s.F a b = 0 := by
        apply hband a b la lb
        rintro ⟨r1, r2⟩
        apply h
        constructor
        · by_contra hn
          exact (unresolved_up h1 h2 hKy hn ha).2 r1
        · by_contra hn
          exact (unresolved_up h3 h4 hKx hn hb).2 r2
      rw [fs a b la lb, hF]
      simp
    · rw [quads_not_copied _ _ _ h1 h3 (by omega) (by omega) hKy hKx hc]
      simp

/-! ### All scales -/

/-- The factor by which a mode is multiplied by the two transforms: each scale gives the square of its response, times the
phases of all the scales after it. -/
noncomputable def totalGain (my mx Ky Kx : ℕ) : List FlatScale → ℂ
  | [] => 0
  | s :: rest => ((s.gain my mx Ky Kx ^ 2 : ℝ) : ℂ) * (rest.map fun t => t.upPhase my mx Ky Kx).prod + totalGain my mx Ky Kx rest

theorem fold_gain {my mx : ℕ} (m : ℕ → ℕ → ℝ) {Ky Kx : ℕ} (hKy : Ky < my) (hKx : Kx < mx) :
    ∀ (scales : List FlatScale), (∀ s ∈ scales, s.Fits my mx) → ∀ fo : ℕ → ℕ → ℂ,
    (map2waveFlat my mx scales m).foldl (wave2mapFlatStep my mx) fo Ky Kx =
      fo Ky Kx * (scales.map fun t => t.upPhase my mx Ky Kx).prod +
        fft2 my mx (fun y x => (m y x : ℂ)) Ky Kx / ((my * mx : ℕ) : ℂ) * totalGain my mx Ky Kx scales := by
  intro scales
  induction scales with
  | nil => intro _ fo; simp [map2waveFlat, totalGain]
  | cons s rest ih =>
    intro hs fo
    have := ih (fun t ht => hs t (List.mem_cons_of_mem _ ht)) (wave2mapFlatStep my mx fo (s, map2waveFlat1 my mx m s))
    unfold map2waveFlat at this ⊢
    rw [List.map_cons, List.foldl_cons, this, step_eq (hs s List.mem_cons_self) m fo hKy hKx, List.map_cons, List.prod_cons, totalGain]
    ring

/-- C162: transforming a real map to wavelet maps and back multiplies each Fourier mode by the sum over the scales of the
squared responses, each times the phases by which all later scales shift the output. -/
theorem C162_modes {my mx : ℕ} (scales : List FlatScale) (hs : ∀ s ∈ scales, s.Fits my mx) (m : ℕ → ℕ → ℝ) (y x : ℕ) :
    wave2mapFlat my mx (map2waveFlat my mx scales m) y x =
      (ifft2 my mx (fun Ky Kx => fft2 my mx (fun y x => (m y x : ℂ)) Ky Kx / ((my * mx : ℕ) : ℂ) * totalGain my mx Ky Kx scales) y x).re := by
  unfold wave2mapFlat
  congr 1
  apply ifft2_congr
  intro Ky Kx h1 h2
  rw [fold_gain m h1 h2 scales hs]
  simp

theorem upPhase_full {my mx Ky Kx : ℕ} (hy : 0 < my) (hx : 0 < mx) {s : FlatScale} (h1 : s.ny = my) (h2 : s.nx = mx) :
    s.upPhase my mx Ky Kx = 1 := by
  unfold FlatScale.upPhase
  rw [h1, h2, cornerOff_self hy, cornerOff_self hx, shiftPhase_zero, shiftPhase_zero, one_mul]

theorem totalGain_full {my mx Ky Kx : ℕ} (hy : 0 < my) (hx : 0 < mx) (scales : List FlatScale) (h : ∀ s ∈ scales.tail, s.ny = my ∧ s.nx = mx) :
    totalGain my mx Ky Kx scales = (((scales.map fun s => s.gain my mx Ky Kx ^ 2).sum : ℝ) : ℂ) := by
  induction scales with
  | nil => simp [totalGain]
  | cons s rest ih =>
    rw [totalGain, ih (fun t ht => h t (List.mem_of_mem_tail ht)), List.map_cons, List.sum_cons]
    have e : (rest.map fun t => t.upPhase my mx Ky Kx) = rest.map fun _ => (1 : ℂ) := by
      apply List.map_congr_left
      intro t ht
      exact upPhase_full hy hx (h t ht).1 (h t ht).2
    rw [e]
    simp

/-- C162 (partial): the transform is exact if at most the first scale has a smaller map than the input and the squared
responses of the scales add up to one at every mode. Missing: with two or more smaller scales the result is shifted, and the
responses do not add up to one (C162_shift_refuted, C162_response_refuted). -/
theorem C162_exact_partial {my mx : ℕ} (scales : List FlatScale) (hs : ∀ s ∈ scales, s.Fits my mx)
    (hfull : ∀ s ∈ scales.tail, s.ny = my ∧ s.nx = mx)
    (hone : ∀ Ky Kx, Ky < my → Kx < mx → (scales.map fun s => s.gain my mx Ky Kx ^ 2).sum = 1)
    (m : ℕ → ℕ → ℝ) {y x : ℕ} (hy : y < my) (hx : x < mx) :
    wave2mapFlat my mx (map2waveFlat my mx scales m) y x = m y x := by
  rw [C162_modes scales hs]
  rw [ifft2_congr (x' := fun Ky Kx => fft2 my mx (fun y x => (m y x : ℂ)) Ky Kx * (1 / ((my * mx : ℕ) : ℂ)))]
  · rw [ifft2_mul, ifft2_fft2 my mx _ y x hy hx]
    have e4 : (my : ℂ) ≠ 0 := by exact_mod_cast (by omega : my ≠ 0)
    have e5 : (mx : ℂ) ≠ 0 := by exact_mod_cast (by omega : mx ≠ 0)
    push_cast
    rw [show (my : ℂ) * mx * (m y x : ℂ) * (1 / (my * mx)) = (m y x : ℂ) by field_simp, ofReal_re]
  · intro Ky Kx h1 h2
    rw [totalGain_full (by omega) (by omega) scales hfull, hone Ky Kx h1 h2]
    push_cast
    ring

/-! ### A cosine through the transform -/

theorem two_modes {my mx k : ℕ} (hy : 0 < my) (hk : 0 < k) (hk2 : 2 * k < mx) (u v : ℂ) (y x : ℕ) :
    ifft2 my mx (fun a b => if a = 0 then (if b = k then u else if b = mx - k then v else 0) else 0) y x =
      u * cis ((k : ℝ) * x / mx) + v * cis (-((k : ℝ) * x / mx)) := by
  have hm : (mx : ℝ) ≠ 0 := by have : 0 < mx := by omega
                               positivity
  unfold ifft2
  have inner : idftRaw mx (fun b => if b = k then u else if b = mx - k then v else 0) x =
      u * cis ((k : ℝ) * x / mx) + v * cis (-((k : ℝ) * x / mx)) := by
    unfold idftRaw
    rw [← Finset.sum_subset (s₁ := {k, mx - k}) (by intro i; simp; omega)]
    · rw [Finset.sum_pair (by omega)]
      beta_reduce
      rw [if_pos rfl, if_neg (by omega), if_pos rfl]
      congr 2
      · congr 1; ring
      · rw [Nat.cast_sub (by omega), ← cis_add_int _ (-(x : ℤ))]
        congr 1
        push_cast
        field_simp
        ring
    · intro i _ hi
      rw [Finset.mem_insert, Finset.mem_singleton, not_or] at hi
      beta_reduce
      rw [if_neg hi.1, if_neg hi.2, zero_mul]
  unfold idftRaw at inner ⊢
  rw [Finset.sum_eq_single_of_mem 0 (by simpa using hy)]
  · simp only [if_true]
    rw [inner]
    simp [cis_zero]
  · intro a _ ha
    simp [ha]

/-- The map cos(2πkx/n), the same in every row. -/
noncomputable def cosMap (k n : ℕ) (_y x : ℕ) : ℝ := Real.cos (2 * Real.pi * (k * x / n))

theorem cos_eq_cis (t : ℝ) : ((Real.cos (2 * Real.pi * t) : ℝ) : ℂ) = 1 / 2 * cis t + 1 / 2 * cis (-t) := by
  rw [← cis_re_cos, cis_neg, re_eq_add_conj]; ring

theorem cosMap_filter {my mx k : ℕ} (hy : 0 < my) (hk : 0 < k) (hk2 : 2 * k < mx) (G : ℕ → ℕ → ℂ) (y x : ℕ) :
    ifft2 my mx (fun Ky Kx => fft2 my mx (fun y x => (cosMap k mx y x : ℂ)) Ky Kx / ((my * mx : ℕ) : ℂ) * G Ky Kx) y x =
      1 / 2 * G 0 k * cis ((k : ℝ) * x / mx) + 1 / 2 * G 0 (mx - k) * cis (-((k : ℝ) * x / mx)) := by
  have e : (fun y x => (cosMap k mx y x : ℂ)) =
      ifft2 my mx (fun a b => if a = 0 then (if b = k then 1 / 2 else if b = mx - k then 1 / 2 else 0) else 0) := by
    funext y x
    rw [two_modes hy hk hk2]
    unfold cosMap
    rw [cos_eq_cis]
  rw [← two_modes hy hk hk2 (1 / 2 * G 0 k) (1 / 2 * G 0 (mx - k)) y x, e]
  apply ifft2_congr
  intro Ky Kx h1 h2
  rw [fft2_ifft2 my mx _ Ky Kx h1 h2]
  have e4 : (my : ℂ) ≠ 0 := by exact_mod_cast (by omega : my ≠ 0)
  have e5 : (mx : ℂ) ≠ 0 := by exact_mod_cast (by omega : mx ≠ 0)
  by_cases q : Ky = 0
  · subst q
    rw [if_pos rfl, if_pos rfl]
    push_cast
    split
    · rename_i q; subst q; field_simp
    · split
      · rename_i q; subst q; field_simp
      · simp
  · rw [if_neg q, if_neg q]; simp

theorem slotMode_pos {mx k : ℕ} (hk2 : 2 * k < mx) : slotMode mx k = k := by unfold slotMode; rw [if_pos hk2]

theorem slotMode_neg {mx k : ℕ} (hk : 0 < k) (hk2 : 2 * k < mx) : slotMode mx (mx - k) = -(k : ℤ) := by
  unfold slotMode; rw [if_neg (by omega)]; omega

theorem prod_upPhase {my mx K : ℕ} (hy : 0 < my) (hK : K < mx) (rest : List FlatScale) (hs : ∀ s ∈ rest, s.Fits my mx) :
    (rest.map fun t => t.upPhase my mx 0 K).prod =
      cis (-((slotMode mx K : ℝ) / mx * (rest.map fun t => ((mx : ℝ) / t.nx - 1) / 2).sum)) := by
  induction rest with
  | nil => simp [cis_zero]
  | cons t rest ih =>
    rw [List.map_cons, List.prod_cons, ih (fun s h => hs s (List.mem_cons_of_mem _ h)), upPhase_eq t (hs t List.mem_cons_self) hy hK,
      List.map_cons, List.sum_cons, ← cis_add]
    congr 1
    have : slotMode my 0 = 0 := by unfold slotMode; simp [hy]
    rw [this]
    simp
    ring

theorem totalGain_zero {my mx Ky Kx : ℕ} (rest : List FlatScale) (h : ∀ s ∈ rest, s.gain my mx Ky Kx = 0) : totalGain my mx Ky Kx rest = 0 := by
  induction rest with
  | nil => rfl
  | cons s rest ih =>
    rw [totalGain, h s List.mem_cons_self, ih fun t ht => h t (List.mem_cons_of_mem _ ht)]; simp

/-- C162, refuted as stated: a wave that only the first scale responds to, with full response, does not come back in place.
It is moved to the right by half of (the pixel of each later scale minus the pixel of the map), summed over the later scales. -/
theorem C162_shift_refuted {my mx k : ℕ} (hy : 0 < my) (hk : 0 < k) (hk2 : 2 * k < mx) (s : FlatScale) (rest : List FlatScale)
    (hs : ∀ t ∈ s :: rest, t.Fits my mx)
    (h1 : ∀ K, K = k ∨ K = mx - k → s.gain my mx 0 K = 1) (h0 : ∀ K, K = k ∨ K = mx - k → ∀ t ∈ rest, t.gain my mx 0 K = 0) (y x : ℕ) :
    wave2mapFlat my mx (map2waveFlat my mx (s :: rest) (cosMap k mx)) y x =
      Real.cos (2 * Real.pi * (k * ((x : ℝ) - (rest.map fun t => ((mx : ℝ) / t.nx - 1) / 2).sum) / mx)) := by
  have hrest : ∀ t ∈ rest, t.Fits my mx := fun t ht => hs t (List.mem_cons_of_mem _ ht)
  rw [C162_modes _ hs, cosMap_filter hy hk hk2, totalGain, totalGain, h1 k (Or.inl rfl), h1 (mx - k) (Or.inr rfl),
    totalGain_zero rest (h0 k (Or.inl rfl)), totalGain_zero rest (h0 (mx - k) (Or.inr rfl)), prod_upPhase hy (by omega) rest hrest,
    prod_upPhase hy (by omega) rest hrest, slotMode_pos hk2, slotMode_neg hk hk2]
  generalize (rest.map fun t => ((mx : ℝ) / t.nx - 1) / 2).sum = d
  have e := cos_eq_cis (k * ((x : ℝ) - d) / mx)
  have e2 : (1 / 2 * ((((1 : ℝ) ^ 2 : ℝ) : ℂ) * cis (-(((k : ℤ) : ℝ) / mx * d)) + 0) * cis ((k : ℝ) * x / mx) +
      1 / 2 * ((((1 : ℝ) ^ 2 : ℝ) : ℂ) * cis (-(((-(k : ℤ) : ℤ) : ℝ) / mx * d)) + 0) * cis (-((k : ℝ) * x / mx))) =
      ((Real.cos (2 * Real.pi * (k * ((x : ℝ) - d) / mx)) : ℝ) : ℂ) := by
    rw [e, show (k : ℝ) * ((x : ℝ) - d) / mx = -(((k : ℤ) : ℝ) / mx * d) + (k : ℝ) * x / mx by push_cast; ring, cis_add,
      show -(-(((k : ℤ) : ℝ) / mx * d) + (k : ℝ) * x / mx) = -(((-(k : ℤ) : ℤ) : ℝ) / mx * d) + -((k : ℝ) * x / mx) by push_cast; ring, cis_add]
    push_cast
    ring
  rw [e2, ofReal_re]

/-! ### The multipoles of a smaller scale -/

/-- C162: the multipoles that a scale with a smaller map uses for its filter are the true ones times a cosine. -/
theorem C162_ls {my mx ny nx : ℕ} (l : ℕ → ℕ → ℝ) (h1 : 0 < ny ∧ ny ≤ my) (h2 : 0 < nx ∧ nx ≤ mx) {Ky Kx : ℕ} (hKy : Ky < my) (hKx : Kx < mx)
    (ry : Resolves my ny (slotMode my Ky)) (rx : Resolves mx nx (slotMode mx Kx)) :
    waveLs l my mx ny nx (freqSlot ny (slotMode my Ky)) (freqSlot nx (slotMode mx Kx)) =
      l Ky Kx * Real.cos (Real.pi * (slotMode my Ky * (1 / ny - 1 / my) + slotMode mx Kx * (1 / nx - 1 / mx))) := by
  unfold waveLs
  have a1 := freqSlot_lt (slotMode my Ky) h1.1
  have a2 := freqSlot_lt (slotMode mx Kx) h2.1
  have b1 := resolves_small ry h1.2 (slotMode_lt hKy).1 (slotMode_lt hKy).2
  have b2 := resolves_small rx h2.2 (slotMode_lt hKx).1 (slotMode_lt hKx).2
  have c1 := copied_down h1.2 a1 (by rw [b1]; exact ry)
  have c2 := copied_down h2.2 a2 (by rw [b2]; exact rx)
  rw [resampleFftMap_eq, quads_copied _ _ _ (by omega) (by omega) h1.1 h2.1 c1 c2, corner_phase (by omega) a1, corner_phase (by omega) a2, b1, b2,
    freqSlot_slotMode hKy, freqSlot_slotMode hKx, ← cis_add, re_ofReal_mul, cis_re_cos]
  congr 2
  ring

/-- C162, refuted: for every scale with fewer columns than the map, the multipole it uses for the lowest wave along the rows is
smaller than the true one. -/
theorem C162_ls_refuted {my mx ny nx : ℕ} (l : ℕ → ℕ → ℝ) (h1 : 0 < ny ∧ ny ≤ my) (h1' : ny = my ∨ 1 < ny) (h2 : 3 < nx ∧ nx < mx)
    (hl : 0 < l 0 1) : waveLs l my mx ny nx 0 1 < l 0 1 := by
  have s0 : slotMode my 0 = 0 := by unfold slotMode; simp
  have s1 : slotMode mx 1 = 1 := slotMode_pos (by omega)
  have f0 : freqSlot ny 0 = 0 := by rw [freqSlot_nonneg (by omega) (by omega)]; rfl
  have f1 : freqSlot nx 1 = 1 := by rw [freqSlot_nonneg (by omega) (by omega)]; rfl
  have key := C162_ls l h1 ⟨by omega, h2.2.le⟩ (Ky := 0) (Kx := 1) (by omega) (by omega)
    (by rw [s0]; rcases h1' with q | q
        · exact Or.inl q
        · right; simpa using q) (by rw [s1]; right; rw [abs_one]; omega)
  rw [s0, s1, f0, f1] at key
  rw [key]
  have hn : (0 : ℝ) < nx := by have : 0 < nx := by omega
                               positivity
  have hm : (nx : ℝ) < mx := by exact_mod_cast h2.2
  have hn3 : (3 : ℝ) < nx := by exact_mod_cast h2.1
  have d1 : 0 < 1 / (nx : ℝ) - 1 / mx := by
    rw [sub_pos]; exact one_div_lt_one_div_of_lt hn hm
  have d2 : 1 / (nx : ℝ) - 1 / mx < 1 := by
    have : 1 / (nx : ℝ) < 1 := by rw [div_lt_one hn]; linarith
    have : 0 < 1 / (mx : ℝ) := by have := hn.trans hm; positivity
    linarith
  have hc : Real.cos (Real.pi * (((0 : ℤ) : ℝ) * (1 / ny - 1 / my) + ((1 : ℤ) : ℝ) * (1 / nx - 1 / mx))) < 1 := by
    push_cast
    rw [zero_mul, zero_add, one_mul]
    have := Real.cos_lt_cos_of_nonneg_of_le_pi (x := 0) (y := Real.pi * (1 / nx - 1 / mx)) le_rfl
      (by nlinarith [Real.pi_pos]) (mul_pos Real.pi_pos d1)
    simpa using this
  nlinarith

/-- C162, refuted: two scales whose filters satisfy f0² + f1² = 1 as functions of the multipole, the first with a smaller map, do
not give the map back: cos(2πkx/n) is multiplied by f0(l')² + 1 - f0(l)², where l is the multipole of the wave and l' the reduced
one. -/
theorem C162_response_refuted {my mx ny nx k : ℕ} (l : ℕ → ℕ → ℝ) (f0 f1 : ℝ → ℝ) (hf : ∀ l, f0 l ^ 2 + f1 l ^ 2 = 1)
    (norm0 norm1 : ℝ) (hk : 0 < k) (hk2 : 2 * k + 1 < nx) (hl : ∀ a b, a < my → b < mx → l (hneg my a) (hneg mx b) = l a b)
    (hs : (FlatScale.mk ny nx norm0 fun a b => f0 (waveLs l my mx ny nx a b)).Fits my mx) (hn1 : norm1 ≠ 0) (hy : ny = my ∨ 1 < ny) (y x : ℕ) :
    wave2mapFlat my mx (map2waveFlat my mx
      [⟨ny, nx, norm0, fun a b => f0 (waveLs l my mx ny nx a b)⟩, ⟨my, mx, norm1, fun a b => f1 (l a b)⟩] (cosMap k mx)) y x =
      (f0 (l 0 k * Real.cos (Real.pi * (k * (1 / nx - 1 / mx)))) ^ 2 + 1 - f0 (l 0 k) ^ 2) * cosMap k mx y x := by
  have hy0 : 0 < my := lt_of_lt_of_le hs.hy.1 hs.hy.2
  have hnm : nx ≤ mx := hs.hx.2
  have hs1 : (FlatScale.mk my mx norm1 fun a b => f1 (l a b)).Fits my mx :=
    ⟨⟨hy0, le_rfl⟩, ⟨(by omega : 0 < mx), le_rfl⟩, hn1, fun a b ha hb => by simp only [hl a b ha hb],
      fun a b _ _ h => absurd ⟨Or.inl rfl, Or.inl rfl⟩ h⟩
  have s0 : slotMode my 0 = 0 := by unfold slotMode; simp
  have f0' : freqSlot ny 0 = 0 := by rw [freqSlot_nonneg (by omega) (by have := hs.hy.1; omega)]; rfl
  have r0 : Resolves my ny (slotMode my 0) := by
    rw [s0]; rcases hy with q | q
    · exact Or.inl q
    · right; simpa using q
  have rk : ∀ K, K = k ∨ K = mx - k → K < mx ∧ |slotMode mx K| = k ∧ l 0 K = l 0 k := by
    rintro K (rfl | rfl)
    · refine ⟨by omega, ?_, rfl⟩
      rw [slotMode_pos (by omega)]; simp
    · refine ⟨by omega, ?_, ?_⟩
      · rw [slotMode_neg hk (by omega)]; simp
      · have := hl 0 k hy0 (by omega)
        rw [show hneg my 0 = 0 by unfold hneg; simp, show hneg mx k = mx - k by unfold hneg; rw [Nat.mod_eq_of_lt (by omega)]] at this
        exact this
  have g : ∀ K, K = k ∨ K = mx - k → totalGain my mx 0 K
      [⟨ny, nx, norm0, fun a b => f0 (waveLs l my mx ny nx a b)⟩, ⟨my, mx, norm1, fun a b => f1 (l a b)⟩] =
      ((f0 (l 0 k * Real.cos (Real.pi * (k * (1 / nx - 1 / mx)))) ^ 2 + 1 - f0 (l 0 k) ^ 2 : ℝ) : ℂ) := by
    intro K hK
    obtain ⟨q1, q2, q3⟩ := rk K hK
    rw [totalGain_full hy0 (by omega) _ (by simp)]
    congr 1
    rw [List.map_cons, List.map_cons, List.map_nil, List.sum_cons, List.sum_cons, List.sum_nil]
    have rK : Resolves mx nx (slotMode mx K) := by right; rw [q2]; omega
    have e1 : (FlatScale.mk ny nx norm0 fun a b => f0 (waveLs l my mx ny nx a b)).gain my mx 0 K =
        f0 (l 0 k * Real.cos (Real.pi * (k * (1 / nx - 1 / mx)))) := by
      unfold FlatScale.gain
      rw [if_pos ⟨r0, rK⟩]
      simp only
      rw [C162_ls l hs.hy hs.hx hy0 q1 r0 rK, q3, s0]
      congr 2
      rw [← Real.cos_abs, abs_mul, ← Real.cos_abs (Real.pi * (k * (1 / nx - 1 / mx))), abs_mul]
      congr 2
      push_cast
      rw [zero_mul, zero_add, abs_mul, abs_mul]
      congr 1
      have : ((|slotMode mx K| : ℤ) : ℝ) = k := by rw [q2]; rfl
      rw [← Int.cast_abs, this]
      simp
    have e2 : (FlatScale.mk my mx norm1 fun a b => f1 (l a b)).gain my mx 0 K = f1 (l 0 k) := by
      unfold FlatScale.gain
      rw [if_pos ⟨Or.inl rfl, Or.inl rfl⟩]
      simp only
      rw [freqSlot_slotMode hy0, freqSlot_slotMode q1, q3]
    rw [e1, e2]
    have := hf (l 0 k)
    linarith
  have hs' : ∀ s ∈ [FlatScale.mk ny nx norm0 fun a b => f0 (waveLs l my mx ny nx a b), ⟨my, mx, norm1, fun a b => f1 (l a b)⟩], s.Fits my mx := by
    intro s h
    rw [List.mem_cons, List.mem_singleton] at h
    rcases h with rfl | rfl
    · exact hs
    · exact hs1
  rw [C162_modes _ hs', cosMap_filter hy0 hk (by omega), g k (Or.inl rfl), g (mx - k) (Or.inr rfl)]
  generalize f0 (l 0 k * Real.cos (Real.pi * (k * (1 / nx - 1 / mx)))) ^ 2 + 1 - f0 (l 0 k) ^ 2 = c
  have := cos_eq_cis (k * x / mx)
  rw [show (1 / 2 * (c : ℂ) * cis ((k : ℝ) * x / mx) + 1 / 2 * (c : ℂ) * cis (-((k : ℝ) * x / mx))) =
    ((c * Real.cos (2 * Real.pi * (k * x / mx)) : ℝ) : ℂ) by push_cast [this]; ring, ofReal_re]
  rfl

/-! ### Sizes -/

/-- C162: the map of a scale is large enough: every mode with a multipole up to the scale's maximum is represented, if no pixel
side is longer than `ires`. -/
theorem C162_fits {N : ℕ} {d ires lmax : ℝ} (hd : 0 < d) (hdi : d ≤ ires) (hl : 0 < lmax) {K : ℕ} (hK : K < N)
    (h : |lAxis N d K| ≤ lmax) : Resolves N (waveSize N ires (waveRes ires lmax)) (slotMode N K) := by
  have hN : (0 : ℝ) < N := by have : 0 < N := by omega
                              positivity
  have hi : 0 < ires := lt_of_lt_of_le hd hdi
  unfold Resolves waveSize
  rcases le_total (⌈(N : ℝ) * ires / waveRes ires lmax⌉₊ + 4) N with h1 | h1
  · right
    rw [min_eq_left h1]
    have hc : ((N : ℝ) * ires / waveRes ires lmax) ≤ (⌈(N : ℝ) * ires / waveRes ires lmax⌉₊ : ℝ) := Nat.le_ceil _
    have hres : waveRes ires lmax = Real.pi / lmax := by
      unfold waveRes
      apply max_eq_left
      by_contra hlt
      rw [not_le] at hlt
      have e : waveRes ires lmax = ires := by unfold waveRes; exact max_eq_right hlt.le
      rw [e, mul_div_assoc, div_self hi.ne', mul_one, Nat.ceil_natCast] at h1
      omega
    rw [hres] at hc ⊢
    unfold lAxis at h
    rw [fftfreq_slotMode hK] at h
    have e : |(slotMode N K : ℝ) / N / d * 2 * Real.pi| = |(slotMode N K : ℝ)| * (2 * Real.pi) / (N * d) := by
      rw [abs_mul, abs_mul, abs_div, abs_div, abs_of_pos hN, abs_of_pos hd, abs_of_pos Real.pi_pos, abs_of_pos (by norm_num : (0 : ℝ) < 2)]
      field_simp
    rw [e, div_le_iff₀ (by positivity)] at h
    have h2 : 2 * |(slotMode N K : ℝ)| ≤ (N : ℝ) * ires / (Real.pi / lmax) := by
      rw [div_div_eq_mul_div, le_div_iff₀ Real.pi_pos]
      have : lmax * (N * d) ≤ lmax * (N * ires) := by gcongr
      nlinarith
    have h3 : 2 * |(slotMode N K : ℝ)| ≤ (⌈(N : ℝ) * ires / (Real.pi / lmax)⌉₊ : ℝ) := h2.trans hc
    have h4 : 2 * |slotMode N K| ≤ (⌈(N : ℝ) * ires / (Real.pi / lmax)⌉₊ : ℤ) := by exact_mod_cast h3
    push_cast
    omega
  · left; exact min_eq_right h1

/-- C162: the mean multipole of a scale lies between any bounds of the multipoles it responds to. -/
theorem C162_mid {A : ℝ} (hA : 0 < A) {ny nx : ℕ} (F ls : ℕ → ℕ → ℝ) (lo hi : ℝ)
    (h : ∀ y x, y < ny → x < nx → F y x ≠ 0 → lo ≤ ls y x ∧ ls y x ≤ hi) (hne : ∃ y x, y < ny ∧ x < nx ∧ F y x ≠ 0) :
    lo ≤ waveMid A ny nx F ls ∧ waveMid A ny nx F ls ≤ hi := by
  obtain ⟨y0, x0, hy0, hx0, hF⟩ := hne
  have hpos : 0 < ∑ y ∈ Finset.range ny, ∑ x ∈ Finset.range nx, F y x ^ 2 / A := by
    apply Finset.sum_pos'
    · intro y _; apply Finset.sum_nonneg; intro x _; positivity
    · refine ⟨y0, by simpa using hy0, ?_⟩
      apply Finset.sum_pos'
      · intro x _; positivity
      · exact ⟨x0, by simpa using hx0, by positivity⟩
  unfold waveMid
  constructor
  · rw [le_div_iff₀ hpos, Finset.mul_sum]
    apply Finset.sum_le_sum
    intro y hy
    rw [Finset.mul_sum]
    apply Finset.sum_le_sum
    intro x hx
    rw [Finset.mem_range] at hy hx
    by_cases q : F y x = 0
    · rw [q]; simp
    · rw [mul_comm]
      exact mul_le_mul_of_nonneg_left (h y x hy hx q).1 (by positivity)
  · rw [div_le_iff₀ hpos, Finset.mul_sum]
    apply Finset.sum_le_sum
    intro y hy
    rw [Finset.mul_sum]
    apply Finset.sum_le_sum
    intro x hx
    rw [Finset.mem_range] at hy hx
    by_cases q : F y x = 0
    · rw [q]; simp
    · rw [mul_comm hi]
      exact mul_le_mul_of_nonneg_left (h y x hy hx q).2 (by positivity)

/-! ### Concrete scales -/

theorem abs_slotMode_hneg {n a : ℕ} (ha : a < n) : |slotMode n (hneg n a)| = |slotMode n a| := by
  unfold slotMode hneg
  by_cases h0 : a = 0
  · subst h0; simp
  · rw [Nat.mod_eq_of_lt (by omega)]
    by_cases h1 : 2 * a < n
    · rw [if_neg (by omega), if_pos h1, abs_of_nonpos (by omega), abs_of_nonneg (by omega)]; omega
    · rw [if_neg h1]
      by_cases h2 : 2 * a = n
      · rw [if_neg (by omega)]; congr 1; omega
      · rw [if_pos (by omega), abs_of_nonneg (by omega), abs_of_nonpos (by omega)]; omega

/-- A scale of one row that passes the waves with numbers in a set. -/
def rowScale (nx : ℕ) (p : ℤ → Bool) : FlatScale := ⟨1, nx, 1, fun _ b => if p |slotMode nx b| then 1 else 0⟩

theorem rowScale_fits {nx mx : ℕ} (p : ℤ → Bool) (h0 : 0 < nx) (h1 : nx ≤ mx) (h : nx = mx ∨ ∀ c, p c = true → 2 * c + 1 < nx) :
    (rowScale nx p).Fits 1 mx := by
  refine ⟨⟨Nat.one_pos, le_rfl⟩, ⟨h0, h1⟩, one_ne_zero, ?_, ?_⟩
  · intro a b _ hb
    unfold rowScale at hb ⊢
    simp only at hb ⊢
    rw [abs_slotMode_hneg hb]
  · intro a b _ _ hn
    unfold rowScale at hn ⊢
    simp only at hn ⊢
    split
    · rename_i hp
      exfalso
      apply hn
      refine ⟨Or.inl rfl, ?_⟩
      rcases h with q | q
      · exact Or.inl q
      · exact Or.inr (q _ hp)
    · rfl

theorem rowScale_gain {nx mx K : ℕ} (p : ℤ → Bool) (h1 : nx ≤ mx) (hK : K < mx)
    (h : nx = mx ∨ ∀ c, p c = true → 2 * c + 1 < nx) : (rowScale nx p).gain 1 mx 0 K = if p |slotMode mx K| then 1 else 0 := by
  unfold FlatScale.gain rowScale
  simp only
  by_cases hr : Resolves mx nx (slotMode mx K)
  · rw [if_pos ⟨Or.inl rfl, hr⟩, resolves_small hr h1 (slotMode_lt hK).1 (slotMode_lt hK).2]
  · rw [if_neg (fun q => hr q.2)]
    rw [if_neg]
    intro hp
    apply hr
    rcases h with q | q
    · exact Or.inl q
    · exact Or.inr (q _ hp)

/-- Three scales of a row of 16 pixels, with maps of 6, 8 and 16 pixels, whose squared responses add up to one at every wave. -/
noncomputable def threeScales : List FlatScale := [rowScale 6 (· ≤ 1), rowScale 8 (· = 2), rowScale 16 (3 ≤ ·)]

theorem threeScales_fits : ∀ t ∈ threeScales, t.Fits 1 16 := by
  intro t ht
  unfold threeScales at ht
  rw [List.mem_cons, List.mem_cons, List.mem_singleton] at ht
  rcases ht with rfl | rfl | rfl
  · exact rowScale_fits _ (by decide) (by decide) (Or.inr fun c hc => by simp at hc; omega)
  · exact rowScale_fits _ (by decide) (by decide) (Or.inr fun c hc => by simp at hc; omega)
  · exact rowScale_fits _ (by decide) (by decide) (Or.inl rfl)

theorem threeScales_sum (K : ℕ) (hK : K < 16) : (threeScales.map fun s => s.gain 1 16 0 K ^ 2).sum = 1 := by
  unfold threeScales
  rw [List.map_cons, List.map_cons, List.map_cons, List.map_nil, List.sum_cons, List.sum_cons, List.sum_cons, List.sum_nil,
    rowScale_gain _ (by decide) hK (Or.inr fun c hc => by simp at hc; omega),
    rowScale_gain _ (by decide) hK (Or.inr fun c hc => by simp at hc; omega), rowScale_gain _ (by decide) hK (Or.inl rfl)]
  generalize |slotMode 16 K| = c
  simp only [decide_eq_true_eq]
  split_ifs <;> first | omega | norm_num

/-- The longest wave of the row of 16 pixels comes back moved by half a pixel, although the responses add up to one. -/
theorem C162_half_pixel_refuted (x : ℕ) : wave2mapFlat 1 16 (map2waveFlat 1 16 threeScales (cosMap 1 16)) 0 x =
    Real.cos (2 * Real.pi * (((x : ℝ) - 1 / 2) / 16)) := by
  have hK : ∀ K, K = 1 ∨ K = 16 - 1 → K < 16 ∧ |slotMode 16 K| = 1 := by rintro K (rfl | rfl) <;> decide
  have := C162_shift_refuted (my := 1) (mx := 16) (k := 1) (by decide) (by decide) (by decide) (rowScale 6 (· ≤ 1))
    [rowScale 8 (· = 2), rowScale 16 (3 ≤ ·)] threeScales_fits
    (by intro K h
        rw [rowScale_gain _ (by decide) (hK K h).1 (Or.inr fun c hc => by simp at hc; omega), (hK K h).2]; simp)
    (by intro K h t ht
        rw [List.mem_cons, List.mem_singleton] at ht
        rcases ht with rfl | rfl
        · rw [rowScale_gain _ (by decide) (hK K h).1 (Or.inr fun c hc => by simp at hc; omega), (hK K h).2]; simp
        · rw [rowScale_gain _ (by decide) (hK K h).1 (Or.inl rfl), (hK K h).2]; simp) 0 x
  unfold threeScales
  rw [this]
  congr 3
  simp [rowScale]
  norm_num

example : wave2mapFlat 1 16 (map2waveFlat 1 16 [rowScale 6 (· ≤ 1), rowScale 16 (2 ≤ ·)] fun _ x => x) 0 3 = 3 := by
  rw [C162_exact_partial]
  · norm_num
  · intro t ht
    rw [List.mem_cons, List.mem_singleton] at ht
    rcases ht with rfl | rfl
    · exact rowScale_fits _ (by decide) (by decide) (Or.inr fun c hc => by simp at hc; omega)
    · exact rowScale_fits _ (by decide) (by decide) (Or.inl rfl)
  · intro t ht
    rw [List.tail_cons, List.mem_singleton] at ht
    subst ht
    exact ⟨rfl, rfl⟩
  · intro Ky K hy hK
    obtain rfl : Ky = 0 := by omega
    rw [List.map_cons, List.map_cons, List.map_nil, List.sum_cons, List.sum_cons, List.sum_nil,
      rowScale_gain _ (by decide) hK (Or.inr fun c hc => by simp at hc; omega), rowScale_gain _ (by decide) hK (Or.inl rfl)]
    generalize |slotMode 16 K| = c
    simp only [decide_eq_true_eq]
    split_ifs <;> first | omega | norm_num
  · decide
  · decide

/-- A row of 8 pixels, its multipoles |k|, a first scale of 6 pixels that passes multipoles below 1, and a second that passes the
rest: the longest wave comes back doubled. -/
theorem C162_double_refuted (x : ℕ) :
    let l : ℕ → ℕ → ℝ := fun _ b => |(slotMode 8 b : ℝ)|
    let f0 : ℝ → ℝ := fun l => if |l| < 1 then 1 else 0
    let f1 : ℝ → ℝ := fun l => if |l| < 1 then 0 else 1
    (∀ l, f0 l ^ 2 + f1 l ^ 2 = 1) ∧
    wave2mapFlat 1 8 (map2waveFlat 1 8 [⟨1, 6, 1, fun a b => f0 (waveLs l 1 8 1 6 a b)⟩, ⟨1, 8, 1, fun a b => f1 (l a b)⟩] (cosMap 1 8)) 0 x =
      2 * cosMap 1 8 0 x := by
  intro l f0 f1
  have hf : ∀ l, f0 l ^ 2 + f1 l ^ 2 = 1 := by
    intro t; simp only [f0, f1]; split_ifs <;> norm_num
  refine ⟨hf, ?_⟩
  have hcos : ∀ t : ℝ, |t| ≤ 1 / 3 → 1 / 2 ≤ Real.cos (Real.pi * t) := by
    intro t ht
    rw [← Real.cos_pi_div_three, ← Real.cos_abs (Real.pi * t)]
    apply Real.cos_le_cos_of_nonneg_of_le_pi (abs_nonneg _) (by linarith [Real.pi_pos])
    rw [abs_mul, abs_of_pos Real.pi_pos]
    nlinarith [Real.pi_pos]
  have hl : ∀ a b, a < 1 → b < 8 → l (hneg 1 a) (hneg 8 b) = l a b := by
    intro a b _ hb
    simp only [l]
    have := abs_slotMode_hneg hb
    exact_mod_cast this
  -- the multipoles of the small scale
  have hls : ∀ b, b < 6 → waveLs l 1 8 1 6 0 b = |(slotMode 6 b : ℝ)| * Real.cos (Real.pi * ((slotMode 6 b : ℝ) * (1 / 6 - 1 / 8))) := by
    intro b hb
    unfold waveLs
    have hc : CopiedFrom 8 6 b (freqSlot 8 (slotMode 6 b)) := by
      interval_cases b <;> (unfold CopiedFrom; decide)
    have hc0 : CopiedFrom 1 1 0 0 := by unfold CopiedFrom; decide
    rw [resampleFftMap_eq, quads_copied _ _ _ (by decide) (by decide) (by decide) (by decide) hc0 hc, cornerOff_self (by decide),
      shiftPhase_zero, one_mul, corner_phase (by decide) hb, re_ofReal_mul, cis_re_cos]
    simp only [l]
    rw [resolves_big hb (by decide)]
    congr 2
    push_cast
    ring
  have hs : (FlatScale.mk 1 6 1 fun a b => f0 (waveLs l 1 8 1 6 a b)).Fits 1 8 := by
    refine ⟨⟨by decide, le_rfl⟩, ⟨by decide, by decide⟩, one_ne_zero, ?_, ?_⟩
    · intro a b ha hb
      simp only at ha hb ⊢
      obtain rfl : a = 0 := by omega
      rw [show hneg 1 0 = 0 by decide, hls b hb, hls _ (hneg_lt (by decide) b)]
      have e : (|(slotMode 6 (hneg 6 b) : ℝ)|) = |(slotMode 6 b : ℝ)| := by exact_mod_cast abs_slotMode_hneg hb
      rw [e, ← Real.cos_abs (Real.pi * ((slotMode 6 (hneg 6 b) : ℝ) * (1 / 6 - 1 / 8))), ← Real.cos_abs (Real.pi * ((slotMode 6 b : ℝ) * (1 / 6 - 1 / 8))),
        abs_mul, abs_mul, abs_mul, abs_mul, e]
    · intro a b ha hb hn
      simp only at ha hb hn ⊢
      obtain rfl : a = 0 := by omega
      have hb3 : b = 3 := by
        by_contra q
        apply hn
        refine ⟨Or.inl rfl, Or.inr ?_⟩
        interval_cases b <;> first | exact absurd rfl q | decide
      subst hb3
      rw [hls 3 (by decide)]
      have := hcos ((slotMode 6 3 : ℝ) * (1 / 6 - 1 / 8)) (by rw [show slotMode 6 3 = -3 by decide]; norm_num)
      simp only [f0]
      rw [if_neg]
      rw [not_lt, abs_of_nonneg (by positivity), show slotMode 6 3 = -3 by decide] at *
      norm_num at *
      linarith
  rw [C162_response_refuted l f0 f1 hf 1 1 (by decide) (by decide) hl hs one_ne_zero (Or.inl rfl)]
  have h1 : l 0 1 = 1 := by simp only [l]; rw [show slotMode 8 1 = 1 by decide]; norm_num
  have hc1 : Real.cos (Real.pi * (((1 : ℕ) : ℝ) * (1 / (6 : ℕ) - 1 / (8 : ℕ)))) < 1 := by
    have := Real.cos_lt_cos_of_nonneg_of_le_pi (x := 0) (y := Real.pi * (((1 : ℕ) : ℝ) * (1 / (6 : ℕ) - 1 / (8 : ℕ)))) le_rfl
      (by norm_num; nlinarith [Real.pi_pos]) (by norm_num; positivity)
    simpa using this
  have hc2 := hcos (((1 : ℕ) : ℝ) * (1 / (6 : ℕ) - 1 / (8 : ℕ))) (by norm_num)
  rw [h1]
  have e0 : f0 (1 * Real.cos (Real.pi * (((1 : ℕ) : ℝ) * (1 / (6 : ℕ) - 1 / (8 : ℕ))))) = 1 := by
    simp only [f0]
    rw [one_mul, if_pos]
    rw [abs_of_nonneg (by linarith)]
    exact hc1
  have e1 : f0 1 = 0 := by simp [f0]
  rw [e0, e1]
  norm_num

example : waveSize 1000 (1 / 1000) (waveRes (1 / 1000) 100) ≤ 40 ∧ |lAxis 1000 (1 / 1000) 3| ≤ 100 := by
  constructor
  · unfold waveSize waveRes
    rw [max_eq_left (by have := Real.pi_gt_three; norm_num; linarith)]
    refine (min_le_left _ _).trans ?_
    have : ⌈((1000 : ℕ) : ℝ) * (1 / 1000) / (Real.pi / 100)⌉₊ ≤ 36 := by
      apply Nat.ceil_le.2
      have := Real.pi_gt_three
      rw [div_le_iff₀ (by positivity)]
      push_cast
      linarith
    omega
  · unfold lAxis fftfreq
    norm_num
    rw [abs_of_pos Real.pi_pos]
    linarith [Real.pi_lt_four]

/-! ### White noise -/

theorem fft2_delta {my mx : ℕ} {p : ℕ × ℕ} (hp : p.1 < my ∧ p.2 < mx) (Ky Kx : ℕ) :
    fft2 my mx (fun y x => (((if (y, x) = p then 1 else 0 : ℝ)) : ℂ)) Ky Kx = conj (fmode my mx (Ky, Kx) p) := by
  unfold fft2 dftRaw fmode
  beta_reduce
  rw [Finset.sum_eq_single_of_mem p.1 (by simpa using hp.1), Finset.sum_eq_single_of_mem p.2 (by simpa using hp.2)]
  · simp only [Prod.mk.eta, if_true, ofReal_one, one_mul]
    rw [← cis_add, ← cis_neg]
    congr 1
    ring
  · intro x _ hx
    have : ¬ (p.1, x) = p := fun h => hx (by rw [← h])
    simp [this]
  · intro y _ hy
    have : ∀ x, ¬ (y, x) = p := fun x h => hy (by rw [← h])
    simp [this]

theorem ifft2_grid (ny nx : ℕ) (f : ℕ → ℕ → ℂ) (y x : ℕ) :
    ifft2 ny nx f y x = ∑ q ∈ Finset.range ny ×ˢ Finset.range nx, f q.1 q.2 * fmode ny nx q (y, x) := by
  unfold ifft2 idftRaw fmode
  rw [Finset.sum_product]
  apply Finset.sum_congr rfl
  intro a _
  rw [Finset.sum_mul]
  apply Finset.sum_congr rfl
  intro b _
  rw [mul_assoc, ← cis_add]
  congr 2
  ring

theorem fmode_unit (ny nx : ℕ) (q p : ℕ × ℕ) : fmode ny nx q p * conj (fmode ny nx q p) = 1 := cis_mul_conj _

/-- C162: the wavelet coefficients have the units of the power spectrum: for a map of independent pixels of variance one, every
coefficient of every scale has the variance A/(number of pixels), the area of a pixel, which is the power spectrum of such a map.
The variance is the sum over the pixels of the squared response to that pixel. -/
theorem C162_white {my mx : ℕ} (s : FlatScale) (hs : s.Fits my mx) {A : ℝ} (hA : 0 < A) (hn : s.norm = waveNorm A s.ny s.nx s.F) (y x : ℕ) :
    ∑ p ∈ Finset.range my ×ˢ Finset.range mx, map2waveFlat1 my mx (fun a b => if (a, b) = p then 1 else 0) s y x ^ 2 =
      A / ((my * mx : ℕ) : ℝ) := by
  have hs' := hs
  obtain ⟨⟨h1, h2⟩, ⟨h3, h4⟩, hnorm, -, -⟩ := hs
  -- the coefficient as a sum over the modes of the scale
  set c : ℕ × ℕ → ℂ := fun q =>
    (shiftPhase s.ny (cornerOff my s.ny) false q.1 * shiftPhase s.nx (cornerOff mx s.nx) false q.2) *
    ((s.F q.1 q.2 / (s.norm * ((my * mx : ℕ) : ℝ)) : ℝ) : ℂ) * fmode s.ny s.nx q (y, x) with hc
  set big : ℕ × ℕ → ℕ × ℕ := fun q => (freqSlot my (slotMode s.ny q.1), freqSlot mx (slotMode s.nx q.2)) with hbig
  have hw : ∀ p ∈ Finset.range my ×ˢ Finset.range mx,
      ((map2waveFlat1 my mx (fun a b => if (a, b) = p then 1 else 0) s y x : ℝ) : ℂ) =
        ∑ q ∈ Finset.range s.ny ×ˢ Finset.range s.nx, c q * conj (fmode my mx (big q) p) := by
    intro p hp
    rw [Finset.mem_product, Finset.mem_range, Finset.mem_range] at hp
    rw [map2waveFlat1_complex hs', ifft2_grid]
    apply Finset.sum_congr rfl
    intro q _
    unfold downF
    rw [fft2_delta hp]
    simp only [hc, hbig]
    ring
  have hbm : ∀ q ∈ Finset.range s.ny ×ˢ Finset.range s.nx, (big q).1 < my ∧ (big q).2 < mx := fun q _ =>
    ⟨freqSlot_lt _ (by omega), freqSlot_lt _ (by omega)⟩
  have hinj : ∀ q ∈ Finset.range s.ny ×ˢ Finset.range s.nx, ∀ q' ∈ Finset.range s.ny ×ˢ Finset.range s.nx, big q = big q' → q = q' := by
    intro q hq q' hq' h
    rw [Finset.mem_product, Finset.mem_range, Finset.mem_range] at hq hq'
    have e1 := congrArg (slotMode my) (congrArg Prod.fst h)
    have e2 := congrArg (slotMode mx) (congrArg Prod.snd h)
    simp only [hbig] at e1 e2
    rw [resolves_big hq.1 h2, resolves_big hq'.1 h2] at e1
    rw [resolves_big hq.2 h4, resolves_big hq'.2 h4] at e2
    apply Prod.ext
    · rw [← freqSlot_slotMode hq.1, e1, freqSlot_slotMode hq'.1]
    · rw [← freqSlot_slotMode hq.2, e2, freqSlot_slotMode hq'.2]
  -- the square
  have sq : ∀ p ∈ Finset.range my ×ˢ Finset.range mx,
      ((map2waveFlat1 my mx (fun a b => if (a, b) = p then 1 else 0) s y x ^ 2 : ℝ) : ℂ) =
        ∑ q ∈ Finset.range s.ny ×ˢ Finset.range s.nx, ∑ q' ∈ Finset.range s.ny ×ˢ Finset.range s.nx,
          c q * conj (c q') * (conj (fmode my mx (big q) p) * fmode my mx (big q') p) := by
    intro p hp
    have e := hw p hp
    have e' := congrArg conj e
    rw [conj_ofReal, map_sum] at e'
    push_cast
    rw [sq]
    nth_rw 1 [e]
    rw [e', Finset.sum_mul_sum]
    apply Finset.sum_congr rfl
    intro q _
    apply Finset.sum_congr rfl
    intro q' _
    rw [map_mul, conj_conj]
    ring
  have tot : ((∑ p ∈ Finset.range my ×ˢ Finset.range mx, map2waveFlat1 my mx (fun a b => if (a, b) = p then 1 else 0) s y x ^ 2 : ℝ) : ℂ) =
      ∑ q ∈ Finset.range s.ny ×ˢ Finset.range s.nx, c q * conj (c q) * ((my : ℂ) * mx) := by
    rw [ofReal_sum, Finset.sum_congr rfl sq, Finset.sum_comm]
    apply Finset.sum_congr rfl
    intro q hq
    rw [Finset.sum_comm, Finset.sum_eq_single_of_mem q hq]
    · rw [← Finset.mul_sum, fmode_same my mx (big q) (big q) (hbm q hq) (hbm q hq), if_pos rfl]
    · intro q' hq' hne
      rw [← Finset.mul_sum, fmode_same my mx (big q) (big q') (hbm q hq) (hbm q' hq'), if_neg, mul_zero]
      intro h
      exact hne (hinj q' hq' q hq h)
  have cc : ∀ q ∈ Finset.range s.ny ×ˢ Finset.range s.nx, c q * conj (c q) * ((my : ℂ) * mx) =
      ((s.F q.1 q.2 ^ 2 / (s.norm ^ 2 * ((my * mx : ℕ) : ℝ)) : ℝ) : ℂ) := by
    intro q hq
    rw [Finset.mem_product, Finset.mem_range, Finset.mem_range] at hq
    have u1 := fmode_unit s.ny s.nx q (y, x)
    simp only [hc]
    rw [corner_phase (by omega) hq.1, corner_phase (by omega) hq.2, ← cis_add]
    have u2 := cis_mul_conj ((slotMode s.ny q.1 : ℝ) * (1 / s.ny - 1 / my) / 2 + (slotMode s.nx q.2 : ℝ) * (1 / s.nx - 1 / mx) / 2)
    rw [map_mul, map_mul, conj_ofReal]
    generalize cis ((slotMode s.ny q.1 : ℝ) * (1 / s.ny - 1 / my) / 2 + (slotMode s.nx q.2 : ℝ) * (1 / s.nx - 1 / mx) / 2) = P at u2 ⊢
    generalize fmode s.ny s.nx q (y, x) = Q at u1 ⊢
    have e4 : (my : ℂ) ≠ 0 := by exact_mod_cast (by omega : my ≠ 0)
    have e5 : (mx : ℂ) ≠ 0 := by exact_mod_cast (by omega : mx ≠ 0)
    have e3 : (s.norm : ℂ) ≠ 0 := by exact_mod_cast hnorm
    calc P * ((s.F q.1 q.2 / (s.norm * ((my * mx : ℕ) : ℝ)) : ℝ) : ℂ) * Q *
        (conj P * ((s.F q.1 q.2 / (s.norm * ((my * mx : ℕ) : ℝ)) : ℝ) : ℂ) * conj Q) * ((my : ℂ) * mx)
        = (P * conj P) * (Q * conj Q) * (((s.F q.1 q.2 / (s.norm * ((my * mx : ℕ) : ℝ)) : ℝ) : ℂ) ^ 2 * ((my : ℂ) * mx)) := by ring
      _ = ((s.F q.1 q.2 ^ 2 / (s.norm ^ 2 * ((my * mx : ℕ) : ℝ)) : ℝ) : ℂ) := by
          rw [u1, u2]
          push_cast
          field_simp
  rw [Finset.sum_congr rfl cc, ← ofReal_sum] at tot
  have tot' := ofReal_injective tot
  rw [tot', ← Finset.sum_div, Finset.sum_product]
  have hw2 : s.norm ^ 2 = (∑ a ∈ Finset.range s.ny, ∑ b ∈ Finset.range s.nx, s.F a b ^ 2) / A := by
    rw [hn]
    unfold waveNorm
    rw [Real.sq_sqrt]
    · simp only [Finset.sum_div]
    · apply Finset.sum_nonneg; intro a _; apply Finset.sum_nonneg; intro b _; positivity
  have hne : s.norm ^ 2 ≠ 0 := pow_ne_zero _ hnorm
  have hS : (∑ a ∈ Finset.range s.ny, ∑ b ∈ Finset.range s.nx, s.F a b ^ 2) ≠ 0 := by
    intro h
    rw [h, zero_div] at hw2
    exact hne hw2
  rw [hw2]
  have e4 : (my : ℝ) ≠ 0 := by exact_mod_cast (by omega : my ≠ 0)
  have e5 : (mx : ℝ) ≠ 0 := by exact_mod_cast (by omega : mx ≠ 0)
  simp only
  generalize (∑ a ∈ Finset.range s.ny, ∑ b ∈ Finset.range s.nx, s.F a b ^ 2) = S at hS ⊢
  field_simp

end Pixell
