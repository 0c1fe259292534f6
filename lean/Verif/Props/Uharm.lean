import Verif.Model.Uharm
import Verif.Lemmas.Matched
import Verif.Props.FlatFourier
import Verif.Props.RandMap

/-!
C159: profiles, spectra, random draws and the choice of sky of the unified harmonic transform.
-/
namespace Pixell
open Complex Matrix MeasureTheory
open scoped ComplexConjugate

/-! ### Specification -/

/-- The signed offset of index i from index 0 on a cycle of n, the nearest way round. -/
def nearOff (n i : ℕ) : ℤ := if 2 * i ≤ n then (i : ℤ) else (i : ℤ) - n

/-- The profile around pixel (0,0) of a cyclic map, by the nearest way round. -/
noncomputable def nearProf (ny nx : ℕ) (dist : ℤ → ℤ → ℝ) (B : ℝ → ℝ) (y x : ℕ) : ℝ := B (dist (nearOff ny y) (nearOff nx x))

/-- The distance of two pixels does not depend on the side. -/
def EvenDist (dist : ℤ → ℤ → ℝ) : Prop := (∀ a b, dist (-a) b = dist a b) ∧ ∀ a b, dist a (-b) = dist a b

/-- Flat-sky distance with steps sy and sx. -/
noncomputable def flatDist (sy sx : ℝ) (dy dx : ℤ) : ℝ := Real.sqrt ((sy * dy) ^ 2 + (sx * dx) ^ 2)

theorem flatDist_even (sy sx : ℝ) : EvenDist (flatDist sy sx) :=
  ⟨fun a b => by unfold flatDist; push_cast; rw [show sy * -(a : ℝ) = -(sy * a) by ring, neg_sq],
   fun a b => by unfold flatDist; push_cast; rw [show sx * -(b : ℝ) = -(sx * b) by ring, neg_sq]⟩

/-! ### Lemmas -/

theorem negK_lt {n k : ℕ} (h : k < n) : negK n k < n := Nat.mod_lt _ (by omega)

theorem negK_val {n k : ℕ} (h : k < n) : negK n k = if k = 0 then 0 else n - k := by
  unfold negK
  split_ifs with h0
  · subst h0; simp
  · exact Nat.mod_eq_of_lt (by omega)

theorem negK_negK {n k : ℕ} (h : k < n) : negK n (negK n k) = k := flip_flip h

theorem wave_negK {ny nx : ℕ} (k : ℕ × ℕ) {y x : ℕ} (hy : y < ny) (hx : x < nx) :
    wave ny nx k (-(negK ny y : ℤ)) (-(negK nx x : ℤ)) = wave ny nx k y x := by
  have h1 : ∀ n i : ℕ, i < n → ∃ a : ℤ, -(negK n i : ℤ) = i + n * a := by
    intro n i hi
    rw [negK_val hi]
    split_ifs with h0
    · exact ⟨0, by simp [h0]⟩
    · exact ⟨-1, by push_cast [hi.le]; ring⟩
  obtain ⟨a, ha⟩ := h1 ny y hy
  obtain ⟨b, hb⟩ := h1 nx x hx
  rw [ha, hb]
  exact wave_period ny nx (by omega) (by omega) k y x a b

/-- The conjugate transform of a real map is the transform of the reflected map. -/
theorem conj_fft2 {ny nx : ℕ} (f : ℕ → ℕ → ℝ) (ky kx : ℕ) :
    conj (fft2 ny nx (cplx f) ky kx) = fft2 ny nx (cplx fun y x => f (negK ny y) (negK nx x)) ky kx := by
  rw [fft2_eq, fft2_eq, map_sum]
  refine Finset.sum_bij' (fun p _ => (negK ny p.1, negK nx p.2)) (fun p _ => (negK ny p.1, negK nx p.2)) ?_ ?_ ?_ ?_ ?_
  · intro p hp; rw [mem_grid] at hp ⊢; exact ⟨negK_lt hp.1, negK_lt hp.2⟩
  · intro p hp; rw [mem_grid] at hp ⊢; exact ⟨negK_lt hp.1, negK_lt hp.2⟩
  · intro p hp; rw [mem_grid] at hp; simp only [negK_negK hp.1, negK_negK hp.2]
  · intro p hp; rw [mem_grid] at hp; simp only [negK_negK hp.1, negK_negK hp.2]
  · intro p hp
    rw [mem_grid] at hp
    simp only [cplx, negK_negK hp.1, negK_negK hp.2, wave_negK _ hp.1 hp.2]
    rw [map_mul, conj_ofReal, wave_neg, Complex.conj_conj]

/-- Transforming back the real part of the transform of a real map gives its even part. -/
theorem ifft2_re {ny nx : ℕ} (f : ℕ → ℕ → ℝ) (y x : ℕ) (hy : y < ny) (hx : x < nx) :
    ifft2 ny nx (cplx fun ky kx => (fft2 ny nx (cplx f) ky kx).re) y x =
      (((ny : ℝ) * nx * ((f y x + f (negK ny y) (negK nx x)) / 2) : ℝ) : ℂ) := by
  have e : (cplx fun ky kx => (fft2 ny nx (cplx f) ky kx).re) =
      fun ky kx => fft2 ny nx (cplx fun y x => (f y x + f (negK ny y) (negK nx x)) / 2) ky kx := by
    funext ky kx
    have h1 : (((fft2 ny nx (cplx f) ky kx).re : ℝ) : ℂ) = (fft2 ny nx (cplx f) ky kx + conj (fft2 ny nx (cplx f) ky kx)) / 2 := by
      rw [Complex.add_conj]; push_cast; ring
    change (((fft2 ny nx (cplx f) ky kx).re : ℝ) : ℂ) = _
    rw [h1, conj_fft2, fft2_eq, fft2_eq, fft2_eq, ← Finset.sum_add_distrib, Finset.sum_div]
    refine Finset.sum_congr rfl fun p _ => ?_
    simp only [cplx]
    push_cast
    ring
  rw [e, ifft2_fft2 ny nx _ y x hy hx]
  simp only [cplx]
  push_cast
  ring

theorem profOff_two {n i : ℕ} (hn : 2 ≤ n) (hi : i < n) :
    profOff n i = if (i : ℤ) + profCenter n < n then (i : ℤ) else (i : ℤ) - n := by
  unfold profOff
  have h0 : 0 ≤ profCenter n := by unfold profCenter; omega
  have h1 : profCenter n < n := by unfold profCenter; omega
  split_ifs with h
  · rw [Int.emod_eq_of_lt (by omega) h]; ring
  · rw [← Int.sub_emod_right, Int.emod_eq_of_lt (by omega) (by omega)]; ring

theorem profOff_even {n i : ℕ} (hn : n % 2 = 0) (hi : i < n) : profOff n i = nearOff n i := by
  rw [profOff_two (by omega) hi]
  unfold nearOff profCenter
  split_ifs <;> omega

theorem profOff_near {n i : ℕ} (hn : 2 ≤ n) (hi : i < n) :
    profOff n i = nearOff n i ∨ (profCenter n < |profOff n i| ∧ profCenter n < |nearOff n i|) := by
  rw [profOff_two hn hi]
  have e1 : |(i : ℤ)| = i := abs_of_nonneg (by omega)
  have e2 : |(i : ℤ) - n| = n - i := by rw [abs_of_nonpos (by omega)]; ring
  unfold nearOff
  unfold profCenter
  split_ifs with h h' h'
  · exact Or.inl rfl
  · right; rw [e1, e2]; omega
  · omega
  · exact Or.inl rfl

theorem nearOff_neg {n i : ℕ} (hi : i < n) : nearOff n (negK n i) = -nearOff n i ∨ nearOff n (negK n i) = nearOff n i := by
  rw [negK_val hi]
  unfold nearOff
  split_ifs <;> omega

theorem nearProf_even {dist : ℤ → ℤ → ℝ} (hd : EvenDist dist) (B : ℝ → ℝ) {ny nx y x : ℕ} (hy : y < ny) (hx : x < nx) :
    nearProf ny nx dist B (negK ny y) (negK nx x) = nearProf ny nx dist B y x := by
  unfold nearProf
  rcases nearOff_neg hy with h | h <;> rcases nearOff_neg hx with h' | h' <;> rw [h, h'] <;> simp only [hd.1, hd.2]

theorem fft_nearProf {dist : ℤ → ℤ → ℝ} (hd : EvenDist dist) (B : ℝ → ℝ) (ny nx ky kx : ℕ) :
    (((fft2 ny nx (cplx (nearProf ny nx dist B)) ky kx).re : ℝ) : ℂ) = fft2 ny nx (cplx (nearProf ny nx dist B)) ky kx := by
  rw [← Complex.conj_eq_iff_re, conj_fft2]
  refine fft2_congr (fun y x hy hx => ?_) ky kx
  simp only [cplx, nearProf_even hd B hy hx]

theorem profOff_src {n p : ℕ} (hp : p < n) :
    (((p : ℤ) - profCenter n) % n).toNat < n ∧ profOff n (((p : ℤ) - profCenter n) % n).toNat = p - profCenter n := by
  have hn : (0 : ℤ) < n := by omega
  have h0 := Int.emod_nonneg ((p : ℤ) - profCenter n) hn.ne'
  have h1 := Int.emod_lt_of_pos ((p : ℤ) - profCenter n) hn
  refine ⟨by omega, ?_⟩
  unfold profOff
  rw [Int.toNat_of_nonneg h0, Int.emod_add_emod, sub_add_cancel, Int.emod_eq_of_lt (by omega) (by omega)]

/-! ### Theorems -/

/-- C159: a profile put into harmonic space on maps of even size is the Fourier transform of the profile around a pixel, times
the pixel area; it is real. -/
theorem C159_rprof (ny nx : ℕ) (hy : ny % 2 = 0) (hx : nx % 2 = 0) (A : ℝ) {dist : ℤ → ℤ → ℝ} (hd : EvenDist dist)
    (nr : ℕ) (r br : ℕ → ℝ) (ky kx : ℕ) :
    (profile2harmFlat2d ny nx A dist nr r br ky kx : ℂ) = A * fft2 ny nx (cplx (nearProf ny nx dist (npInterp nr r br none (some 0)))) ky kx := by
  rw [← fft_nearProf hd]
  unfold profile2harmFlat2d enmapFft
  have e : fft2 ny nx (cplx (profMap ny nx dist nr r br)) ky kx =
      fft2 ny nx (cplx (nearProf ny nx dist (npInterp nr r br none (some 0)))) ky kx := by
    refine fft2_congr (fun y x h h' => ?_) ky kx
    simp only [cplx, profMap, nearProf, profOff_even hy h, profOff_even hx h']
  rw [e]
  simp only [fftNorm, ne_eq, not_true_eq_false, if_false, reduceCtorEq, ofReal_one, mul_one]
  push_cast
  ring

/-- C159: on maps of any size the same holds for profiles that end before the edge. -/
theorem C159_rprof_partial (ny nx : ℕ) (hy : 2 ≤ ny) (hx : 2 ≤ nx) (A : ℝ) {dist : ℤ → ℤ → ℝ} (hd : EvenDist dist)
    (nr : ℕ) (r br : ℕ → ℝ)
    (hz : ∀ dy dx : ℤ, ((ny : ℤ) / 2 - 1 < |dy| ∨ (nx : ℤ) / 2 - 1 < |dx|) → npInterp nr r br none (some 0) (dist dy dx) = 0) (ky kx : ℕ) :
    (profile2harmFlat2d ny nx A dist nr r br ky kx : ℂ) = A * fft2 ny nx (cplx (nearProf ny nx dist (npInterp nr r br none (some 0)))) ky kx := by
  rw [← fft_nearProf hd]
  unfold profile2harmFlat2d enmapFft
  have e : fft2 ny nx (cplx (profMap ny nx dist nr r br)) ky kx =
      fft2 ny nx (cplx (nearProf ny nx dist (npInterp nr r br none (some 0)))) ky kx := by
    refine fft2_congr (fun y x h h' => ?_) ky kx
    simp only [cplx, profMap, nearProf]
    rcases profOff_near hy h with a | a
    · rcases profOff_near hx h' with b | b
      · rw [a, b]
      · rw [hz _ _ (Or.inr b.1), hz _ _ (Or.inr b.2)]
    · rw [hz _ _ (Or.inl a.1), hz _ _ (Or.inl a.2)]
  rw [e]
  simp only [fftNorm, ne_eq, not_true_eq_false, if_false, reduceCtorEq, ofReal_one, mul_one]
  push_cast
  ring

/-- What harm2profile_flat_2d bins for the transform of a profile, on maps of any size: the mean of the profile at the pixel
and at its mirror pixel. -/
theorem harm2prof_gen (ny nx : ℕ) (A : ℝ) (hA : A ≠ 0) (dist : ℤ → ℤ → ℝ) (nr : ℕ) (r br : ℕ → ℝ) (y x : ℕ) (hy : y < ny) (hx : x < nx) :
    harm2profMap ny nx A (profile2harmFlat2d ny nx A dist nr r br) y x =
      (npInterp nr r br none (some 0) (dist ((y : ℤ) - profCenter ny) ((x : ℤ) - profCenter nx)) +
        profMap ny nx dist nr r br (negK ny (((y : ℤ) - profCenter ny) % ny).toNat) (negK nx (((x : ℤ) - profCenter nx) % nx).toNat)) / 2 := by
  obtain ⟨h1, h2⟩ := profOff_src hy
  obtain ⟨h3, h4⟩ := profOff_src hx
  unfold harm2profMap
  simp only []
  set i := (((y : ℤ) - profCenter ny) % ny).toNat
  set j := (((x : ℤ) - profCenter nx) % nx).toNat
  have e1 : ∀ p q, enmapIfft .off false ny nx A (cplx (profile2harmFlat2d ny nx A dist nr r br)) p q =
      ifft2 ny nx (cplx fun ky kx => (fft2 ny nx (cplx (profMap ny nx dist nr r br)) ky kx).re) p q * A := by
    intro p q
    unfold enmapIfft
    rw [← ifft2_mul ny nx (cplx fun ky kx => _) (A : ℂ)]
    simp only [ifftNorm, ne_eq, not_true_eq_false, if_false, reduceCtorEq, ofReal_one, mul_one]
    refine ifft2_congr (fun ky kx _ _ => ?_) p q
    simp only [cplx]
    unfold profile2harmFlat2d enmapFft
    simp only [fftNorm, ne_eq, not_true_eq_false, if_false, reduceCtorEq, ofReal_one, mul_one]
    push_cast
    ring
  rw [e1, ifft2_re _ i j h1 h3, ← ofReal_mul, ofReal_re]
  have e2 : profMap ny nx dist nr r br i j = npInterp nr r br none (some 0) (dist ((y : ℤ) - profCenter ny) ((x : ℤ) - profCenter nx)) := by
    unfold profMap; rw [h2, h4]
  rw [e2]
  have p1 : (ny : ℝ) ≠ 0 := by have : 0 < ny := by omega
                               exact_mod_cast this.ne'
  have p2 : (nx : ℝ) ≠ 0 := by have : 0 < nx := by omega
                               exact_mod_cast this.ne'
  field_simp

/-- C159: on maps of even size, going to harmonic space and back gives at each pixel the profile at its distance from the
central pixel. -/
theorem C159_round (ny nx : ℕ) (hey : ny % 2 = 0) (hex : nx % 2 = 0) (A : ℝ) (hA : A ≠ 0) {dist : ℤ → ℤ → ℝ} (hd : EvenDist dist)
    (nr : ℕ) (r br : ℕ → ℝ) (y x : ℕ) (hy : y < ny) (hx : x < nx) :
    harm2profMap ny nx A (profile2harmFlat2d ny nx A dist nr r br) y x =
      npInterp nr r br none (some 0) (dist ((y : ℤ) - (ny / 2 - 1)) ((x : ℤ) - (nx / 2 - 1))) := by
  rw [harm2prof_gen ny nx A hA dist nr r br y x hy hx]
  obtain ⟨h1, h2⟩ := profOff_src hy
  obtain ⟨h3, h4⟩ := profOff_src hx
  set i := (((y : ℤ) - profCenter ny) % ny).toNat
  set j := (((x : ℤ) - profCenter nx) % nx).toNat
  have e := nearProf_even hd (npInterp nr r br none (some 0)) h1 h3
  unfold profMap
  unfold nearProf at e
  rw [profOff_even hey (negK_lt h1), profOff_even hex (negK_lt h3), e, ← profOff_even hey h1, ← profOff_even hex h3, h2, h4]
  unfold profCenter
  ring

/-- A beam falling linearly to zero at radius 2. -/
theorem tent_vals : npInterp 2 (fun i => 2 * (i : ℝ)) (fun i => 1 - (i : ℝ)) none (some 0) 0 = 1 ∧
    npInterp 2 (fun i => 2 * (i : ℝ)) (fun i => 1 - (i : ℝ)) none (some 0) 1 = 1 / 2 ∧
    ∀ x : ℝ, 2 ≤ x → npInterp 2 (fun i => 2 * (i : ℝ)) (fun i => 1 - (i : ℝ)) none (some 0) x = 0 := by
  refine ⟨?_, ?_, fun x hx => ?_⟩
  · unfold npInterp
    have : Nat.findGreatest (fun j => 2 * (j : ℝ) ≤ 0) 1 = 0 := by
      rw [Nat.findGreatest_eq_zero_iff]; intro n h1 h2; have : n = 1 := by omega
      subst this; norm_num
    norm_num [this]
  · unfold npInterp
    have : Nat.findGreatest (fun j => 2 * (j : ℝ) ≤ 1) 1 = 0 := by
      rw [Nat.findGreatest_eq_zero_iff]; intro n h1 h2; have : n = 1 := by omega
      subst this; norm_num
    norm_num [this]
  · unfold npInterp
    rw [if_neg (by norm_num; linarith)]
    split_ifs with h
    · rfl
    · norm_num at h ⊢
      have hx2 : x = 2 := le_antisymm h hx
      subst hx2
      have : Nat.findGreatest (fun j => (j : ℝ) ≤ 1) 1 = 1 := by
        rw [Nat.findGreatest_eq_iff]; norm_num; omega
      norm_num [this]

/-- A map of 2×4 pixels with the beam above, for the theorems on even sizes. -/
example : harm2profMap 2 4 3 (profile2harmFlat2d 2 4 3 (flatDist 2 1) 2 (fun i => 2 * (i : ℝ)) (fun i => 1 - (i : ℝ))) 0 2 = 1 / 2 := by
  rw [C159_round 2 4 (by omega) (by omega) 3 (by norm_num) (flatDist_even 2 1) _ _ _ 0 2 (by omega) (by omega)]
  rw [show flatDist 2 1 (((0 : ℕ) : ℤ) - (((2 : ℕ) : ℤ) / 2 - 1)) (((2 : ℕ) : ℤ) - (((4 : ℕ) : ℤ) / 2 - 1)) = 1 by unfold flatDist; norm_num]
  exact tent_vals.2.1

/-- C159: on maps of odd size it does not: next to the centre of a row of three pixels half of the profile is missing. -/
theorem C159_round_refuted : ¬ ∀ (ny nx : ℕ) (A : ℝ) (dist : ℤ → ℤ → ℝ) (nr : ℕ) (r br : ℕ → ℝ) (y x : ℕ), 2 ≤ ny → 2 ≤ nx → 0 < A →
    EvenDist dist → y < ny → x < nx →
    harm2profMap ny nx A (profile2harmFlat2d ny nx A dist nr r br) y x =
      npInterp nr r br none (some 0) (dist ((y : ℤ) - (ny / 2 - 1)) ((x : ℤ) - (nx / 2 - 1))) := by
  intro h
  have h1 := h 2 3 1 (flatDist 2 1) 2 (fun i => 2 * (i : ℝ)) (fun i => 1 - (i : ℝ)) 0 1 (by omega) (by omega) (by norm_num)
    (flatDist_even 2 1) (by omega) (by omega)
  rw [harm2prof_gen 2 3 1 (by norm_num) _ _ _ _ 0 1 (by omega) (by omega)] at h1
  have e1 : flatDist 2 1 (((0 : ℕ) : ℤ) - (((2 : ℕ) : ℤ) / 2 - 1)) (((1 : ℕ) : ℤ) - (((3 : ℕ) : ℤ) / 2 - 1)) = 1 := by unfold flatDist; norm_num
  have e2 : profMap 2 3 (flatDist 2 1) 2 (fun i => 2 * (i : ℝ)) (fun i => 1 - (i : ℝ))
      (negK 2 ((((0 : ℕ) : ℤ) - profCenter 2) % (2 : ℕ)).toNat) (negK 3 ((((1 : ℕ) : ℤ) - profCenter 3) % (3 : ℕ)).toNat) = 0 := by
    rw [show negK 2 ((((0 : ℕ) : ℤ) - profCenter 2) % (2 : ℕ)).toNat = 0 by decide,
      show negK 3 ((((1 : ℕ) : ℤ) - profCenter 3) % (3 : ℕ)).toNat = 2 by decide]
    unfold profMap
    rw [show profOff 2 0 = 0 by decide, show profOff 3 2 = 2 by decide]
    apply tent_vals.2.2
    unfold flatDist
    rw [show ((2 : ℝ) * ((0 : ℤ) : ℝ)) ^ 2 + (1 * ((2 : ℤ) : ℝ)) ^ 2 = 2 ^ 2 by norm_num, Real.sqrt_sq (by norm_num)]
  rw [e2] at h1
  simp only [profCenter] at h1
  rw [e1, tent_vals.2.1] at h1
  norm_num at h1

/-- C159: nor is the transform at the origin the sum of the profile over the pixels around the centre. -/
theorem C159_rprof_refuted : ¬ ∀ (ny nx : ℕ) (A : ℝ) (dist : ℤ → ℤ → ℝ) (nr : ℕ) (r br : ℕ → ℝ), 2 ≤ ny → 2 ≤ nx → 0 < A → EvenDist dist →
    (profile2harmFlat2d ny nx A dist nr r br 0 0 : ℂ) = A * fft2 ny nx (cplx (nearProf ny nx dist (npInterp nr r br none (some 0)))) 0 0 := by
  intro h
  have h1 := h 2 3 1 (flatDist 2 1) 2 (fun i => 2 * (i : ℝ)) (fun i => 1 - (i : ℝ)) (by omega) (by omega) (by norm_num) (flatDist_even 2 1)
  have d1 : flatDist 2 1 0 0 = 0 := by unfold flatDist; norm_num
  have d2 : flatDist 2 1 0 1 = 1 := by unfold flatDist; norm_num
  have d3 : flatDist 2 1 0 (-1) = 1 := by unfold flatDist; norm_num
  have d4 : 2 ≤ flatDist 2 1 0 2 := by
    unfold flatDist; apply Real.le_sqrt_of_sq_le; norm_num
  have d5 : ∀ b : ℤ, 2 ≤ flatDist 2 1 1 b := by
    intro b; unfold flatDist; apply Real.le_sqrt_of_sq_le; have := sq_nonneg ((1 : ℝ) * b); norm_num; nlinarith
  unfold profile2harmFlat2d enmapFft at h1
  simp only [fft2, dftRaw, Finset.sum_range_succ, Finset.sum_range_zero, cplx, profMap, nearProf, fftNorm] at h1
  simp only [show profOff 2 0 = 0 by decide, show profOff 2 1 = 1 by decide, show profOff 3 0 = 0 by decide, show profOff 3 1 = 1 by decide,
    show profOff 3 2 = 2 by decide, show nearOff 2 0 = 0 by decide, show nearOff 2 1 = 1 by decide, show nearOff 3 0 = 0 by decide,
    show nearOff 3 1 = 1 by decide, show nearOff 3 2 = -1 by decide, d1, d2, d3, tent_vals.1, tent_vals.2.1, tent_vals.2.2 _ d4,
    tent_vals.2.2 _ (d5 _)] at h1
  have h2 := congrArg Complex.re h1
  norm_num [cis_zero] at h2

/-- C159: a profile given multipole by multipole is cut or filled with zeros on the curved sky, and on the flat sky each mode
whose wave vector has a whole length gets the same value. -/
theorem C159_lprof (lmax : ℕ) (lprof : List ℝ) :
    (lprofCurved lmax lprof).length = lmax + 1 ∧ ∀ l ≤ lmax, (lprofCurved lmax lprof)[l]? = some (lprof.getD l 0) ∧
      ∀ (ny nx : ℕ) (sy sx : ℝ) (ky kx : ℕ), modL ny nx sy sx ky kx = l → lprofFlat ny nx sy sx lprof ky kx = lprof.getD l 0 := by
  refine ⟨?_, fun l hl => ⟨?_, ?_⟩⟩
  · unfold lprofCurved
    split_ifs with h
    · rw [List.length_take]; omega
    · rw [List.length_append, List.length_replicate]; omega
  · unfold lprofCurved
    split_ifs with h
    · rw [List.getElem?_take_of_lt (by omega), List.getD_eq_getElem?_getD, List.getElem?_eq_getElem (by omega)]; rfl
    · rw [List.getElem?_append, List.getD_eq_getElem?_getD]
      split_ifs with h'
      · rw [List.getElem?_eq_getElem h']; rfl
      · rw [List.getElem?_replicate, if_pos (by omega), List.getElem?_eq_none (by omega)]; rfl
  · intro ny nx sy sx ky kx hm
    unfold lprofFlat linInterpConst
    rw [hm, Nat.floor_natCast]
    split_ifs with h
    · ring
    · rw [List.getD_eq_default]
      by_contra hc
      apply h
      refine ⟨by positivity, ?_⟩
      have : l + 1 ≤ lprof.length := by omega
      have : ((l + 1 : ℕ) : ℝ) ≤ lprof.length := by exact_mod_cast this
      push_cast at this
      linarith

example : lprofCurved 4 [1, 2, 3] = [1, 2, 3, 0, 0] := by unfold lprofCurved; norm_num [List.replicate]

/-- C159: the mean of a profile over the modes of the flat sky, and over the (2l+1) modes of each multipole of the curved sky. -/
theorem C159_mean (ny nx : ℕ) (hy : 0 < ny) (hx : 0 < nx) (A : ℝ) (hA : 0 < A) (H : ℕ → ℕ → ℝ) (lmax : ℕ) (G : ℕ → ℝ) :
    meanFlat ny nx A H = (∑ ky ∈ Finset.range ny, ∑ kx ∈ Finset.range nx, H ky kx) / ((ny : ℝ) * nx) ∧
      meanCurved lmax G = (∑ l ∈ Finset.range (lmax + 1), ∑ _m ∈ Finset.range (2 * l + 1), G l) / ((lmax : ℝ) + 1) ^ 2 := by
  constructor
  · unfold meanFlat uSumHprof
    simp only []
    rw [Finset.sum_div]
    simp_rw [← Finset.sum_mul]
    have h1 : (0 : ℝ) < ny := by exact_mod_cast hy
    have h2 : (0 : ℝ) < nx := by exact_mod_cast hx
    have hp := Real.pi_pos
    rw [Finset.sum_div]
    refine Finset.sum_congr rfl fun ky _ => ?_
    field_simp
  · have e : ∀ n : ℕ, ∑ l ∈ Finset.range n, (2 * (l : ℝ) + 1) = (n : ℝ) ^ 2 := by
      intro n
      induction n with
      | zero => simp
      | succ n ih => rw [Finset.sum_range_succ, ih]; push_cast; ring
    unfold meanCurved sumCurved
    rw [e]
    push_cast
    congr 1
    refine Finset.sum_congr rfl fun l _ => ?_
    rw [Finset.sum_const, Finset.card_range, nsmul_eq_mul]
    push_cast
    ring

/-- C159: the power (or cross-power) summed over the modes is 4π times the mean product of the pixels of the maps. -/
theorem C159_parseval (ny nx : ℕ) (hy : 0 < ny) (hx : 0 < nx) (A : ℝ) (hA : 0 < A) (m1 m2 : ℕ → ℕ → ℝ) :
    uSumHprof ny nx A (powspecFlat (uMap2harm ny nx A m1) (uMap2harm ny nx A m2)) =
      4 * Real.pi * ((∑ y ∈ Finset.range ny, ∑ x ∈ Finset.range nx, m1 y x * m2 y x) / ((ny : ℝ) * nx)) := by
  have h := (C92_power ny nx hy hx A hA.le (cplx m1) (cplx m2)).2
  unfold uSumHprof
  simp only []
  simp_rw [← Finset.sum_mul]
  have e : ∑ ky ∈ Finset.range ny, ∑ kx ∈ Finset.range nx, powspecFlat (uMap2harm ny nx A m1) (uMap2harm ny nx A m2) ky kx =
      A * ∑ y ∈ Finset.range ny, ∑ x ∈ Finset.range nx, m1 y x * m2 y x := by
    have hr := congrArg Complex.re h
    rw [Complex.re_ofReal_mul] at hr
    unfold mapInner at hr
    simp only [Complex.re_sum] at hr
    refine hr.trans ?_
    congr 1
    refine Finset.sum_congr rfl fun y _ => Finset.sum_congr rfl fun x _ => ?_
    simp only [cplx, conj_ofReal, ← ofReal_mul, ofReal_re]
  rw [e]
  have h1 : (0 : ℝ) < ny := by exact_mod_cast hy
  have h2 : (0 : ℝ) < nx := by exact_mod_cast hx
  have hp := Real.pi_pos
  field_simp

/-- An example of two maps of 2×3 pixels, as the theorem above assumes. -/
example : uSumHprof 2 3 (1 / 4) (powspecFlat (uMap2harm 2 3 (1 / 4) fun y x => (y : ℝ) + x) (uMap2harm 2 3 (1 / 4) fun _ x => x)) =
    4 * Real.pi * (13 / 6) := by
  rw [C159_parseval 2 3 (by norm_num) (by norm_num) _ (by norm_num)]
  norm_num [Finset.sum_range_succ]

/-! ### Deciding between flat and curved -/

theorem cos_between_ends {a b t : ℝ} (hab : a ≤ b) (ha : -(Real.pi / 2) < a) (hb : b < Real.pi / 2) (h1 : a ≤ t) (h2 : t ≤ b) :
    min (Real.cos a) (Real.cos b) ≤ Real.cos t ∧ (0 < a * b → Real.cos t ≤ max (Real.cos a) (Real.cos b)) := by
  have hp := Real.pi_pos
  constructor
  · rcases le_total 0 t with h | h
    · exact (min_le_right _ _).trans (Real.cos_le_cos_of_nonneg_of_le_pi h (by linarith) h2)
    · refine (min_le_left _ _).trans ?_
      rw [← Real.cos_neg a, ← Real.cos_neg t]
      exact Real.cos_le_cos_of_nonneg_of_le_pi (by linarith) (by linarith) (by linarith)
  · intro hm
    rcases pos_and_pos_or_neg_and_neg_of_mul_pos hm with ⟨p, _⟩ | ⟨_, q⟩
    · exact (Real.cos_le_cos_of_nonneg_of_le_pi p.le (by linarith) h1).trans (le_max_left _ _)
    · refine le_trans ?_ (le_max_right _ _)
      rw [← Real.cos_neg b, ← Real.cos_neg t]
      exact Real.cos_le_cos_of_nonneg_of_le_pi (by linarith) (by linarith) (by linarith)

theorem distortion_comm (a b : ℝ) : estimateDistortion a b = estimateDistortion b a := by
  unfold estimateDistortion
  rw [min_comm, max_comm, mul_comm]

theorem distortion_le {a b : ℝ} (hab : a ≤ b) (ha : -(Real.pi / 2) < a) (hb : b < Real.pi / 2) :
    IsGreatest {d : ℝ | ∃ s t, a ≤ s ∧ s ≤ b ∧ a ≤ t ∧ t ≤ b ∧ d = Real.cos s / Real.cos t - 1} (estimateDistortion a b) := by
  have hca : 0 < Real.cos a := Real.cos_pos_of_mem_Ioo ⟨by linarith, by linarith⟩
  have hcb : 0 < Real.cos b := Real.cos_pos_of_mem_Ioo ⟨by linarith, by linarith⟩
  have hmin : 0 < min (Real.cos a) (Real.cos b) := lt_min hca hcb
  obtain ⟨t, ht1, ht2, ht⟩ : ∃ t, a ≤ t ∧ t ≤ b ∧ min (Real.cos a) (Real.cos b) = Real.cos t := by
    rcases min_choice (Real.cos a) (Real.cos b) with h | h
    · exact ⟨a, le_refl _, hab, h⟩
    · exact ⟨b, hab, le_refl _, h⟩
  constructor
  · unfold estimateDistortion
    simp only []
    split_ifs with hm
    · rcases max_choice (Real.cos a) (Real.cos b) with h | h
      · exact ⟨a, t, le_refl _, hab, ht1, ht2, by rw [h, ht]⟩
      · exact ⟨b, t, hab, le_refl _, ht1, ht2, by rw [h, ht]⟩
    · have h0 : a ≤ 0 ∧ 0 ≤ b := by
        constructor
        · by_contra hc; exact hm (mul_pos (by linarith) (by linarith))
        · by_contra hc; exact hm (mul_pos_of_neg_of_neg (by linarith) (by linarith))
      exact ⟨0, t, h0.1, h0.2, ht1, ht2, by rw [Real.cos_zero, ht]⟩
  · rintro d ⟨s, u, hs1, hs2, hu1, hu2, rfl⟩
    have h1 := (cos_between_ends hab ha hb hu1 hu2).1
    have h2 : Real.cos s ≤ if ¬ (a * b > 0) then 1 else max (Real.cos a) (Real.cos b) := by
      split_ifs with hm
      · exact (cos_between_ends hab ha hb hs1 hs2).2 hm
      · exact Real.cos_le_one s
    have h3 : 0 < Real.cos s := Real.cos_pos_of_mem_Ioo ⟨by linarith, by linarith⟩
    unfold estimateDistortion
    simp only []
    gcongr

/-- C159: the estimated distortion is the largest relative difference of the horizontal scales of two rows of the map. -/
theorem C159_distortion {dec1 dec2 : ℝ} (h1 : |dec1| < Real.pi / 2) (h2 : |dec2| < Real.pi / 2) :
    IsGreatest {d : ℝ | ∃ s ∈ Set.uIcc dec1 dec2, ∃ t ∈ Set.uIcc dec1 dec2, d = Real.cos s / Real.cos t - 1} (estimateDistortion dec1 dec2) := by
  rw [abs_lt] at h1 h2
  have key : ∀ a b : ℝ, a ≤ b → {d : ℝ | ∃ s t, a ≤ s ∧ s ≤ b ∧ a ≤ t ∧ t ≤ b ∧ d = Real.cos s / Real.cos t - 1} =
      {d : ℝ | ∃ s ∈ Set.uIcc a b, ∃ t ∈ Set.uIcc a b, d = Real.cos s / Real.cos t - 1} := by
    intro a b hab
    ext d
    simp only [Set.mem_ofPred_eq, Set.uIcc_of_le hab, Set.mem_Icc]
    constructor
    · rintro ⟨s, t, h1, h2, h3, h4, h5⟩; exact ⟨s, ⟨h1, h2⟩, t, ⟨h3, h4⟩, h5⟩
    · rintro ⟨s, ⟨h1, h2⟩, t, ⟨h3, h4⟩, h5⟩; exact ⟨s, t, h1, h2, h3, h4, h5⟩
  rcases le_total dec1 dec2 with h | h
  · rw [← key _ _ h]; exact distortion_le h h1.1 h2.2
  · rw [Set.uIcc_comm, ← key _ _ h, distortion_comm]; exact distortion_le h h2.1 h1.2

/-- C159: so for maps between the poles the flat sky is chosen exactly when no two rows differ by more than asked. -/
theorem C159_auto {dec1 dec2 md : ℝ} (h1 : |dec1| < Real.pi / 2) (h2 : |dec2| < Real.pi / 2) :
    autoFlat md dec1 dec2 ↔ ∀ s ∈ Set.uIcc dec1 dec2, ∀ t ∈ Set.uIcc dec1 dec2, Real.cos s ≤ (1 + md) * Real.cos t := by
  have hg := C159_distortion h1 h2
  have hpos : ∀ t ∈ Set.uIcc dec1 dec2, 0 < Real.cos t := by
    intro t ht
    rw [abs_lt] at h1 h2
    rw [Set.mem_uIcc] at ht
    exact Real.cos_pos_of_mem_Ioo ⟨by rcases ht with h | h <;> linarith, by rcases ht with h | h <;> linarith⟩
  unfold autoFlat
  constructor
  · intro h s hs t ht
    have := (hg.2 ⟨s, hs, t, ht, rfl⟩).trans h
    have hc := hpos t ht
    rw [sub_le_iff_le_add, div_le_iff₀ hc] at this
    linarith
  · intro h
    obtain ⟨s, hs, t, ht, he⟩ := hg.1
    rw [he, sub_le_iff_le_add, div_le_iff₀ (hpos t ht)]
    have := h s hs t ht
    linarith

example : |(0 : ℝ)| < Real.pi / 2 ∧ |Real.pi / 3| < Real.pi / 2 ∧ estimateDistortion 0 (Real.pi / 3) = 1 := by
  have hp := Real.pi_pos
  refine ⟨by simp [hp], by rw [abs_of_pos (by positivity)]; linarith, ?_⟩
  unfold estimateDistortion
  simp only []
  rw [if_pos (by simp), Real.cos_zero, Real.cos_pi_div_three]
  norm_num

/-- C159: for maps with pixels centred on the poles, such as the usual full-sky geometry, whose corners lie beyond the poles,
the flat sky is chosen whatever distortion is allowed, although the poles have a scale of zero. -/
theorem C159_auto_refuted (md h : ℝ) (hmd : 0 ≤ md) (h0 : 0 < h) (h1 : h < Real.pi / 2) :
    autoFlat md (-(Real.pi / 2 + h)) (Real.pi / 2 + h) ∧
      ∃ s ∈ Set.Icc (-(Real.pi / 2)) (Real.pi / 2), ∃ t ∈ Set.Icc (-(Real.pi / 2)) (Real.pi / 2), ¬ Real.cos s ≤ (1 + md) * Real.cos t := by
  have hp := Real.pi_pos
  constructor
  · unfold autoFlat estimateDistortion
    simp only []
    have hc : Real.cos (Real.pi / 2 + h) < 0 := by
      rw [add_comm, Real.cos_add_pi_div_two]
      have := Real.sin_pos_of_pos_of_lt_pi h0 (by linarith)
      linarith
    rw [if_pos (by have : 0 < (Real.pi / 2 + h) * (Real.pi / 2 + h) := by positivity
                   rw [not_lt]; nlinarith), Real.cos_neg, min_self]
    have := one_div_neg.2 hc
    linarith
  · refine ⟨0, ⟨by linarith, by linarith⟩, Real.pi / 2, ⟨by linarith, le_refl _⟩, ?_⟩
    rw [Real.cos_zero, Real.cos_pi_div_two]
    norm_num

/-- C159: the radius of a beam: the last sample reaching the fraction tol of the first. -/
theorem C159_extent (tol : ℚ) (br : List ℚ) (hne : br ≠ []) (h0 : 0 ≤ br.getD 0 0) (ht : tol ≤ 1) :
    ∃ i, beam2rmax tol br = some i ∧ i < br.length ∧ br.getD 0 0 * tol ≤ br.getD i 0 ∧
      ∀ j, i < j → j < br.length → br.getD j 0 < br.getD 0 0 * tol := by
  have hl : 0 < br.length := List.length_pos_of_ne_nil hne
  unfold beam2rmax
  set L := (List.range br.length).filter fun i => decide (br.getD i 0 ≥ br.getD 0 0 * tol) with hL
  have hmem : 0 ∈ L := by
    rw [hL, List.mem_filter, List.mem_range]
    exact ⟨hl, decide_eq_true (by nlinarith)⟩
  have hLne : L ≠ [] := List.ne_nil_of_mem hmem
  have hlast := List.getLast_mem hLne
  have hs : L.Pairwise (· < ·) := List.Pairwise.filter _ List.pairwise_lt_range
  refine ⟨L.getLast hLne, List.getLast?_eq_some_getLast hLne, ?_, ?_, ?_⟩
  · have := (List.mem_filter.1 hlast).1; exact List.mem_range.1 this
  · have := (List.mem_filter.1 hlast).2; exact of_decide_eq_true this
  · intro j hj hjl
    by_contra hc
    have hjm : j ∈ L := by rw [hL, List.mem_filter, List.mem_range]; exact ⟨hjl, decide_eq_true (not_lt.1 hc)⟩
    have hle : ∀ x ∈ L, x ≤ L.getLast hLne := by
      intro x hx
      have e := List.dropLast_append_getLast hLne
      rw [← e] at hx hs
      rcases List.mem_append.1 hx with h | h
      · exact (List.pairwise_append.1 hs).2.2 x h _ (by simp) |>.le
      · rw [List.mem_singleton] at h; exact h.le
    exact absurd (hle j hjm) (not_le.2 hj)

/-- A beam with a sidelobe: the radius is that of the sidelobe, and so is the resolution. -/
example : beam2rmax (1 / 100) [4, 2, 0, 1, 0] = some 3 ∧ beam2res [4, 2, 0, 1, 0] [0, 1, 2, 3, 4] = some (2 / 3) := by decide +kernel

/-! ### Random draws -/

/-- C159: the expected (cross) power of the map drawn for a profile, measured with the transforms of the same object, is the
profile divided by the pixel area. -/
theorem C159_hrand {Ω : Type} [MeasurableSpace Ω] (μ : Measure Ω) {n : ℕ} (ny nx : ℕ) (A : ℝ) (hA : 0 < A)
    (C : ℕ → ℕ → Matrix (Fin n) (Fin n) ℝ) (E : ℕ → ℕ → Fin n → ℝ) (V : ℕ → ℕ → Matrix (Fin n) (Fin n) ℝ) (rlim alim : ℝ)
    (hE : ∀ ky kx, ky < ny → kx < nx → IsEigh (A⁻¹ • C ky kx) (E ky kx) (V ky kx) ∧ ∀ i, 0 ≤ E ky kx i)
    (g : Bool → Fin n → ℕ → ℕ → Ω → ℝ) (hg : WhiteNoise μ ny nx g) (c c' : Fin n) (ky kx : ℕ) (hy : ky < ny) (hx : kx < nx) :
    let h := fun ω c => uMap2harm ny nx A (uHarm2map ny nx A (hrandFlat E V rlim alim (fun d y x => g false d y x ω) (fun d y x => g true d y x ω) c)) ky kx
    ∫ ω, h ω c * conj (h ω c') ∂μ = ((A⁻¹ * ((C ky kx c c' + C (negK ny ky) (negK nx kx) c c') / 2) : ℝ) : ℂ) := by
  intro h
  have hn : (0 : ℝ) < (ny : ℝ) * nx := by
    have h1 : (0 : ℝ) < ny := by exact_mod_cast (by omega : 0 < ny)
    have h2 : (0 : ℝ) < nx := by exact_mod_cast (by omega : 0 < nx)
    positivity
  have hs : Real.sqrt A ≠ 0 := (Real.sqrt_pos.2 hA).ne'
  have e : ∀ ω c, h ω c = enmapFft .unit false ny nx A
      (fun y x => ((drawMap ny nx (fun ky kx => eigpow (E ky kx) (V ky kx) (1 / 2) rlim alim) g ω c y x : ℝ) : ℂ)) ky kx := by
    intro ω c
    have e1 : ∀ y x, uHarm2map ny nx A (hrandFlat E V rlim alim (fun d y x => g false d y x ω) (fun d y x => g true d y x ω) c) y x =
        drawMap ny nx (fun ky kx => eigpow (E ky kx) (V ky kx) (1 / 2) rlim alim) g ω c y x / Real.sqrt A := by
      intro y x
      unfold uHarm2map drawMap randMapScalar hrandFlat enmapIfft
      simp only [ifftNorm, ne_eq, reduceCtorEq, not_false_eq_true, if_true, Bool.false_eq_true, if_false]
      rw [Complex.re_mul_ofReal, Complex.re_mul_ofReal]
      ring
    simp only [h]
    unfold uMap2harm enmapFft
    have e2 : fft2 ny nx (cplx (uHarm2map ny nx A (hrandFlat E V rlim alim (fun d y x => g false d y x ω) (fun d y x => g true d y x ω) c))) ky kx =
        fft2 ny nx (fun y x => ((drawMap ny nx (fun ky kx => eigpow (E ky kx) (V ky kx) (1 / 2) rlim alim) g ω c y x : ℝ) : ℂ)) ky kx *
          ((1 / Real.sqrt A : ℝ) : ℂ) := by
      rw [← fft2_mul]
      refine fft2_congr (fun y x _ _ => ?_) ky kx
      simp only [cplx, e1]
      push_cast
      ring
    rw [e2, mul_assoc, ← ofReal_mul]
    congr 2
    simp only [fftNorm, ne_eq, reduceCtorEq, not_false_eq_true, if_true, Bool.false_eq_true, if_false]
    field_simp
  simp_rw [e]
  rw [drawPower μ ny nx _ g hg _ _ c c' ky kx hy hx]
  have h1 := hE ky kx hy hx
  have h2 := hE (negK ny ky) (negK nx kx) (negK_lt hy) (negK_lt hx)
  rw [C132_symm, C132_symm, C132_sqrt h1.1 rlim alim h1.2, C132_sqrt h2.1 rlim alim h2.2]
  congr 1
  have hf : fftNorm .unit false ny nx A ^ 2 * ((ny : ℝ) * nx) = 1 := by
    simp only [fftNorm, ne_eq, reduceCtorEq, not_false_eq_true, if_true, Bool.false_eq_true, if_false]
    rw [div_pow, Real.sq_sqrt hn.le]
    generalize (ny : ℝ) * nx = t at hn ⊢
    field_simp
  rw [hf]
  simp only [Matrix.smul_apply, smul_eq_mul]
  ring

/-- The claim that the map drawn for a profile of one component has the power of the profile. -/
def C159_hrand_claim (ny nx : ℕ) (A : ℝ) (H : ℕ → ℕ → ℝ) : Prop :=
  ∀ (Ω : Type) (_ : MeasurableSpace Ω) (μ : Measure Ω) (g : Bool → Fin 1 → ℕ → ℕ → Ω → ℝ), WhiteNoise μ ny nx g →
    ∀ (E : ℕ → ℕ → Fin 1 → ℝ) (V : ℕ → ℕ → Matrix (Fin 1) (Fin 1) ℝ) (rlim alim : ℝ),
    (∀ ky kx, ky < ny → kx < nx → IsEigh (A⁻¹ • (fun _ _ => H ky kx : Matrix (Fin 1) (Fin 1) ℝ)) (E ky kx) (V ky kx) ∧ ∀ i, 0 ≤ E ky kx i) →
    ∀ ky kx, ky < ny → kx < nx →
    let h := fun ω => uMap2harm ny nx A (uHarm2map ny nx A (hrandFlat E V rlim alim (fun d y x => g false d y x ω) (fun d y x => g true d y x ω) 0)) ky kx
    ∫ ω, h ω * conj (h ω) ∂μ = (((H ky kx + H (negK ny ky) (negK nx kx)) / 2 : ℝ) : ℂ)

/-- C159: it has not, unless the pixels have area 1: for every size of map and white noise of any level. -/
theorem C159_hrand_refuted (ny nx : ℕ) (hy : 0 < ny) (hx : 0 < nx) (A P : ℝ) (hA : 0 < A) (hA1 : A ≠ 1) (hP : 0 < P) :
    ¬ C159_hrand_claim ny nx A (fun _ _ => P) := by
  intro h
  obtain ⟨Ω, mΩ, μ, g, _, hg⟩ := whiteNoise_exists 1 ny nx (by omega)
  have hE : ∀ ky kx : ℕ, ky < ny → kx < nx → IsEigh (A⁻¹ • (fun _ _ => P : Matrix (Fin 1) (Fin 1) ℝ)) (fun _ => A⁻¹ * P) 1 ∧
      ∀ i : Fin 1, 0 ≤ (fun _ => A⁻¹ * P : Fin 1 → ℝ) i := by
    intro ky kx _ _
    refine ⟨?_, fun _ => by positivity⟩
    refine ⟨by simp, by simp, ?_⟩
    ext i j
    rw [Subsingleton.elim i 0, Subsingleton.elim j 0]
    simp
  have h1 := h Ω mΩ μ g hg (fun _ _ _ => A⁻¹ * P) (fun _ _ => 1) 0 0 hE 0 0 hy hx
  have h2 := C159_hrand μ ny nx A hA (fun _ _ => (fun _ _ => P : Matrix (Fin 1) (Fin 1) ℝ)) (fun _ _ _ => A⁻¹ * P) (fun _ _ => 1) 0 0 hE g hg 0 0 0 0 hy hx
  simp only [] at h1 h2
  rw [h2] at h1
  have h3 : A⁻¹ * ((P + P) / 2) = (P + P) / 2 := by exact_mod_cast h1
  have h4 : A⁻¹ = 1 := by
    have : (P + P) / 2 ≠ 0 := by positivity
    exact mul_right_cancel₀ this (h3.trans (one_mul _).symm)
  exact hA1 (inv_eq_one.1 h4)

example : (0 : ℕ) < 3 ∧ (0 : ℝ) < 1 / 4 ∧ (1 / 4 : ℝ) ≠ 1 := by norm_num

/-- C159: for a profile given as an array of modes only, the squared factors of the modes are not the profile over the pixel
area, for any array with two or more rows and values above zero: the array itself was taken for a matrix. -/
theorem C159_scalar_refuted {n : ℕ} (hn : 2 ≤ n) (A : ℝ) (hA : 0 < A) (H : Matrix (Fin n) (Fin n) ℝ) (hH : ∀ i j, 0 < H i j)
    (E : Fin n → ℝ) (V : Matrix (Fin n) (Fin n) ℝ) (rlim alim : ℝ) (hE : IsEigh (lowerSym (A⁻¹ • H)) E V) (h0 : ∀ i, 0 ≤ E i) :
    ¬ ∀ ky kx, hrandFactor2 E V rlim alim ky kx ^ 2 = A⁻¹ * H ky kx := by
  intro h
  have h1 := C132_sqrt hE rlim alim h0
  have h2 := congrFun (congrFun h1 ⟨0, by omega⟩) ⟨0, by omega⟩
  rw [Matrix.mul_apply] at h2
  have h3 : ∀ j, eigpow E V (1 / 2) rlim alim j ⟨0, by omega⟩ = eigpow E V (1 / 2) rlim alim ⟨0, by omega⟩ j := by
    intro j
    have := C132_symm E V (1 / 2) rlim alim
    exact congrFun (congrFun this ⟨0, by omega⟩) j
  have h4 : ∑ j, A⁻¹ * H ⟨0, by omega⟩ j = A⁻¹ * H ⟨0, by omega⟩ ⟨0, by omega⟩ := by
    have e : lowerSym (A⁻¹ • H) ⟨0, by omega⟩ ⟨0, by omega⟩ = A⁻¹ * H ⟨0, by omega⟩ ⟨0, by omega⟩ := by
      unfold lowerSym; rw [if_pos (le_refl _)]; rfl
    rw [e] at h2
    rw [← h2]
    refine Finset.sum_congr rfl fun j _ => ?_
    rw [h3, ← h, pow_two]; rfl
  have hpos : ∀ j, 0 < A⁻¹ * H ⟨0, by omega⟩ j := fun j => mul_pos (inv_pos.2 hA) (hH _ j)
  have h5 : A⁻¹ * H ⟨0, by omega⟩ ⟨0, by omega⟩ + A⁻¹ * H ⟨0, by omega⟩ ⟨1, by omega⟩ ≤ ∑ j, A⁻¹ * H ⟨0, by omega⟩ j := by
    rw [← Finset.sum_pair (f := fun j => A⁻¹ * H ⟨0, by omega⟩ j) (a := (⟨0, by omega⟩ : Fin n)) (b := ⟨1, by omega⟩) (by simp)]
    exact Finset.sum_le_sum_of_subset_of_nonneg (Finset.subset_univ _) fun j _ _ => (hpos j).le
  have := hpos ⟨1, by omega⟩
  linarith

/-- Two by two modes of a white spectrum, as the theorem assumes. -/
example : ∃ (E : Fin 2 → ℝ) (V : Matrix (Fin 2) (Fin 2) ℝ), IsEigh (lowerSym ((1 : ℝ)⁻¹ • (fun _ _ => 1 : Matrix (Fin 2) (Fin 2) ℝ))) E V ∧ ∀ i, 0 ≤ E i := by
  have hs : Real.sqrt 2 * Real.sqrt 2 = 2 := Real.mul_self_sqrt (by norm_num)
  have h0 : Real.sqrt 2 ≠ 0 := by positivity
  have h4 : (Real.sqrt 2)⁻¹ * (Real.sqrt 2)⁻¹ = 1 / 2 := by rw [← mul_inv, hs]; norm_num
  refine ⟨![0, 2], !![1 / Real.sqrt 2, 1 / Real.sqrt 2; -(1 / Real.sqrt 2), 1 / Real.sqrt 2], ?_, ?_⟩
  · constructor
    · ext i j; fin_cases i <;> fin_cases j <;> simp [Matrix.mul_apply, Fin.sum_univ_two, Matrix.transpose_apply] <;> linarith [h4]
    · ext i j; fin_cases i <;> fin_cases j <;> simp [Matrix.mul_apply, Fin.sum_univ_two, Matrix.transpose_apply] <;> linarith [h4]
    · ext i j
      fin_cases i <;> fin_cases j <;> simp [lowerSym, Matrix.mul_apply, Fin.sum_univ_two, Matrix.transpose_apply] <;> linarith [h4]
  · intro i; fin_cases i <;> simp

end Pixell
