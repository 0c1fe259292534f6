import Verif.Model.Resample
import Verif.Lemmas.FlatFourier
import Verif.Props.Fourier
import Mathlib.Tactic.FieldSimp
import Mathlib.Algebra.BigOperators.Intervals

/-
C181: resampling of arrays with pixell/resample.py and fft.resample. The frequencies that are kept are kept exactly; which they
are depends on the parity of the shorter length. Shapes follow the arguments for the last axes only.
-/
namespace Pixell
open Complex

/-! ### Values -/

theorem dftLine_length (a : List ℂ) : (dftLine a).length = a.length := by simp [dftLine]

theorem idftLine_length (a : List ℂ) : (idftLine a).length = a.length := by simp [idftLine]

theorem dftLine_get (a : List ℂ) (k : ℕ) (hk : k < a.length) :
    (dftLine a)[k]'(by rw [dftLine_length]; exact hk) = dftRaw a.length (fun i => a.getD i 0) k := by simp [dftLine]

/-- The coefficients after the reshaping. -/
theorem resampleAxis_slots (a : List ℂ) (n h e : ℕ) (hm : 0 < a.length) (hn : 0 < n) (hh : h = min a.length n / 2)
    (he : e = min a.length n - h) :
    (resampleAxis (dftLine a) n).length = n ∧ ∀ k < n, (resampleAxis (dftLine a) n).getD k 0 =
      if k < h then dftRaw a.length (fun i => a.getD i 0) k
      else if n - e ≤ k then dftRaw a.length (fun i => a.getD i 0) (k + a.length - n) else 0 := by
  obtain ⟨r, g1, g2, g3⟩ := resampleFftOut_slots (dftLine a) (List.replicate n 0) (fun _ b => b) id (by rw [dftLine_length]; exact hm)
    (by simpa using hn)
  have h1 := C44_axis (dftLine a) n (by rw [dftLine_length]; exact hm) hn
  unfold resampleFft at h1
  rw [g1] at h1
  injection h1 with h1
  rw [← h1]
  simp only [List.length_replicate, dftLine_length] at g2 g3
  refine ⟨g2, fun k hk => ?_⟩
  have h2 := g3 k hk
  subst he hh
  rw [List.getD_eq_getElem?_getD, h2]
  by_cases c1 : k < min a.length n / 2
  · rw [dif_pos c1, if_pos c1]
    simp only [id, Option.getD_some]
    rw [dftLine_get _ _ (by omega)]
  · rw [dif_neg c1, if_neg c1]
    by_cases c2 : n - (min a.length n - min a.length n / 2) ≤ k
    · rw [dif_pos c2, if_pos c2]
      simp only [id, Option.getD_some]
      rw [dftLine_get _ _ (by omega)]
    · rw [dif_neg c2, if_neg c2]
      simp

/-- The resampled line as a sum over the coefficients that are kept. -/
theorem resampleLine_sum (a : List ℂ) (n h e : ℕ) (hm : 0 < a.length) (hn : 0 < n) (hh : h = min a.length n / 2)
    (he : e = min a.length n - h) (j : ℕ) (hj : j < n) :
    (idftLine (resampleAxis (dftLine a) n)).getD j 0 =
      ∑ k ∈ Finset.range h, dftRaw a.length (fun i => a.getD i 0) k * cis ((j : ℝ) * k / n) +
      ∑ i ∈ Finset.range e, dftRaw a.length (fun i => a.getD i 0) (a.length - e + i) * cis ((j : ℝ) * ((n - e + i : ℕ) : ℝ) / n) := by
  obtain ⟨hl, hs⟩ := resampleAxis_slots a n h e hm hn hh he
  set fd := resampleAxis (dftLine a) n
  have h1 : (idftLine fd).getD j 0 = ∑ k ∈ Finset.range n, fd.getD k 0 * cis ((j : ℝ) * k / n) := by
    rw [List.getD_eq_getElem?_getD, List.getElem?_eq_getElem (by rw [idftLine_length, hl]; exact hj)]
    simp [idftLine, idftRaw, hl]
  rw [h1]
  have hsplit : n = h + ((n - h - e) + e) := by omega
  rw [show Finset.range n = Finset.range (h + ((n - h - e) + e)) from congrArg Finset.range hsplit,
    Finset.sum_range_add, Finset.sum_range_add]
  congr 1
  · refine Finset.sum_congr rfl fun k hk => ?_
    have hk := Finset.mem_range.1 hk
    rw [hs k (by omega), if_pos hk]
  · have hz : ∑ x ∈ Finset.range (n - h - e), fd.getD (h + x) 0 * cis ((j : ℝ) * ((h + x : ℕ) : ℝ) / n) = 0 := by
      refine Finset.sum_eq_zero fun x hx => ?_
      have hx := Finset.mem_range.1 hx
      rw [hs (h + x) (by omega), if_neg (by omega), if_neg (by omega), zero_mul]
    rw [hz, zero_add]
    refine Finset.sum_congr rfl fun i hi => ?_
    have hi := Finset.mem_range.1 hi
    have e1 : h + (n - h - e + i) = n - e + i := by omega
    rw [e1, hs (n - e + i) (by omega), if_neg (by omega), if_pos (by omega),
      show n - e + i + a.length - n = a.length - e + i by omega]

theorem resampleLine_get (a : List ℂ) (n h e : ℕ) (hm : 0 < a.length) (hn : 0 < n) (hne : n ≠ a.length) (hh : h = min a.length n / 2)
    (he : e = min a.length n - h) (j : ℕ) (hj : j < n) :
    (resampleLine n a).getD j 0 =
      (∑ k ∈ Finset.range h, dftRaw a.length (fun i => a.getD i 0) k * cis ((j : ℝ) * k / n) +
      ∑ i ∈ Finset.range e, dftRaw a.length (fun i => a.getD i 0) (a.length - e + i) * cis ((j : ℝ) * ((n - e + i : ℕ) : ℝ) / n)) / a.length := by
  rw [← resampleLine_sum a n h e hm hn hh he j hj]
  unfold resampleLine
  rw [if_neg hne]
  have hl := (resampleAxis_slots a n h e hm hn hh he).1
  have hn' : (n : ℂ) ≠ 0 := by exact_mod_cast hn.ne'
  rw [List.getD_eq_getElem?_getD, List.getD_eq_getElem?_getD, List.getElem?_map,
    List.getElem?_eq_getElem (by rw [idftLine_length, hl]; exact hj)]
  simp only [Option.map_some, Option.getD_some]
  field_simp

theorem resampleLine_length (a : List ℂ) (n : ℕ) (hm : 0 < a.length) (hn : 0 < n) : (resampleLine n a).length = n := by
  unfold resampleLine
  split
  · omega
  · rw [List.length_map, idftLine_length]
    exact (resampleAxis_slots a n _ _ hm hn rfl rfl).1

/-- **C181_samples.** Resampling to a multiple of the length gives the samples back, with the new ones in between. -/
theorem C181_samples (a : List ℂ) (q : ℕ) (hq : 0 < q) (j : ℕ) (hj : j < a.length) :
    (resampleLine (q * a.length) a).getD (q * j) 0 = a.getD j 0 := by
  have hm : 0 < a.length := by omega
  by_cases h1 : q = 1
  · subst h1; unfold resampleLine; simp
  have hq2 : 2 ≤ q := by omega
  have hlt : 2 * a.length ≤ q * a.length := Nat.mul_le_mul_right _ hq2
  obtain ⟨h, hh⟩ : ∃ h, h = min a.length (q * a.length) / 2 := ⟨_, rfl⟩
  obtain ⟨e, he⟩ : ∃ e, e = min a.length (q * a.length) - h := ⟨_, rfl⟩
  have hmin : min a.length (q * a.length) = a.length := by omega
  rw [resampleLine_get a (q * a.length) h e hm (by omega) (by omega) hh he (q * j) (Nat.mul_lt_mul_of_pos_left hj hq)]
  rw [hmin] at hh he
  set m := a.length
  have hm' : (m : ℝ) ≠ 0 := by exact_mod_cast hm.ne'
  have hq' : (q : ℝ) ≠ 0 := by exact_mod_cast hq.ne'
  have e1 : ∑ k ∈ Finset.range h, dftRaw m (fun i => a.getD i 0) k * cis (((q * j : ℕ) : ℝ) * k / ((q * m : ℕ) : ℝ)) =
      ∑ k ∈ Finset.range h, dftRaw m (fun i => a.getD i 0) k * cis ((j : ℝ) * k / m) := by
    refine Finset.sum_congr rfl fun k _ => ?_
    congr 2; push_cast; field_simp
  have e2 : ∑ i ∈ Finset.range e, dftRaw m (fun i => a.getD i 0) (m - e + i) * cis (((q * j : ℕ) : ℝ) * ((q * m - e + i : ℕ) : ℝ) / ((q * m : ℕ) : ℝ)) =
      ∑ i ∈ Finset.range e, dftRaw m (fun i => a.getD i 0) (h + i) * cis ((j : ℝ) * ((h + i : ℕ) : ℝ) / m) := by
    refine Finset.sum_congr rfl fun i _ => ?_
    rw [show m - e + i = h + i by omega]
    congr 1
    have e3 : q * m - e + i = (h + i) + (q - 1) * m := by
      have : q * m = (q - 1) * m + m := by rw [← Nat.succ_mul]; congr 1; omega
      omega
    have e4 : ((q * j : ℕ) : ℝ) * ((q * m - e + i : ℕ) : ℝ) / ((q * m : ℕ) : ℝ) = (j : ℝ) * ((h + i : ℕ) : ℝ) / m + ((j * (q - 1 : ℕ) : ℤ) : ℝ) := by
      rw [e3]; push_cast; field_simp
    rw [e4, cis_add_int]
  rw [e1, e2, ← Finset.sum_range_add (fun k => dftRaw m (fun i => a.getD i 0) k * cis ((j : ℝ) * k / m)),
    show h + e = m by omega]
  have h3 := idft_dft m (fun i => a.getD i 0) j hj
  unfold idftRaw at h3
  rw [h3]
  have hmc : (m : ℂ) ≠ 0 := by exact_mod_cast hm.ne'
  field_simp

/-- A sum of modes: frequencies 0 … h-1 with the coefficients `p`, and -1 … -e with the coefficients `r`, over `m` samples. -/
noncomputable def trigSignal (h e m : ℕ) (p r : ℕ → ℂ) (t : ℝ) : ℂ :=
  ∑ k ∈ Finset.range h, p k * cis ((k : ℝ) * t / m) + ∑ i ∈ Finset.range e, r i * cis (-(((i + 1 : ℕ) : ℝ) * t / m))

/-- **C181_exact.** Let c be the smaller of the two lengths. A signal with frequencies from -(c-⌊c/2⌋) to ⌊c/2⌋-1 is resampled
exactly: sample j of the result is the signal at position j·m/n. -/
theorem C181_exact (m n h e : ℕ) (hm : 0 < m) (hn : 0 < n) (hh : h = min m n / 2) (he : e = min m n - h) (p r : ℕ → ℂ) (j : ℕ) (hj : j < n) :
    (resampleLine n ((List.range m).map fun i : ℕ => trigSignal h e m p r i)).getD j 0 = trigSignal h e m p r ((j : ℝ) * m / n) := by
  have hm' : (m : ℝ) ≠ 0 := by exact_mod_cast hm.ne'
  have hn' : (n : ℝ) ≠ 0 := by exact_mod_cast hn.ne'
  have hmc : (m : ℂ) ≠ 0 := by exact_mod_cast hm.ne'
  set a := (List.range m).map fun i : ℕ => trigSignal h e m p r i with ha
  have hl : a.length = m := by simp [ha]
  have hget : ∀ i < m, a.getD i 0 = trigSignal h e m p r i := by
    intro i hi
    rw [List.getD_eq_getElem?_getD, List.getElem?_eq_getElem (by rw [hl]; exact hi)]
    simp [ha]
  by_cases hne : n = m
  · subst hne
    unfold resampleLine
    rw [if_pos hl.symm, hget j hj]
    congr 1; field_simp
  have hdft : ∀ k, dftRaw m (fun i => a.getD i 0) k =
      ∑ k' ∈ Finset.range h, p k' * (if (m : ℤ) ∣ (k' : ℤ) - k then (m : ℂ) else 0) +
      ∑ i ∈ Finset.range e, r i * (if (m : ℤ) ∣ -((i : ℤ) + 1) - k then (m : ℂ) else 0) := by
    intro k
    unfold dftRaw
    have e1 : ∀ q ∈ Finset.range m, a.getD q 0 * cis (-((q : ℝ) * k / m)) =
        ∑ k' ∈ Finset.range h, p k' * cis ((q : ℝ) * ((((k' : ℤ) - k : ℤ) : ℝ) / m)) +
        ∑ i ∈ Finset.range e, r i * cis ((q : ℝ) * (((-((i : ℤ) + 1) - k : ℤ) : ℝ) / m)) := by
      intro q hq
      rw [hget q (Finset.mem_range.1 hq)]
      unfold trigSignal
      rw [add_mul, Finset.sum_mul, Finset.sum_mul]
      congr 1
      · refine Finset.sum_congr rfl fun k' _ => ?_
        rw [mul_assoc, ← cis_add]; congr 2; push_cast; ring
      · refine Finset.sum_congr rfl fun i _ => ?_
        rw [mul_assoc, ← cis_add]; congr 2; push_cast; ring
    rw [Finset.sum_congr rfl e1, Finset.sum_add_distrib, Finset.sum_comm, Finset.sum_comm (t := Finset.range e)]
    simp_rw [← Finset.mul_sum]
    congr 1
    · refine Finset.sum_congr rfl fun k' _ => ?_
      rw [cis_sum m hm]
    · refine Finset.sum_congr rfl fun i _ => ?_
      rw [cis_sum m hm]
  have small : ∀ x : ℤ, -(m : ℤ) < x → x < m → ((m : ℤ) ∣ x ↔ x = 0) := by
    intro x h1 h2
    constructor
    · intro h3; exact Int.eq_zero_of_abs_lt_dvd h3 (abs_lt.2 ⟨h1, h2⟩)
    · rintro rfl; exact dvd_zero _
  have hlow : ∀ k < h, dftRaw m (fun i => a.getD i 0) k = m * p k := by
    intro k hk
    rw [hdft, Finset.sum_eq_single k, if_pos (by simp), Finset.sum_eq_zero, add_zero, mul_comm]
    · intro i hi
      have hi := Finset.mem_range.1 hi
      rw [if_neg, mul_zero]
      rw [small _ (by omega) (by omega)]; omega
    · intro k' hk' hne'
      have hk' := Finset.mem_range.1 hk'
      rw [if_neg, mul_zero]
      rw [small _ (by omega) (by omega)]; omega
    · intro hc; exact absurd (Finset.mem_range.2 hk) hc
  have hhigh : ∀ i < e, dftRaw m (fun i => a.getD i 0) (m - e + i) = m * r (e - 1 - i) := by
    intro i hi
    rw [hdft, Finset.sum_eq_zero, zero_add, Finset.sum_eq_single (e - 1 - i), if_pos, mul_comm]
    · exact ⟨-1, by omega⟩
    · intro i' hi' hne'
      have hi' := Finset.mem_range.1 hi'
      rw [if_neg, mul_zero]
      intro hd
      have hd2 : (m : ℤ) ∣ -((i' : ℤ) + 1) - ((m - e + i : ℕ) : ℤ) + m := Dvd.dvd.add hd (dvd_refl _)
      rw [small _ (by omega) (by omega)] at hd2
      omega
    · intro hc; exact absurd (Finset.mem_range.2 (by omega)) hc
    · intro k' hk'
      have hk' := Finset.mem_range.1 hk'
      rw [if_neg, mul_zero]
      rw [small _ (by omega) (by omega)]; omega
  have hlc : (a.length : ℂ) = m := by rw [hl]
  rw [resampleLine_get a n h e (by omega) hn (by omega) (by rw [hl]; exact hh) (by rw [hl]; exact he) j hj]
  simp only [hl]
  have s1 : ∑ k ∈ Finset.range h, dftRaw m (fun i => a.getD i 0) k * cis ((j : ℝ) * k / n) =
      ∑ k ∈ Finset.range h, m * p k * cis ((j : ℝ) * k / n) :=
    Finset.sum_congr rfl fun k hk => by rw [hlow k (Finset.mem_range.1 hk)]
  have s2 : ∑ i ∈ Finset.range e, dftRaw m (fun i => a.getD i 0) (m - e + i) * cis ((j : ℝ) * ((n - e + i : ℕ) : ℝ) / n) =
      ∑ i ∈ Finset.range e, m * r (e - 1 - i) * cis ((j : ℝ) * ((n - e + i : ℕ) : ℝ) / n) :=
    Finset.sum_congr rfl fun i hi => by rw [hhigh i (Finset.mem_range.1 hi)]
  rw [s1, s2]
  unfold trigSignal
  rw [div_eq_iff hmc, add_mul, Finset.sum_mul, Finset.sum_mul]
  congr 1
  · refine Finset.sum_congr rfl fun k _ => ?_
    have : (k : ℝ) * ((j : ℝ) * m / n) / m = (j : ℝ) * k / n := by field_simp
    rw [this]; ring
  · rw [← Finset.sum_range_reflect]
    refine Finset.sum_congr rfl fun i hi => ?_
    have hi := Finset.mem_range.1 hi
    rw [show e - 1 - (e - 1 - i) = i by omega]
    have e1 : (j : ℝ) * ((n - e + (e - 1 - i) : ℕ) : ℝ) / n = -(((i + 1 : ℕ) : ℝ) * ((j : ℝ) * m / n) / m) + ((j : ℤ) : ℝ) := by
      have h2 : ((n - e + (e - 1 - i) : ℕ) : ℝ) = (n : ℝ) - ((i + 1 : ℕ) : ℝ) := by
        have h3 : n - e + (e - 1 - i) + (i + 1) = n := by omega
        rw [eq_sub_iff_add_eq]; exact_mod_cast h3
      rw [h2]; push_cast; field_simp; ring
    rw [e1, cis_add_int]; ring

/-- **C181_constant_partial.** A constant signal stays constant if both lengths are at least two. What is missing: length
one, see `C181_one_refuted`. -/
theorem C181_constant_partial (m n : ℕ) (hm : 2 ≤ m) (hn : 2 ≤ n) (v : ℂ) (j : ℕ) (hj : j < n) :
    (resampleLine n (List.replicate m v)).getD j 0 = v := by
  have h := C181_exact m n _ _ (by omega) (by omega) rfl rfl (fun k => if k = 0 then v else 0) (fun _ => 0) j hj
  have e : ∀ t, trigSignal (min m n / 2) (min m n - min m n / 2) m (fun k => if k = 0 then v else 0) (fun _ => 0) t = v := by
    intro t
    unfold trigSignal
    simp only [zero_mul, Finset.sum_const_zero, add_zero]
    rw [Finset.sum_eq_single 0]
    · simp [cis_zero]
    · intro k _ hk; rw [if_neg hk, zero_mul]
    · intro hc; exact absurd (Finset.mem_range.2 (by omega)) hc
  simp only [e] at h
  have e3 : List.replicate m v = (List.range m).map fun _ => v := by apply List.ext_getElem <;> simp
  rw [e3]; exact h

theorem resampleAxis_map (l : List ℂ) (c : ℂ) (n : ℕ) : resampleAxis (l.map (· * c)) n = (resampleAxis l n).map (· * c) := by
  unfold resampleAxis
  simp only [List.length_map]
  split
  · simp [List.map_take, List.map_drop]
  · split
    · simp [List.map_take, List.map_drop]
    · rfl

theorem getD_map (l : List ℂ) (c : ℂ) (k : ℕ) : (l.map (· * c)).getD k 0 = l.getD k 0 * c := by
  rw [List.getD_eq_getElem?_getD, List.getD_eq_getElem?_getD, List.getElem?_map]
  cases l[k]? <;> simp

theorem idftLine_map (l : List ℂ) (c : ℂ) : idftLine (l.map (· * c)) = (idftLine l).map (· * c) := by
  unfold idftLine
  rw [List.length_map, List.map_map]
  apply List.map_congr_left
  intro j _
  simp only [getD_map, Function.comp_apply]
  exact idft_mul _ _ _ _

theorem dftLine_map (l : List ℂ) (c : ℂ) : dftLine (l.map (· * c)) = (dftLine l).map (· * c) := by
  unfold dftLine
  rw [List.length_map, List.map_map]
  apply List.map_congr_left
  intro j _
  simp only [getD_map, Function.comp_apply]
  exact dft_mul _ _ _ _

theorem getD_range_map (n : ℕ) (f : ℕ → ℂ) (k : ℕ) (hk : k < n) : ((List.range n).map f).getD k 0 = f k := by
  rw [List.getD_eq_getElem?_getD, List.getElem?_eq_getElem (by simpa using hk)]
  simp

theorem dftLine_idftLine (l : List ℂ) : dftLine (idftLine l) = l.map (· * (l.length : ℂ)) := by
  apply List.ext_getElem
  · simp [dftLine_length, idftLine_length]
  · intro k h1 h2
    have hk : k < l.length := by simpa using h2
    rw [dftLine_get _ _ (by rw [idftLine_length]; exact hk), idftLine_length]
    have ec : dftRaw l.length (fun i => (idftLine l).getD i 0) k = dftRaw l.length (idftRaw l.length fun k => l.getD k 0) k := by
      unfold dftRaw
      refine Finset.sum_congr rfl fun q hq => ?_
      beta_reduce
      rw [show (idftLine l).getD q 0 = idftRaw l.length (fun k => l.getD k 0) q from getD_range_map _ _ q (Finset.mem_range.1 hq)]
    rw [ec, dft_idft _ _ _ hk]
    rw [List.getElem_map, List.getD_eq_getElem?_getD, List.getElem?_eq_getElem hk, Option.getD_some, mul_comm]

theorem idftLine_dftLine (l : List ℂ) : idftLine (dftLine l) = l.map (· * (l.length : ℂ)) := by
  apply List.ext_getElem
  · simp [dftLine_length, idftLine_length]
  · intro k h1 h2
    have hk : k < l.length := by simpa using h2
    have e0 : (idftLine (dftLine l))[k] = idftRaw l.length (fun q => (dftLine l).getD q 0) k := by simp [idftLine, dftLine_length]
    have ec : idftRaw l.length (fun i => (dftLine l).getD i 0) k = idftRaw l.length (dftRaw l.length fun k => l.getD k 0) k := by
      unfold idftRaw
      refine Finset.sum_congr rfl fun q hq => ?_
      beta_reduce
      rw [show (dftLine l).getD q 0 = dftRaw l.length (fun k => l.getD k 0) q from getD_range_map _ _ q (Finset.mem_range.1 hq)]
    rw [e0, ec, idft_dft _ _ _ hk]
    rw [List.getElem_map, List.getD_eq_getElem?_getD, List.getElem?_eq_getElem hk, Option.getD_some, mul_comm]

theorem resampleLine_eq (n : ℕ) (a : List ℂ) (hne : n ≠ a.length) (hn : 0 < n) :
    resampleLine n a = (idftLine (resampleAxis (dftLine a) n)).map (· * (1 / (a.length : ℂ))) := by
  unfold resampleLine
  rw [if_neg hne]
  apply List.map_congr_left
  intro v _
  have hn' : (n : ℂ) ≠ 0 := by exact_mod_cast hn.ne'
  field_simp

theorem map_one_mul (l : List ℂ) (c : ℂ) (h : c = 1) : l.map (· * c) = l := by subst h; simp

/-- **C181_roundtrip.** A complex array resampled to more samples and back is unchanged, for all lengths. -/
theorem C181_roundtrip (a : List ℂ) (n : ℕ) (hm : 0 < a.length) (hn : a.length ≤ n) : resampleLine a.length (resampleLine n a) = a := by
  by_cases hne : n = a.length
  · subst hne; unfold resampleLine; simp
  have hmc : (a.length : ℂ) ≠ 0 := by exact_mod_cast hm.ne'
  have hnc : (n : ℂ) ≠ 0 := by exact_mod_cast (by omega : n ≠ 0)
  have hlen := resampleLine_length a n hm (by omega)
  have hRl := (resampleAxis_slots a n _ _ hm (by omega) rfl rfl).1
  rw [resampleLine_eq a.length _ (by omega) hm, hlen, resampleLine_eq n a hne (by omega), dftLine_map, dftLine_idftLine,
    hRl, resampleAxis_map, resampleAxis_map]
  obtain ⟨big, h1, h2⟩ := C44_up_down (dftLine a) n (by rw [dftLine_length]; exact hm) (by rw [dftLine_length]; exact hn)
  rw [C44_axis _ _ (by rw [dftLine_length]; exact hm) (by omega)] at h1
  injection h1 with h1
  rw [← h1, dftLine_length, C44_axis _ _ (by rw [hRl]; omega) hm] at h2
  injection h2 with h2
  rw [h2, idftLine_map, idftLine_map, idftLine_dftLine, List.map_map, List.map_map, List.map_map]
  conv_rhs => rw [← List.map_id a]
  apply List.map_congr_left
  intro v _
  simp only [Function.comp_apply, id]
  field_simp

/-- **C181_agree.** fft.resample and resample.resample_fft give the same along one axis. -/
theorem C181_agree (a : List ℂ) (n : ℕ) (hm : 0 < a.length) (hn : 0 < n) : fftResampleLine n a = some (resampleLine n a) := by
  have hmc : (a.length : ℂ) ≠ 0 := by exact_mod_cast hm.ne'
  have e : resampleFft (dftLine a) n (fun v => v * (1 / (a.length : ℂ))) =
      resampleFft ((dftLine a).map fun v => v * (1 / (a.length : ℂ))) n id := by
    unfold resampleFft resampleFftOut transferBlock
    simp only [List.length_map, id, ← List.map_take, ← List.map_drop, List.zipWith_map_right]
  unfold fftResampleLine
  rw [e, C44_axis _ _ (by rw [List.length_map, dftLine_length]; exact hm) hn, resampleAxis_map, Option.map_some, idftLine_map]
  by_cases hne : n = a.length
  · have e2 : resampleAxis (dftLine a) n = dftLine a := by unfold resampleAxis; rw [dftLine_length]; simp [hne]
    rw [e2, idftLine_dftLine, List.map_map]
    unfold resampleLine
    rw [if_pos hne]
    congr 1
    conv_rhs => rw [← List.map_id a]
    apply List.map_congr_left
    intro v _
    simp only [Function.comp_apply, id]
    field_simp
  · rw [resampleLine_eq n a hne hn]

/-- **C181_row_partial.** For real data the version for arrays of two axes gives the same as the general one. -/
theorem C181_row_partial (a : List ℝ) (n : ℕ) :
    resampleRow n (a.map fun (v : ℝ) => (v : ℂ)) = (resampleLineReal n a).map fun (v : ℝ) => (v : ℂ) := by
  unfold resampleRow resampleLineReal resampleLine
  simp only [List.length_map]
  split
  · simp [List.map_map, Function.comp_def]
  · simp only [List.map_map]
    apply List.map_congr_left
    intro v _
    simp only [Function.comp_apply]
    rw [show ((n : ℂ) / (a.length : ℂ)) = (((n : ℝ) / (a.length : ℝ) : ℝ) : ℂ) by push_cast; rfl, Complex.re_mul_ofReal]
    push_cast; ring

/-- **C181_row_refuted.** For a complex array of two axes resampled along the last one the imaginary part is lost. -/
theorem C181_row_refuted : resampleLine 4 [I, I] = [I, I, I, I] ∧ resampleRow 4 [I, I] ≠ [I, I, I, I] := by
  constructor
  · apply List.ext_getElem
    · rw [resampleLine_length _ _ (by simp) (by norm_num)]; rfl
    · intro j h1 h2
      have hj : j < 4 := by simpa using h2
      have h := C181_constant_partial 2 4 (by norm_num) (by norm_num) I j hj
      rw [show List.replicate 2 I = [I, I] from rfl] at h
      rw [List.getD_eq_getElem?_getD, List.getElem?_eq_getElem h1] at h
      rw [show (resampleLine 4 [I, I])[j] = I from h]
      match j, hj with
      | 0, _ => rfl
      | 1, _ => rfl
      | 2, _ => rfl
      | 3, _ => rfl
  · intro h
    have hl : (resampleAxis (dftLine [I, I]) 4).length = 4 := (resampleAxis_slots [I, I] 4 _ _ (by simp) (by norm_num) rfl rfl).1
    have h2 := congrArg (fun l : List ℂ => (l.getD 0 0).im) h
    unfold resampleRow at h2
    rw [if_neg (by simp)] at h2
    rw [List.getD_eq_getElem?_getD, List.getElem?_map, List.getElem?_eq_getElem (by rw [idftLine_length, hl]; norm_num)] at h2
    simp only [Option.map_some, Option.getD_some] at h2
    rw [show (((4 : ℕ) : ℂ) / (([I, I] : List ℂ).length : ℂ)) = ((2 : ℝ) : ℂ) by norm_num, ← Complex.ofReal_mul, Complex.ofReal_im] at h2
    norm_num at h2

theorem cis_re_turn (t : ℝ) : (cis t).re = Real.cos (2 * Real.pi * t) := by
  unfold cis
  rw [show (2 * (Real.pi : ℂ) * (t : ℂ) * I) = (((2 * Real.pi * t : ℝ)) : ℂ) * I by push_cast; ring, Complex.exp_ofReal_mul_I_re]

/-- **C181_one_refuted.** A single sample resampled to four is not constant but 1, 0, -1, 0: the mean is put at frequency -1. -/
theorem C181_one_refuted : (resampleLineReal 4 [1]).getD 1 0 = 0 ∧ (resampleLineReal 4 [1]).getD 2 0 = -1 := by
  have h := fun j hj => C181_exact 1 4 0 1 (by norm_num) (by norm_num) (by norm_num) (by norm_num) (fun _ => 0) (fun _ => 1) j hj
  have hs : (List.range 1).map (fun i : ℕ => trigSignal 0 1 1 (fun _ => 0) (fun _ => 1) i) = [1] := by
    simp [trigSignal, cis_zero]
  rw [hs] at h
  have hr : ∀ j < 4, (resampleLineReal 4 [1]).getD j 0 = Real.cos (2 * Real.pi * -((j : ℝ) / 4)) := by
    intro j hj
    have hj' := h j hj
    have hl : (resampleLine 4 [(1 : ℂ)]).length = 4 := resampleLine_length _ _ (by simp) (by norm_num)
    unfold resampleLineReal
    rw [List.getD_eq_getElem?_getD, List.getElem?_map]
    simp only [List.map_cons, List.map_nil, Complex.ofReal_one]
    rw [List.getD_eq_getElem?_getD, List.getElem?_eq_getElem (by rw [hl]; exact hj)] at hj'
    rw [List.getElem?_eq_getElem (by rw [hl]; exact hj)]
    simp only [Option.getD_some] at hj'
    simp only [Option.map_some, Option.getD_some, hj']
    unfold trigSignal
    simp only [Finset.range_zero, Finset.sum_empty, zero_add, Finset.sum_range_one, one_mul, cis_re_turn]
    congr 2; norm_num
  rw [hr 1 (by norm_num), hr 2 (by norm_num)]
  constructor
  · rw [show 2 * Real.pi * -(((1 : ℕ) : ℝ) / 4) = -(Real.pi / 2) by push_cast; ring, Real.cos_neg, Real.cos_pi_div_two]
  · rw [show 2 * Real.pi * -(((2 : ℕ) : ℝ) / 4) = -Real.pi by push_cast; ring, Real.cos_neg, Real.cos_pi]

/-- **C181_odd_refuted.** One period of a cosine over three samples resampled to six is not a cosine: the second sample is 0
instead of cos(60°) = 1/2. -/
theorem C181_odd_refuted : (resampleLineReal 6 [1, -1 / 2, -1 / 2]).getD 1 0 = 0 ∧
    [1, -1 / 2, -1 / 2] = (List.range 3).map (fun i : ℕ => Real.cos (2 * Real.pi * (i : ℝ) / 3)) ∧ Real.cos (2 * Real.pi * 1 / 6) = 1 / 2 := by
  have c3 : Real.cos (2 * Real.pi / 3) = -1 / 2 := by
    rw [show 2 * Real.pi / 3 = Real.pi - Real.pi / 3 by ring, Real.cos_pi_sub, Real.cos_pi_div_three]; norm_num
  have c43 : Real.cos (4 * Real.pi / 3) = -1 / 2 := by
    rw [show 4 * Real.pi / 3 = Real.pi / 3 + Real.pi by ring, Real.cos_add_pi, Real.cos_pi_div_three]; norm_num
  have hcos : [1, -1 / 2, -1 / 2] = (List.range 3).map (fun i : ℕ => Real.cos (2 * Real.pi * (i : ℝ) / 3)) := by
    rw [show List.range 3 = [0, 1, 2] from rfl]
    simp only [List.map_cons, List.map_nil, Nat.cast_zero, mul_zero, zero_div, Real.cos_zero, Nat.cast_one, mul_one, Nat.cast_ofNat, c3]
    rw [show 2 * Real.pi * 2 / 3 = 4 * Real.pi / 3 by ring, c43]
  refine ⟨?_, hcos, by rw [show 2 * Real.pi * 1 / 6 = Real.pi / 3 by ring, Real.cos_pi_div_three]⟩
  have h := C181_exact 3 6 1 2 (by norm_num) (by norm_num) (by norm_num) (by norm_num) (fun _ => 0) (fun _ => 1 / 2) 1 (by norm_num)
  have hsum : ∀ i : ℤ, trigSignal 1 2 3 (fun _ => 0) (fun _ => 1 / 2) i = ((Real.cos (2 * Real.pi * (i : ℝ) / 3) : ℝ) : ℂ) := by
    intro i
    unfold trigSignal
    simp only [Finset.sum_range_succ, Finset.range_zero, Finset.sum_empty, zero_mul, zero_add]
    have e2 : cis (-(((1 + 1 : ℕ) : ℝ) * (i : ℝ) / ((3 : ℕ) : ℝ))) = cis ((i : ℝ) / 3) := by
      rw [← cis_add_int ((-(((1 + 1 : ℕ) : ℝ) * (i : ℝ) / ((3 : ℕ) : ℝ)))) i]
      congr 1; push_cast; ring
    have e1 : cis (-(((0 + 1 : ℕ) : ℝ) * (i : ℝ) / ((3 : ℕ) : ℝ))) = (starRingEnd ℂ) (cis ((i : ℝ) / 3)) := by
      rw [← cis_neg]; congr 1; push_cast; ring
    simp only [Nat.zero_add] at e1 ⊢
    rw [e1, e2]
    rw [show 2 * Real.pi * (i : ℝ) / 3 = 2 * Real.pi * ((i : ℝ) / 3) by ring, ← cis_re_turn]
    apply Complex.ext
    · simp; ring
    · simp
  have hs : (List.range 3).map (fun i : ℕ => trigSignal 1 2 3 (fun _ => 0) (fun _ => 1 / 2) i) = [1, -1 / 2, -1 / 2].map fun v : ℝ => (v : ℂ) := by
    rw [hcos, List.map_map]
    apply List.map_congr_left
    intro i _
    have := hsum i
    simp only [Int.cast_natCast] at this
    rw [this]; rfl
  rw [hs] at h
  unfold resampleLineReal
  have hl : (resampleLine 6 ([1, -1 / 2, -1 / 2].map fun v : ℝ => (v : ℂ))).length = 6 := resampleLine_length _ _ (by simp) (by norm_num)
  rw [List.getD_eq_getElem?_getD, List.getElem?_eq_getElem (by rw [hl]; norm_num)] at h
  rw [List.getD_eq_getElem?_getD, List.getElem?_map, List.getElem?_eq_getElem (by rw [hl]; norm_num)]
  simp only [Option.getD_some] at h
  simp only [Option.map_some, Option.getD_some, h]
  unfold trigSignal
  simp only [Finset.sum_range_succ, Finset.range_zero, Finset.sum_empty, zero_mul, zero_add, Complex.add_re]
  have r : ∀ z : ℂ, (1 / 2 * z).re = 1 / 2 * z.re := by intro z; simp
  rw [r, r, cis_re_turn, cis_re_turn]
  have a1 : 2 * Real.pi * -(((1 : ℕ) : ℝ) * (((1 : ℕ) : ℝ) * ((3 : ℕ) : ℝ) / ((6 : ℕ) : ℝ)) / ((3 : ℕ) : ℝ)) = -(Real.pi / 3) := by push_cast; ring
  have a2 : 2 * Real.pi * -(((1 + 1 : ℕ) : ℝ) * (((1 : ℕ) : ℝ) * ((3 : ℕ) : ℝ) / ((6 : ℕ) : ℝ)) / ((3 : ℕ) : ℝ)) = -(2 * Real.pi / 3) := by push_cast; ring
  rw [a1, a2, Real.cos_neg, Real.cos_neg, Real.cos_pi_div_three, c3]
  norm_num

theorem resampleLineReal_get (n : ℕ) (a : List ℝ) (j : ℕ) :
    (resampleLineReal n a).getD j 0 = ((resampleLine n (a.map fun (v : ℝ) => (v : ℂ))).getD j 0).re := by
  unfold resampleLineReal
  rw [List.getD_eq_getElem?_getD, List.getD_eq_getElem?_getD, List.getElem?_map]
  cases (resampleLine n (a.map fun (v : ℝ) => (v : ℂ)))[j]? <;> simp

theorem cis_neg_half : cis (-(1 / 2)) = -1 := by
  unfold cis
  rw [show (2 * (Real.pi : ℂ) * ((-(1 / 2) : ℝ) : ℂ) * I) = -(Real.pi * I) by push_cast; ring, Complex.exp_neg, Complex.exp_pi_mul_I]
  norm_num

/-- **C181_real_refuted.** For real arrays the same round trip loses data: 1, -1 resampled to four samples and back is 1/2, … . -/
theorem C181_real_refuted : resampleLineReal 4 [1, -1] = [1, 0, -1, 0] ∧ (resampleLineReal 2 (resampleLineReal 4 [1, -1])).getD 0 0 = 1 / 2 := by
  have hs : (List.range 2).map (fun i : ℕ => trigSignal 1 1 2 (fun _ => 0) (fun _ => 1) i) = [1, -1].map fun (v : ℝ) => (v : ℂ) := by
    rw [show List.range 2 = [0, 1] from rfl]
    have c1 := cis_neg_half
    simp only [one_div] at c1
    simp [trigSignal, cis_zero, c1]
  have h1 : resampleLineReal 4 [1, -1] = [1, 0, -1, 0] := by
    have hl : (resampleLineReal 4 [1, -1]).length = 4 := by
      unfold resampleLineReal
      rw [List.length_map, resampleLine_length _ _ (by simp) (by norm_num)]
    have hv : ∀ j < 4, (resampleLineReal 4 [1, -1]).getD j 0 = Real.cos (2 * Real.pi * -((j : ℝ) / 4)) := by
      intro j hj
      have h := C181_exact 2 4 1 1 (by norm_num) (by norm_num) (by norm_num) (by norm_num) (fun _ => 0) (fun _ => 1) j hj
      rw [hs] at h
      rw [resampleLineReal_get, h]
      unfold trigSignal
      simp only [Finset.sum_range_one, zero_mul, zero_add, one_mul, cis_re_turn]
      congr 2; push_cast; ring
    have v0 : Real.cos (2 * Real.pi * -(((0 : ℕ) : ℝ) / 4)) = 1 := by simp
    have v1 : Real.cos (2 * Real.pi * -(((1 : ℕ) : ℝ) / 4)) = 0 := by
      rw [show 2 * Real.pi * -(((1 : ℕ) : ℝ) / 4) = -(Real.pi / 2) by push_cast; ring, Real.cos_neg, Real.cos_pi_div_two]
    have v2 : Real.cos (2 * Real.pi * -(((2 : ℕ) : ℝ) / 4)) = -1 := by
      rw [show 2 * Real.pi * -(((2 : ℕ) : ℝ) / 4) = -Real.pi by push_cast; ring, Real.cos_neg, Real.cos_pi]
    have v3 : Real.cos (2 * Real.pi * -(((3 : ℕ) : ℝ) / 4)) = 0 := by
      rw [show 2 * Real.pi * -(((3 : ℕ) : ℝ) / 4) = -(Real.pi / 2 + Real.pi) by push_cast; ring, Real.cos_neg, Real.cos_add_pi,
        Real.cos_pi_div_two, neg_zero]
    have g0 := (hv 0 (by norm_num)).trans v0
    have g1 := (hv 1 (by norm_num)).trans v1
    have g2 := (hv 2 (by norm_num)).trans v2
    have g3 := (hv 3 (by norm_num)).trans v3
    revert hl g0 g1 g2 g3
    generalize resampleLineReal 4 [1, -1] = l
    intro hl g0 g1 g2 g3
    match l, hl with
    | [a, b, c, d], _ =>
      simp at g0 g1 g2 g3
      rw [g0, g1, g2, g3]
  refine ⟨h1, ?_⟩
  rw [h1, resampleLineReal_get, resampleLine_get _ 2 1 1 (by simp) (by norm_num) (by simp) (by simp) (by simp) 0 (by norm_num)]
  have c3 : cis (-(2 * 3 / 4)) = -1 := by
    rw [← cis_neg_half, ← cis_add_int (-(2 * 3 / 4)) 1]; congr 1; norm_num
  simp [dftRaw, Finset.sum_range_succ, cis_zero, c3]
  norm_num

/-! ### Shapes -/

theorem axPlace_neg (ndim k i : ℕ) (hi : i < k) (hk : k ≤ ndim) : axPlace ndim ((i : ℤ) - k) = some (ndim - k + i) := by
  unfold axPlace
  rw [if_neg (by omega), if_pos (by omega)]
  congr 1; omega

theorem setAxesVals_run (v : List ℕ) : ∀ (l : List ℕ) (s : ℕ), s + v.length ≤ l.length →
    setAxesVals l (((List.range v.length).map fun (i : ℕ) => ((s + i : ℕ) : ℤ) - l.length).zip v) =
      some (l.take s ++ v ++ l.drop (s + v.length)) := by
  induction v with
  | nil => intro l s h; simp [setAxesVals]
  | cons x v ih =>
    intro l s h
    simp only [List.length_cons] at h
    rw [List.length_cons, List.range_succ_eq_map, List.map_cons, List.zip_cons_cons]
    unfold setAxesVals
    have hp : axPlace l.length (((s + 0 : ℕ) : ℤ) - l.length) = some s := by
      rw [axPlace_neg l.length l.length (s + 0) (by omega) (le_refl _)]; congr 1; omega
    rw [hp]
    simp only
    have h2 := ih (l.set s x) (s + 1) (by simp; omega)
    rw [List.length_set] at h2
    have e : (List.map (fun (i : ℕ) => ((s + i : ℕ) : ℤ) - l.length) (List.map Nat.succ (List.range v.length))) =
        (List.range v.length).map fun (i : ℕ) => ((s + 1 + i : ℕ) : ℤ) - l.length := by
      rw [List.map_map]; apply List.map_congr_left; intro i _
      simp only [Function.comp_apply]; push_cast; ring
    rw [e, h2]
    congr 1
    rw [List.take_set, List.drop_set_of_lt (by omega)]
    have ht : (l.take (s + 1)).set s x = l.take s ++ [x] := by
      rw [List.take_add_one, List.getElem?_eq_getElem (by omega), List.set_append_right _ _ (by simp)]
      simp [Nat.min_eq_left (by omega : s ≤ l.length)]
    rw [ht]
    simp [Nat.add_assoc, Nat.add_comm 1]

theorem lastAxes_eq (L k : ℕ) (h : k ≤ L) : lastAxes k = (List.range k).map fun (i : ℕ) => ((L - k + i : ℕ) : ℤ) - L := by
  unfold lastAxes
  apply List.map_congr_left
  intro i _
  omega

/-- **C181_shape_partial.** By default the last axes get the lengths asked for and the others keep theirs, in both versions.
What is missing: other axes, see `C181_axes_refuted`. -/
theorem C181_shape_partial (shape n : List ℕ) (h1 : 1 ≤ n.length) (h2 : n.length ≤ shape.length) :
    resampleFftShape shape n none = some (shape.take (shape.length - n.length) ++ n) ∧
    fftResampleShape shape n .default = some (shape.take (shape.length - n.length) ++ n) := by
  have hrun : setAxesVals shape ((lastAxes n.length).zip n) = some (shape.take (shape.length - n.length) ++ n) := by
    rw [lastAxes_eq shape.length n.length h2, setAxesVals_run n shape (shape.length - n.length) (by omega)]
    rw [List.drop_eq_nil_of_le (by omega), List.append_nil]
  have hll : (lastAxes n.length).length = n.length := by simp [lastAxes]
  constructor
  · unfold resampleFftShape
    simp only [Option.getD_none, hll]
    have hn : (if n.length = 1 then some (List.replicate n.length (n.headD 0)) else if True then some n else none) = some n := by
      split
      · rename_i h
        match n, h with
        | [x], _ => rfl
      · rw [if_pos trivial]
    rw [hn]
    simp only [Option.bind_some]
    rw [if_pos h2]
    split
    · rename_i he
      conv_lhs => rw [← List.take_append_drop (shape.length - n.length) shape, he]
    · exact hrun
  · unfold fftResampleShape
    simp only [Option.bind_some, hll, if_true]
    exact hrun

/-- **C181_axes_refuted.** resample_fft asked to resample the first of two axes to the length of the second does nothing. -/
theorem C181_axes_refuted (a b : ℕ) : resampleFftShape [a, b] [b] (some [0]) = some [a, b] := by
  simp [resampleFftShape]

/-- **C181_axis_number_refuted.** The example of the documentation of fft.resample, resample(a, 10, -1), raises, as does any
call with a single number as axis; the other example, with a tuple, gives the documented shape. -/
theorem C181_axis_number_refuted :
    (∀ (shape n : List ℕ) (ax : ℤ), fftResampleShape shape n (.one ax) = none) ∧
    fftResampleShape [2, 3, 4] [10] (.many [-1]) = some [2, 3, 10] ∧ fftResampleShape [2, 3, 4] [20, 10] (.many [0, 2]) = some [20, 3, 10] := by
  refine ⟨fun _ _ _ => rfl, by decide, by decide⟩

/-- **C181_bin_partial.** Resampling by bins along one axis by a whole number p multiplies the length by p, and by 1/p divides it
by p, rounding down. The other axes keep their lengths. What is missing: other factors, and several axes; see
`C181_bin_refuted`. -/
theorem C181_bin_partial (shape : List ℕ) (ax : ℤ) (i p : ℕ) (hp : 2 ≤ p) (hi : axPlace shape.length ax = some i) :
    resampleBinShape shape [(p : ℚ)] (some [ax]) = some (shape.set i (shape.getD i 0 * p)) ∧
    resampleBinShape shape [1 / (p : ℚ)] (some [ax]) = some (shape.set i (shape.getD i 0 / p)) := by
  have hlt : i < shape.length := by
    unfold axPlace at hi
    split at hi
    · injection hi with hi; omega
    · split at hi
      · injection hi with hi; omega
      · cases hi
  have hp0 : (0 : ℚ) < p := by exact_mod_cast (by omega : 0 < p)
  have hp2 : (2 : ℚ) ≤ p := by exact_mod_cast hp
  have hset : ∀ (s : List ℕ) (v : ℕ), s.length = shape.length → setAxesVals (List.replicate s.length 1) (([ax] : List ℤ).zip [v]) =
      some ((List.replicate shape.length 1).set i v) := by
    intro s v hs
    simp [setAxesVals, hs, hi]
  have hdown : ∀ v, downBinShape shape [v] (some [ax]) = some (shape.set i (shape.getD i 0 / v)) := by
    intro v
    unfold downBinShape
    simp only [Option.getD_some, List.length_singleton]
    rw [if_pos ⟨by omega, trivial⟩, hset shape v rfl, Option.map_some]
    congr 1
    apply List.ext_getElem
    · simp
    · intro k h1 h2
      rw [List.getElem_zipWith, List.getElem_set, List.getElem_set]
      split
      · rename_i h; subst h
        rw [List.getD_eq_getElem?_getD, List.getElem?_eq_getElem hlt, Option.getD_some]
      · simp
  have hup : ∀ (s : List ℕ) (v : ℕ), s.length = shape.length → upBinShape s [v] (some [ax]) = some (s.set i (s.getD i 0 * v)) := by
    intro s v hs
    unfold upBinShape
    simp only [Option.getD_some, List.length_singleton]
    rw [if_pos ⟨by omega, trivial⟩, hset s v hs, Option.map_some]
    congr 1
    apply List.ext_getElem
    · simp [hs]
    · intro k h1 h2
      rw [List.getElem_zipWith, List.getElem_set, List.getElem_set]
      split
      · rename_i h; subst h
        rw [List.getD_eq_getElem?_getD, List.getElem?_eq_getElem (by omega), Option.getD_some]
      · simp
  have hgd : ∀ v, (shape.set i v).getD i 0 = v := by
    intro v
    rw [List.getD_eq_getElem?_getD, List.getElem?_eq_getElem (by simp [hlt])]; simp
  have hinv : 1 / (p : ℚ) ≤ 1 / 2 := by
    rw [div_le_div_iff₀ hp0 (by norm_num)]; linarith
  have hinv0 : 0 < 1 / (p : ℚ) := by positivity
  have hr1 : (max 1 (rint (1 / (p : ℚ)))).toNat = 1 := by
    have : rint (1 / (p : ℚ)) ≤ 0 := by
      unfold rint
      have hf : ⌊1 / (p : ℚ)⌋ = 0 := Int.floor_eq_iff.2 ⟨by simp, by simp; linarith [hinv, inv_eq_one_div (p : ℚ)]⟩
      simp only [hf, Int.cast_zero, sub_zero]
      split
      · exact le_refl _
      · rw [if_neg (by linarith)]; simp
    omega
  have hr2 : ∀ q : ℕ, 1 ≤ q → (max 1 (rint (q : ℚ))).toNat = q := by
    intro q hq
    have : rint (q : ℚ) = q := by
      unfold rint
      rw [Int.floor_natCast]; simp
    rw [this]; omega
  constructor
  · unfold resampleBinShape
    have hc : (([(p : ℚ)] : List ℚ).all (allclose · 1)) = false := by
      simp only [List.all_cons, List.all_nil, Bool.and_true, allclose, decide_eq_false_iff_not, not_le]
      rw [abs_of_nonneg (by linarith : (0 : ℚ) ≤ p - 1)]; norm_num; linarith
    rw [hc]
    simp only [Bool.false_eq_true, if_false, List.map_cons, List.map_nil]
    rw [hr1, hr2 p (by omega), hdown, Option.bind_some, hup _ _ (by simp), hgd, Nat.div_one, List.set_set]
  · unfold resampleBinShape
    have hc : (([1 / (p : ℚ)] : List ℚ).all (allclose · 1)) = false := by
      simp only [List.all_cons, List.all_nil, Bool.and_true, allclose, decide_eq_false_iff_not, not_le]
      rw [abs_of_nonpos (by linarith : 1 / (p : ℚ) - 1 ≤ 0)]; norm_num; linarith [inv_eq_one_div (p : ℚ)]
    rw [hc]
    simp only [Bool.false_eq_true, if_false, List.map_cons, List.map_nil, one_div_one_div]
    rw [hr1, hr2 p (by omega), hdown, Option.bind_some, hup _ _ (by simp), hgd, Nat.mul_one, List.set_set]

/-- **C181_bin_refuted.** Halving the first axis and doubling the second one by bins does nothing to the shape, because the steps
are given to the axes in opposite orders; with the axes given it works. The factor 3/4 does nothing, and 3/2 doubles. -/
theorem C181_bin_refuted : resampleBinShape [4, 3] [1 / 2, 2] none = some [4, 3] ∧
    resampleBinShape [4, 3] [1 / 2, 2] (some [0, 1]) = some [2, 6] ∧ resampleBinShape [8] [3 / 4] none = some [8] ∧
    resampleBinShape [8] [3 / 2] none = some [16] := by
  refine ⟨by decide +kernel, by decide +kernel, by decide +kernel, by decide +kernel⟩

/-- **C181_factor_partial.** Resampling along the last axis by a factor gives the length times the factor, rounded, unless the
factor is within a relative 1e-5 of one. -/
theorem C181_factor_partial (pre : List ℕ) (L : ℕ) (f : ℚ) (h : allclose f 1 = false) :
    resampleShape (pre ++ [L]) [f] none = some (pre ++ [⌊(L : ℚ) * f + 1 / 2⌋.toNat]) := by
  unfold resampleShape
  have hc : (([f] : List ℚ).all (allclose · 1)) = false := by simp [h]
  rw [hc]
  have hla : lastAxes 1 = [-1] := rfl
  have hp : axPlace (pre ++ [L]).length (-1) = some pre.length := by
    unfold axPlace
    rw [if_neg (by omega), if_pos (by simp)]
    congr 1; simp
  simp only [Bool.false_eq_true, if_false, Option.getD_none, List.length_singleton, hla, List.zip_cons_cons, List.zip_nil_right,
    List.mapM_cons, List.mapM_nil, hp, Option.map_some]
  have hg : (pre ++ [L]).getD pre.length 0 = L := by simp
  rw [hg]
  change resampleFftShape (pre ++ [L]) [⌊(L : ℚ) * f + 1 / 2⌋.toNat] (some [-1]) = _
  have := (C181_shape_partial (pre ++ [L]) [⌊(L : ℚ) * f + 1 / 2⌋.toNat] (by simp) (by simp)).1
  have e : resampleFftShape (pre ++ [L]) [⌊(L : ℚ) * f + 1 / 2⌋.toNat] (some [-1]) =
      resampleFftShape (pre ++ [L]) [⌊(L : ℚ) * f + 1 / 2⌋.toNat] none := rfl
  rw [e, this]
  simp

/-- **C181_factor_refuted.** For long arrays this is a difference: 200000 samples resampled by 1.000005 should be 200001. -/
theorem C181_factor_refuted : resampleShape [200000] [1000005 / 1000000] none = some [200000] ∧
    ⌊(200000 : ℚ) * (1000005 / 1000000) + 1 / 2⌋ = 200001 := by
  refine ⟨by decide +kernel, by decide +kernel⟩

/-- **C181_equispaced_refuted.** make_equispaced never gives a result: it calls interpol with a keyword it does not have. -/
theorem C181_equispaced_refuted {β : Type} (r : β) : makeEquispaced r = none := by
  unfold makeEquispaced pyCall interpolParams
  rw [if_neg (by decide)]

/-! Cases that meet the hypotheses. -/

example : (resampleLine (3 * ([1, 2, 5] : List ℂ).length) [1, 2, 5]).getD (3 * 2) 0 = 5 :=
  C181_samples [1, 2, 5] 3 (by norm_num) 2 (by simp)
example : resampleLine 3 (resampleLine 7 [1, 2, 5]) = [1, 2, 5] := C181_roundtrip [1, 2, 5] 7 (by simp) (by simp)
example : fftResampleLine 2 [1, 2, 5] = some (resampleLine 2 [1, 2, 5]) := C181_agree [1, 2, 5] 2 (by simp) (by norm_num)
example : resampleFftShape [2, 3, 4] [7, 8] none = some [2, 7, 8] := (C181_shape_partial [2, 3, 4] [7, 8] (by simp) (by simp)).1
example : resampleBinShape [7, 5] [1 / 3] (some [0]) = some [2, 5] := (C181_bin_partial [7, 5] 0 0 3 (by norm_num) rfl).2
example : resampleShape [3, 10] [1 / 4] none = some [3, 3] := by
  have := C181_factor_partial [3] 10 (1 / 4) (by decide +kernel)
  rw [show [3] ++ [10] = [3, 10] from rfl] at this
  rw [this]; decide +kernel

end Pixell
