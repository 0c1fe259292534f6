import Verif.Model.Fourier
import Mathlib.Algebra.Order.Field.Rat
import Mathlib.Tactic.FieldSimp
import Mathlib.Tactic.Ring
import Mathlib.Tactic.Linarith
import Mathlib.Tactic.Positivity

/-
Properties C44, C45: frequency bookkeeping.
-/
namespace Pixell

/-! ### Specification: where frequencies are stored -/

/-- The slot of the frequency with signed number `k` in an FFT array of length `n` (numpy's standard order). -/
def freqSlot (n : Nat) (k : Int) : Nat := (k % (n : Int)).toNat

/-- The signed frequency numbers that an array of length `n` represents, `-(n/2), …, (n-1)/2` (for even `n` the
frequency `-n/2` stands for both signs). -/
def HasFreq (n : Nat) (k : Int) : Prop := -((n / 2 : Nat) : Int) ≤ k ∧ k < (((n + 1) / 2 : Nat) : Int)

/-! ### C45 -/

/-- C45: the frequencies follow the standard order: slot `i` has number `i` in the first half and `i - n` in the
second, in units of `1/(n d)`; i.e. the number represented whose slot is `i`. -/
theorem C45_order (n i : Nat) (d : ℚ) (hi : i < n) :
    ∃ k : Int, HasFreq n k ∧ freqSlot n k = i ∧ ind2freq n i d = (k : ℚ) / (d * n) := by
  unfold ind2freq HasFreq freqSlot
  by_cases h : (i : ℚ) < (n : ℚ) / 2
  · have h2 : 2 * i < n := by
      have : (2 * i : ℚ) < n := by linarith
      exact_mod_cast this
    refine ⟨i, by omega, ?_, by rw [if_pos h]; norm_num⟩
    rw [Int.emod_eq_of_lt (by omega) (by omega)]; simp
  · have h2 : n ≤ 2 * i := by
      have : (n : ℚ) ≤ 2 * i := by linarith
      exact_mod_cast this
    refine ⟨(i : Int) - n, by omega, ?_, by rw [if_neg h]; push_cast; ring⟩
    rw [Int.sub_emod_right, Int.emod_eq_of_lt (by omega) (by omega)]; simp

/-- C45: index → frequency → index is the identity, for all lengths, indices and (also negative) sample distances. -/
theorem C45_round_trip (n i : Nat) (d : ℚ) (hi : i < n) (hd : d ≠ 0) : freq2ind n (ind2freq n i d) d = i := by
  have hn : (n : ℚ) ≠ 0 := by
    have : 0 < n := by omega
    positivity
  unfold ind2freq freq2ind
  simp only
  rw [div_mul_cancel₀ _ (mul_ne_zero hd hn)]
  split
  · rw [if_pos (by positivity)]
  · have : (i : ℚ) < n := by exact_mod_cast hi
    rw [if_neg (by linarith)]
    ring

/-- C45: frequency → index → frequency is the identity for every represented frequency. -/
theorem C45_back (n : Nat) (k : Int) (d : ℚ) (hk : HasFreq n k) (hd : d ≠ 0) :
    ∃ i < n, freq2ind n ((k : ℚ) / (d * n)) d = (i : ℚ) ∧ i = freqSlot n k ∧ ind2freq n i d = (k : ℚ) / (d * n) := by
  have hn : 0 < n := by unfold HasFreq at hk; omega
  have hslot : freqSlot n k < n := by
    unfold freqSlot
    have h1 := Int.emod_nonneg k (by omega : (n : Int) ≠ 0)
    have h2 := Int.emod_lt_of_pos k (by omega : (0 : Int) < n)
    omega
  obtain ⟨k', hk', hs, hf⟩ := C45_order n (freqSlot n k) d hslot
  have hkk : k' = k := by
    unfold freqSlot at hs
    unfold HasFreq at hk hk'
    have h1 := Int.emod_nonneg k (by omega : (n : Int) ≠ 0)
    have h2 := Int.emod_nonneg k' (by omega : (n : Int) ≠ 0)
    have h3 : k' % (n : Int) = k % (n : Int) := by omega
    have h4 : (n : Int) ∣ k' - k := Int.dvd_of_emod_eq_zero (by rw [Int.sub_emod, h3]; simp)
    obtain ⟨q, hq⟩ := h4
    have : q = 0 := by
      by_contra hq0
      rcases lt_or_gt_of_ne hq0 with h | h
      · have : (n : Int) * q ≤ (n : Int) * (-1) := Int.mul_le_mul_of_nonneg_left (by omega) (by omega)
        omega
      · have : (n : Int) * 1 ≤ (n : Int) * q := Int.mul_le_mul_of_nonneg_left (by omega) (by omega)
        omega
    subst this
    omega
  rw [hkk] at hf
  refine ⟨freqSlot n k, hslot, ?_, rfl, hf⟩
  rw [← hf, C45_round_trip n _ d hslot hd]

/-- C45: the same for the half-complex ("real") frequency functions. -/
theorem C45_real (n i : Nat) (d : ℚ) (hn : 0 < n) (hd : d ≠ 0) : rfreq2ind n (int2rfreq n i d) d = i := by
  have : (n : ℚ) ≠ 0 := by positivity
  unfold rfreq2ind int2rfreq
  field_simp

example : (List.range 5).map (fun i => ind2freq 5 i 1) = [0, 1/5, 2/5, -2/5, -1/5] ∧
    (List.range 4).map (fun i => ind2freq 4 i 2) = [0, 1/8, -2/8, -1/8] := by decide +kernel
example : HasFreq 5 2 ∧ ¬ HasFreq 4 2 ∧ HasFreq 4 (-2) ∧ freqSlot 5 (-2) = 3 := by unfold HasFreq freqSlot; decide

/-! ### C44 -/

variable {α : Type}

theorem transferBlock_get (op : α → α → α) (norm : α → α) (a b : List α) (i : Nat) (h : a.length = b.length) (hi : i < a.length) :
    (transferBlock op norm a b)[i]? = some (op (a[i]'hi) (norm (b[i]'(by omega)))) := by
  unfold transferBlock
  rw [List.getElem?_zipWith, List.getElem?_eq_getElem hi, List.getElem?_eq_getElem (by omega)]

/-- Slot by slot: the lower half of the common slots is filled from the same slot, the upper half from the slot with the
same distance from the end, everything else stays. -/
theorem resampleFftOut_slots' (fa out : List α) (op : α → α → α) (norm : α → α) (hm : 0 < fa.length) (hn : 0 < out.length)
    (c : Nat) (hc : c = min fa.length out.length) :
    ∃ res, resampleFftOut fa out op norm = some res ∧ res.length = out.length ∧
      ∀ j (hj : j < out.length), 
        res[j]? = if h1 : j < c / 2 then some (op out[j] (norm (fa[j]'(by omega))))
          else if _h2 : out.length - (c - c / 2) ≤ j then some (op out[j] (norm (fa[j + fa.length - out.length]'(by omega))))
          else some out[j] := by
  unfold resampleFftOut
  simp only
  rw [if_neg (by omega)]
  simp only [← hc]
  have hl1 : (transferBlock op norm (out.take (c / 2)) (fa.take (c / 2))).length = c / 2 := by
    simp [transferBlock]; omega
  set out1 := transferBlock op norm (out.take (c / 2)) (fa.take (c / 2)) ++ out.drop (c / 2) with hout1
  have hlen1 : out1.length = out.length := by rw [hout1, List.length_append, hl1]; simp; omega
  have hl2 : (transferBlock op norm (out1.drop (out.length - (c - c / 2))) (fa.drop (fa.length - (c - c / 2)))).length = c - c / 2 := by
    simp [transferBlock]; omega
  refine ⟨_, rfl, by simp [hlen1, transferBlock]; omega, ?_⟩
  intro j hj
  by_cases h2 : out.length - (c - c / 2) ≤ j
  · have hlow : ¬ j < c / 2 := by omega
    rw [dif_neg hlow, dif_pos h2]
    have htl : (out1.take (out.length - (c - c / 2))).length = out.length - (c - c / 2) := by simp; omega
    rw [List.getElem?_append_right (by omega), htl]
    rw [transferBlock_get _ _ _ _ _ (by simp; omega) (by simp; omega)]
    simp only [List.getElem_drop]
    congr 2
    · simp only [hout1]
      rw [List.getElem_append_right (by omega)]
      simp only [List.getElem_drop]
      congr 1
      omega
    · congr 2
      omega
  · rw [List.getElem?_append_left (by simp; omega), List.getElem?_take_of_lt (by omega)]
    by_cases h1 : j < c / 2
    · rw [dif_pos h1, hout1, List.getElem?_append_left (by omega), transferBlock_get _ _ _ _ _ (by simp; omega) (by simp; omega)]
      simp
    · rw [dif_neg h1, dif_neg h2, hout1, List.getElem?_append_right (by omega), hl1, List.getElem?_drop]
      rw [show c / 2 + (j - c / 2) = j by omega, List.getElem?_eq_getElem hj]

theorem resampleFftOut_slots (fa out : List α) (op : α → α → α) (norm : α → α) (hm : 0 < fa.length) (hn : 0 < out.length) :
    ∃ res, resampleFftOut fa out op norm = some res ∧ res.length = out.length ∧
      ∀ j (hj : j < out.length), let c := min fa.length out.length
        res[j]? = if h1 : j < c / 2 then some (op out[j] (norm (fa[j]'(by omega))))
          else if _h2 : out.length - (c - c / 2) ≤ j then some (op out[j] (norm (fa[j + fa.length - out.length]'(by omega))))
          else some out[j] :=
  resampleFftOut_slots' fa out op norm hm hn _ rfl

theorem freqSlot_nonneg {n : Nat} {k : Int} (h0 : 0 ≤ k) (h1 : k < n) : freqSlot n k = k.toNat := by
  unfold freqSlot; rw [Int.emod_eq_of_lt h0 h1]

theorem freqSlot_neg {n : Nat} {k : Int} (h0 : k < 0) (h1 : -(n : Int) ≤ k) : freqSlot n k = (k + n).toNat := by
  unfold freqSlot
  rw [← Int.add_emod_right, Int.emod_eq_of_lt (by omega) (by omega)]

/-- C44, general form, for non-empty arrays: with `c` the smaller length, the coefficients numbered `-(c - c/2)` to
`c/2 - 1` (counting backwards from the end of either array) go from their slot in the input to the slot of the same
number in the output, each exactly once; all other output slots are left as they were. -/
theorem C44_slots (fa out : List α) (op : α → α → α) (norm : α → α) (hm : 0 < fa.length) (hn : 0 < out.length) :
    ∃ res, resampleFftOut fa out op norm = some res ∧ res.length = out.length ∧
      (∀ k : Int, -((min fa.length out.length - min fa.length out.length / 2 : Nat) : Int) ≤ k →
        k < ((min fa.length out.length / 2 : Nat) : Int) →
        ∃ a b, out[freqSlot out.length k]? = some a ∧ fa[freqSlot fa.length k]? = some b ∧
          res[freqSlot out.length k]? = some (op a (norm b))) ∧
      (∀ j < out.length, (∀ k : Int, -((min fa.length out.length - min fa.length out.length / 2 : Nat) : Int) ≤ k →
        k < ((min fa.length out.length / 2 : Nat) : Int) → freqSlot out.length k ≠ j) → res[j]? = out[j]?) := by
  obtain ⟨res, h1, h2, h3⟩ := resampleFftOut_slots fa out op norm hm hn
  refine ⟨res, h1, h2, ?_, ?_⟩
  · intro k hk1 hk2
    rcases lt_or_ge k 0 with hk | hk
    · have e1 : freqSlot out.length k = (k + out.length).toNat := freqSlot_neg hk (by omega)
      have e2 : freqSlot fa.length k = (k + fa.length).toNat := freqSlot_neg hk (by omega)
      have hj : (k + out.length).toNat < out.length := by omega
      have := h3 _ hj
      rw [e1, e2, this]
      rw [dif_neg (by omega), dif_pos (by omega)]
      refine ⟨_, _, List.getElem?_eq_getElem hj, List.getElem?_eq_getElem (by omega), ?_⟩
      congr 4
      omega
    · have e1 : freqSlot out.length k = k.toNat := freqSlot_nonneg hk (by omega)
      have e2 : freqSlot fa.length k = k.toNat := freqSlot_nonneg hk (by omega)
      have hj : k.toNat < out.length := by omega
      have := h3 _ hj
      rw [e1, e2, this]
      rw [dif_pos (by omega)]
      exact ⟨_, _, List.getElem?_eq_getElem hj, List.getElem?_eq_getElem (by omega), rfl⟩
  · intro j hj hk
    rw [h3 j hj, List.getElem?_eq_getElem hj]
    rw [dif_neg, dif_neg]
    · intro hge
      refine hk ((j : Int) - out.length) (by omega) (by omega) ?_
      rw [freqSlot_neg (by omega) (by omega)]; omega
    · intro hlt
      refine hk j (by omega) (by omega) ?_
      rw [freqSlot_nonneg (by omega) (by omega)]; omega

/-- C44 when the smaller of the two lengths is even: every frequency that both arrays represent is moved from its slot
to the slot of the same frequency, multiplied by `norm`, and all other slots of the output are zero. -/
theorem C44_even [Zero α] (fa : List α) (n : Nat) (norm : α → α) (hm : 0 < fa.length) (hn : 0 < n)
    (heven : min fa.length n % 2 = 0) :
    ∃ res, resampleFft fa n norm = some res ∧ res.length = n ∧
      (∀ k, HasFreq fa.length k → HasFreq n k → ∃ b, fa[freqSlot fa.length k]? = some b ∧ res[freqSlot n k]? = some (norm b)) ∧
      (∀ k, HasFreq n k → ¬ HasFreq fa.length k → res[freqSlot n k]? = some 0) := by
  obtain ⟨res, h1, h2, h3, h4⟩ := C44_slots fa (List.replicate n 0) (fun _ b => b) norm hm (by simpa using hn)
  simp only [List.length_replicate] at *
  refine ⟨res, h1, h2, ?_, ?_⟩
  · intro k hk1 hk2
    unfold HasFreq at hk1 hk2
    obtain ⟨a, b, _, hb, hr⟩ := h3 k (by omega) (by omega)
    exact ⟨b, hb, hr⟩
  · intro k hk1 hk2
    have hslot : freqSlot n k < n := by
      unfold freqSlot
      have h1 := Int.emod_nonneg k (by omega : (n : Int) ≠ 0)
      have h2 := Int.emod_lt_of_pos k (by omega : (0 : Int) < n)
      omega
    rw [h4 _ hslot]
    · simp [hslot]
    · intro k' hk1' hk2' e
      unfold HasFreq at hk1 hk2
      rcases lt_or_ge k 0 with hk | hk <;> rcases lt_or_ge k' 0 with hk' | hk'
      · rw [freqSlot_neg hk' (by omega), freqSlot_neg hk (by omega)] at e; omega
      · rw [freqSlot_nonneg hk' (by omega), freqSlot_neg hk (by omega)] at e; omega
      · rw [freqSlot_neg hk' (by omega), freqSlot_nonneg hk (by omega)] at e; omega
      · rw [freqSlot_nonneg hk' (by omega), freqSlot_nonneg hk (by omega)] at e; omega

/-- C44 for any positive lengths: right for all frequencies representable in both arrays except the highest positive one,
number `c/2`, when the smaller length `c` is odd. -/
theorem C44_partial [Zero α] (fa : List α) (n : Nat) (norm : α → α) (hm : 0 < fa.length) (hn : 0 < n) :
    ∃ res, resampleFft fa n norm = some res ∧ res.length = n ∧
      ∀ k, HasFreq fa.length k → HasFreq n k → ¬ (min fa.length n % 2 = 1 ∧ k = ((min fa.length n / 2 : Nat) : Int)) →
        ∃ b, fa[freqSlot fa.length k]? = some b ∧ res[freqSlot n k]? = some (norm b) := by
  obtain ⟨res, h1, h2, h3, h4⟩ := C44_slots fa (List.replicate n 0) (fun _ b => b) norm hm (by simpa using hn)
  simp only [List.length_replicate] at *
  refine ⟨res, h1, h2, ?_⟩
  intro k hk1 hk2 hk
  unfold HasFreq at hk1 hk2
  obtain ⟨a, b, _, hb, hr⟩ := h3 k (by omega) (by omega)
  exact ⟨b, hb, hr⟩

/-- C44 fails for every odd smaller length: going up, the coefficient of the highest positive frequency `c/2` is put at
the negative frequency `-(c/2+1)`, and its own slot stays zero. -/
theorem C44_odd_up_refuted [Zero α] (fa : List α) (n : Nat) (norm : α → α) (hodd : fa.length % 2 = 1) (hn : fa.length < n) :
    ∃ res b, resampleFft fa n norm = some res ∧ HasFreq fa.length ((fa.length / 2 : Nat) : Int) ∧
      fa[freqSlot fa.length ((fa.length / 2 : Nat) : Int)]? = some b ∧
      res[freqSlot n (-((fa.length / 2 + 1 : Nat) : Int))]? = some (norm b) ∧
      res[freqSlot n ((fa.length / 2 : Nat) : Int)]? = some 0 := by
  obtain ⟨res, h1, h2, h3, h4⟩ := C44_slots fa (List.replicate n 0) (fun _ b => b) norm (by omega) (by simp; omega)
  simp only [List.length_replicate] at *
  obtain ⟨a, b, _, hb, hr⟩ := h3 (-((fa.length / 2 + 1 : Nat) : Int)) (by omega) (by omega)
  refine ⟨res, b, h1, by unfold HasFreq; omega, ?_, hr, ?_⟩
  · rw [← hb, freqSlot_neg (k := -((fa.length / 2 + 1 : Nat) : Int)) (by omega) (by omega),
      freqSlot_nonneg (k := ((fa.length / 2 : Nat) : Int)) (by omega) (by omega)]
    congr 1; omega
  · rw [freqSlot_nonneg (k := ((fa.length / 2 : Nat) : Int)) (by omega) (by omega)]
    simp only [Int.toNat_natCast]
    rw [h4 _ (by omega)]
    · rw [List.getElem?_replicate_of_lt (by omega)]
    · intro k' hk1' hk2' e
      rcases lt_or_ge k' 0 with hk' | hk'
      · rw [freqSlot_neg hk' (by omega)] at e; omega
      · rw [freqSlot_nonneg hk' (by omega)] at e; omega

/-- C44 fails for every odd smaller length: going down to an odd length, the slot of the highest positive frequency is
filled from the negative frequency `-(c/2+1)`. With c = 1 the mean is replaced by the coefficient of frequency -1. -/
theorem C44_odd_down_refuted [Zero α] (fa : List α) (n : Nat) (norm : α → α) (hodd : n % 2 = 1) (hn : n < fa.length) :
    ∃ res b, resampleFft fa n norm = some res ∧ HasFreq n ((n / 2 : Nat) : Int) ∧
      fa[freqSlot fa.length (-((n / 2 + 1 : Nat) : Int))]? = some b ∧
      res[freqSlot n ((n / 2 : Nat) : Int)]? = some (norm b) := by
  obtain ⟨res, h1, h2, h3, h4⟩ := C44_slots fa (List.replicate n 0) (fun _ b => b) norm (by omega) (by simp; omega)
  simp only [List.length_replicate] at *
  obtain ⟨a, b, _, hb, hr⟩ := h3 (-((n / 2 + 1 : Nat) : Int)) (by omega) (by omega)
  refine ⟨res, b, h1, by unfold HasFreq; omega, hb, ?_⟩
  rw [← hr, freqSlot_neg (k := -((n / 2 + 1 : Nat) : Int)) (by omega) (by omega),
    freqSlot_nonneg (k := ((n / 2 : Nat) : Int)) (by omega) (by omega)]
  congr 1; omega

example : resampleFft [10, 11, 12, -11] 6 (fun x : Int => 2 * x) = some [20, 22, 0, 0, 24, -22] ∧
    resampleFft [10, 11, -11] 5 (fun x : Int => x) = some [10, 0, 0, 11, -11] ∧
    resampleFft [10, 11, 12, -11] 1 (fun x : Int => x) = some [-11] ∧
    resampleFft [10, 11, 12, -11] 0 (fun x : Int => x) = none := by decide

/-- C44: going up and down again is the identity, for all positive lengths. -/
theorem C44_up_down [Zero α] (fa : List α) (n : Nat) (hm : 0 < fa.length) (hn : fa.length ≤ n) :
    ∃ big, resampleFft fa n id = some big ∧ resampleFft big fa.length id = some fa := by
  obtain ⟨big, h1, h2, h3⟩ := resampleFftOut_slots fa (List.replicate n 0) (fun _ b => b) id hm (by simp; omega)
  simp only [List.length_replicate] at h2 h3
  obtain ⟨r, g1, g2, g3⟩ := resampleFftOut_slots big (List.replicate fa.length 0) (fun _ b => b) id (by omega) (by simpa using hm)
  simp only [List.length_replicate] at g2 g3
  refine ⟨big, h1, ?_⟩
  unfold resampleFft
  rw [g1]
  congr 1
  apply List.ext_getElem? 
  intro j
  rcases Nat.lt_or_ge j fa.length with hj | hj
  · rw [g3 j hj, List.getElem?_eq_getElem hj]
    by_cases hlow : j < fa.length / 2
    · have := h3 j (by omega)
      rw [dif_pos (by omega)] at this ⊢
      rw [List.getElem?_eq_getElem (by omega)] at this
      exact this
    · have := h3 (j + n - fa.length) (by omega)
      rw [dif_neg (by omega), dif_pos (by omega)] at this ⊢
      rw [List.getElem?_eq_getElem (by omega)] at this
      simp only [h2]
      rw [Option.some.inj this]
      simp only [id, Option.some.injEq]
      congr 1
      omega
  · rw [List.getElem?_eq_none (by omega), List.getElem?_eq_none hj]

/-- C44: the version in resample.py reshapes every axis in the same way, for all positive lengths. -/
theorem C44_axis [Zero α] (fd : List α) (n : Nat) (hm : 0 < fd.length) (hn : 0 < n) :
    resampleFft fd n id = some (resampleAxis fd n) := by
  obtain ⟨r, g1, g2, g3⟩ := resampleFftOut_slots fd (List.replicate n 0) (fun _ b => b) id hm (by simpa using hn)
  simp only [List.length_replicate] at g2 g3
  unfold resampleFft
  rw [g1]
  congr 1
  apply List.ext_getElem?
  intro j
  unfold resampleAxis
  simp only
  rcases Nat.lt_or_ge j n with hj | hj
  · rw [g3 j hj]
    by_cases h1 : n > fd.length
    · rw [if_pos h1]
      by_cases a : j < fd.length / 2
      · rw [dif_pos (by omega), List.append_assoc, List.getElem?_append_left (by simp; omega), List.getElem?_take_of_lt a,
          List.getElem?_eq_getElem (by omega)]; rfl
      · rw [dif_neg (by omega)]
        by_cases b : fd.length / 2 + (n - fd.length) ≤ j
        · rw [dif_pos (by omega), List.getElem?_append_right (by simp; omega), List.getElem?_drop, List.getElem?_eq_getElem (by simp; omega)]
          simp only [id]
          congr 2
          simp
          omega
        · rw [dif_neg (by omega), List.append_assoc, List.getElem?_append_right (by simp; omega), List.getElem?_append_left (by simp; omega)]
          rw [List.getElem?_replicate_of_lt (by simp; omega)]
          simp
    · rw [if_neg h1]
      by_cases h2 : n < fd.length
      · rw [if_pos h2]
        by_cases a : j < n / 2
        · rw [dif_pos (by omega), List.getElem?_append_left (by simp; omega), List.getElem?_take_of_lt a,
            List.getElem?_eq_getElem (by omega)]; rfl
        · rw [dif_neg (by omega), dif_pos (by omega), List.getElem?_append_right (by simp; omega), List.getElem?_drop,
            List.getElem?_eq_getElem (by simp; omega)]
          simp only [id]
          congr 2
          simp
          omega
      · rw [if_neg h2]
        have : n = fd.length := by omega
        rw [List.getElem?_eq_getElem (by omega)]
        split
        · rfl
        · rw [dif_pos (by omega)]
          simp only [id]
          congr 2
          omega
  · rw [List.getElem?_eq_none (by omega)]
    symm
    rw [List.getElem?_eq_none]
    split
    · simp; omega
    · split
      · simp; omega
      · omega

example : resampleAxis [10, 11, -11] 5 = [10, 0, 0, 11, -11] ∧ resampleAxis [10, 11, 12, 13, -11] 2 = [10, -11] := by decide

/-- C44: enmap.resample_fft does the same in both directions of a map at once: a coefficient with frequency numbers
`(ky,kx)` in the copied ranges goes to the slots of the same numbers; all others keep the value of the output map. -/
theorem C44_map (op : α → α → α) (norm : α → α) (fi fo : Nat → Nat → α) (my mx ny nx : Nat)
    (hmy : 0 < my) (hmx : 0 < mx) (hny : 0 < ny) (hnx : 0 < nx) :
    let res := resampleQuads op norm fi fo my mx ny nx
    let copied := fun (m n : Nat) (k : Int) => -((min m n - min m n / 2 : Nat) : Int) ≤ k ∧ k < ((min m n / 2 : Nat) : Int)
    (∀ ky kx : Int, copied my ny ky → copied mx nx kx →
      res (freqSlot ny ky) (freqSlot nx kx) = op (fo (freqSlot ny ky) (freqSlot nx kx)) (norm (fi (freqSlot my ky) (freqSlot mx kx)))) ∧
    (∀ y x, y < ny → x < nx → (¬ (∃ ky kx : Int, copied my ny ky ∧ copied mx nx kx ∧ freqSlot ny ky = y ∧ freqSlot nx kx = x)) →
      res y x = fo y x) := by
  simp only
  have slots : ∀ (m n : Nat) (k : Int), -((min m n - min m n / 2 : Nat) : Int) ≤ k → k < ((min m n / 2 : Nat) : Int) →
      (0 ≤ k ∧ freqSlot n k = k.toNat ∧ freqSlot m k = k.toNat) ∨
      (k < 0 ∧ freqSlot n k = (k + n).toNat ∧ freqSlot m k = (k + m).toNat) := by
    intro m n k h1 h2
    rcases lt_or_ge k 0 with hk | hk
    · exact Or.inr ⟨hk, freqSlot_neg hk (by omega), freqSlot_neg hk (by omega)⟩
    · exact Or.inl ⟨hk, freqSlot_nonneg hk (by omega), freqSlot_nonneg hk (by omega)⟩
  constructor
  · rintro ky kx ⟨hy1, hy2⟩ ⟨hx1, hx2⟩
    unfold resampleQuads setQuad
    rcases slots my ny ky hy1 hy2 with ⟨a1, a2, a3⟩ | ⟨a1, a2, a3⟩ <;>
    rcases slots mx nx kx hx1 hx2 with ⟨b1, b2, b3⟩ | ⟨b1, b2, b3⟩ <;> rw [a2, a3, b2, b3]
    · rw [if_neg (by omega), if_neg (by omega), if_neg (by omega), if_pos (by omega)]
      simp
    · rw [if_neg (by omega), if_neg (by omega), if_pos (by omega), if_neg (by omega)]
      congr 3 <;> omega
    · rw [if_neg (by omega), if_pos (by omega), if_neg (by omega), if_neg (by omega)]
      congr 3 <;> omega
    · rw [if_pos (by omega), if_neg (by omega), if_neg (by omega), if_neg (by omega)]
      congr 3 <;> omega
  · intro y x hy hx hno
    have key : ∀ (m n j : Nat), 0 < m → j < n → (j < min m n / 2 ∨ n - (min m n - min m n / 2) ≤ j) →
        ∃ k : Int, (-((min m n - min m n / 2 : Nat) : Int) ≤ k ∧ k < ((min m n / 2 : Nat) : Int)) ∧ freqSlot n k = j := by
      intro m n j hm hj h
      rcases h with h | h
      · exact ⟨j, by omega, by rw [freqSlot_nonneg (by omega) (by omega)]; omega⟩
      · exact ⟨(j : Int) - n, by omega, by rw [freqSlot_neg (by omega) (by omega)]; omega⟩
    have : ¬ ((y < min my ny / 2 ∨ ny - (min my ny - min my ny / 2) ≤ y) ∧ (x < min mx nx / 2 ∨ nx - (min mx nx - min mx nx / 2) ≤ x)) := by
      rintro ⟨h1, h2⟩
      obtain ⟨ky, c1, e1⟩ := key my ny y hmy hy h1
      obtain ⟨kx, c2, e2⟩ := key mx nx x hmx hx h2
      exact hno ⟨ky, kx, c1, c2, e1, e2⟩
    unfold resampleQuads setQuad
    rw [if_neg (by omega), if_neg (by omega), if_neg (by omega), if_neg (by omega)]

example : (List.range 3).map (fun x => resampleQuads (fun _ b => b) id (fun y x => ((10 * y + x : Nat) : Int)) (fun _ _ => -1) 4 4 2 3 1 x)
    = [30, 32, 33] := by decide

end Pixell
