import Verif.Lemmas.SBox
/-
C10 (intersection) and C12 (algebra) of slice boxes.
-/
namespace Pixell
open PySpec

/-! ## C12 -/

/-- `sbox_size` counts the indices of the box (for boxes that are empty the code may return a
negative number, which stands for zero). -/
theorem C12_size (b : SBox) (hs : b.step ≠ 0) : (sboxSize b).toNat = b.idx.length := by
  rw [sboxSize_toNat b hs, SBox.idx, length_range]

/-- Normalising a box does not change its indices. -/
theorem C12_fix (b : SBox) (hs : b.step ≠ 0) : (sboxFix b).idx = b.idx := idx_sboxFix b hs

/-- Flipping a normalised box reverses its index list; flipping twice is the identity. -/
theorem C12_flip (b : SBox) (hs : b.step ≠ 0) :
    (sboxFlip (sboxFix b)).idx = b.idx.reverse ∧ sboxFlip (sboxFlip b) = b := by
  refine ⟨by rw [idx_sboxFlip _ (sboxFix_fixed b hs), idx_sboxFix b hs], ?_⟩
  simp only [sboxFlip]
  cases b; simp

/-- `sbox2slice` selects exactly the indices of a non-empty box from an array containing it. -/
theorem C12_slice (b : SBox) (n : Nat) (hs : b.step ≠ 0) (hne : b.idx ≠ [])
    (hin : ∀ x ∈ b.idx, 0 ≤ x ∧ x < n) : (sbox2slice b).select n = some b.idx := by
  have h0 : b.start ∈ b.idx := by
    rw [SBox.idx, mem_range]
    have : 0 < rangeLen b.start b.stop b.step := by
      rw [← length_range]; exact List.length_pos_of_ne_nil hne
    have := (lt_rangeLen_iff _ _ _ 0).1 this
    exact ⟨0, by simp, by simpa using this⟩
  have hb := hin _ h0
  have hlen : 0 < rangeLen b.start b.stop b.step := by
    rw [← length_range]; exact List.length_pos_of_ne_nil hne
  have hlt := (lt_rangeLen_iff _ _ _ 0).1 hlen
  simp only [Nat.cast_zero, zero_mul, add_zero] at hlt
  simp only [Slice.select, Slice.indices, sbox2slice, Option.getD_some, hs, if_false, Option.map_some,
    Option.some.injEq, SBox.idx]
  have ea : adjust n b.step b.start = b.start := by
    unfold adjust; rw [if_neg (by omega), if_neg (by omega)]
  rw [ea]
  apply range_congr
  have key : ∀ k : Nat, k < rangeLen b.start b.stop b.step →
      0 ≤ b.start + k * b.step ∧ b.start + k * b.step < n := by
    intro k hk
    apply hin
    rw [SBox.idx, mem_range]
    exact ⟨k, rfl, (lt_rangeLen_iff _ _ _ k).1 hk⟩
  have iff : ∀ e : Int, (∀ k : Nat, k < rangeLen b.start e b.step ↔ k < rangeLen b.start b.stop b.step) →
      rangeLen b.start e b.step = rangeLen b.start b.stop b.step := by
    intro e h
    have h1 := h (rangeLen b.start e b.step)
    have h2 := h (rangeLen b.start b.stop b.step)
    omega
  apply iff
  intro k
  rcases hlt with ⟨hp, hl⟩ | ⟨hn, hl⟩
  · have hst : 0 ≤ b.stop := by omega
    simp only [hst, if_true]
    rw [lt_rangeLen_iff, lt_rangeLen_iff]
    simp only [adjust]
    by_cases hc : (n:Int) ≤ b.stop
    · rw [if_neg (by omega), if_pos hc, if_neg (by omega)]
      constructor
      · rintro (h | h)
        · left; omega
        · omega
      · intro h
        left
        refine ⟨hp, ?_⟩
        exact (key k ((lt_rangeLen_iff _ _ _ k).2 h)).2
    · rw [if_neg (by omega), if_neg hc]
  · by_cases hst : 0 ≤ b.stop
    · simp only [hst, if_true]
      have : adjust n b.step b.stop = b.stop := by
        unfold adjust; rw [if_neg (by omega), if_neg (by omega)]
      rw [this]
    · simp only [hst, if_false, hn, if_true]
      constructor
      · intro h
        rw [lt_rangeLen_iff] at h ⊢
        right; omega
      · intro h
        have := key k h
        rw [lt_rangeLen_iff]
        right; omega

/-- For the empty box obtained by flipping `[0,0,1]` it selects the whole array instead. -/
theorem C12_slice_empty_refuted :
    (sboxFlip ⟨0, 0, 1⟩).idx = [] ∧ (sbox2slice (sboxFlip ⟨0, 0, 1⟩)).select 3 = some [2, 1, 0] := by
  decide +kernel

/-- Full claim for `sbox_mul`: `arr[mul a b] = arr[a][b]`. -/
def C12_mul_claim : Prop :=
  ∀ a b : SBox, a.step ≠ 0 → b.step ≠ 0 → (∀ j ∈ b.idx, 0 ≤ j ∧ j < sboxSize a) →
    (sboxMul a b).idx = b.idx.map fun j => a.start + j * a.step

/-- If the first box runs backwards, the second one is applied to the wrong end. -/
theorem C12_mul_refuted : ¬ C12_mul_claim := by
  intro h
  have := h ⟨9, -1, -1⟩ ⟨0, 3, 1⟩ (by decide) (by decide) (by decide +kernel)
  revert this
  decide +kernel

theorem mul_pos_case (a b : SBox) (hap : 0 < a.step) (hb : b.Fixed) (hbp : 0 < b.step)
    (hin : ∀ j ∈ b.idx, 0 ≤ j ∧ j * a.step ≤ a.stop - a.step - a.start) :
    (sboxFix ⟨a.start + b.start * a.step, min (a.start + b.stop * a.step) a.stop, a.step * b.step⟩).idx
      = b.idx.map fun j => a.start + j * a.step := by
  have hcs : a.step * b.step ≠ 0 := by have := Int.mul_pos hap hbp; omega
  have hcp : 0 < a.step * b.step := Int.mul_pos hap hbp
  rw [idx_sboxFix _ hcs]
  obtain ⟨_, n, hn⟩ := hb
  have hlb : rangeLen b.start b.stop b.step = n.toNat := by rw [hn]; exact rangeLen_mul _ _ _ (by omega)
  have hlen : rangeLen (a.start + b.start * a.step) (min (a.start + b.stop * a.step) a.stop)
      (a.step * b.step) = n.toNat := by
    have key : ∀ k : Nat, k < rangeLen (a.start + b.start * a.step)
        (min (a.start + b.stop * a.step) a.stop) (a.step * b.step) ↔ k < n.toNat := by
      intro k
      constructor
      · intro h
        rw [lt_rangeLen_iff] at h
        rcases h with ⟨_, h⟩ | ⟨h, _⟩
        · rw [← hlb, lt_rangeLen_iff]
          left
          refine ⟨hbp, ?_⟩
          have h2 : a.start + b.start * a.step + k * (a.step * b.step) < a.start + b.stop * a.step :=
            lt_of_lt_of_le h (min_le_left _ _)
          have : (b.start + k * b.step) * a.step < b.stop * a.step := by
            have e : a.start + b.start * a.step + k * (a.step * b.step)
              = a.start + (b.start + k * b.step) * a.step := by ring
            rw [e] at h2; omega
          exact lt_of_mul_lt_mul_of_nonneg_right this (by omega)
        · omega
      · intro h
        rw [← hlb] at h
        have h' := (lt_rangeLen_iff _ _ _ k).1 h
        have hmem : b.start + k * b.step ∈ b.idx := by
          rw [SBox.idx, mem_range]; exact ⟨k, rfl, h'⟩
        have hi := hin _ hmem
        rw [lt_rangeLen_iff]
        left
        refine ⟨hcp, ?_⟩
        have e : a.start + b.start * a.step + k * (a.step * b.step)
              = a.start + (b.start + k * b.step) * a.step := by ring
        rw [e, lt_min_iff]
        constructor
        · rcases h' with ⟨_, h'⟩ | ⟨h', _⟩
          · have := mul_lt_mul_of_pos_right h' hap
            omega
          · omega
        · omega
    have h1 := key n.toNat
    have h2 := key (rangeLen (a.start + b.start * a.step) (min (a.start + b.stop * a.step) a.stop)
        (a.step * b.step))
    omega
  unfold SBox.idx
  simp only [range, hlen, hlb, List.map_map]
  apply List.map_congr_left
  intro k _
  simp only [Function.comp]; ring

theorem sboxSize_fixed (b : SBox) (n : Int) (hs : b.step ≠ 0) (hn : b.stop = b.start + n * b.step)
    (hpos : 0 ≤ sboxSize b) : (n.toNat : Int) = sboxSize b := by
  have h1 := sboxSize_toNat b hs
  rw [hn, rangeLen_mul _ _ _ hs] at h1
  omega

/-- `sbox_mul` composes like nested slicing whenever the first box runs forwards; the second may run
either way. -/
theorem C12_mul_partial (a b : SBox) (ha : 0 < a.step) (hb : b.step ≠ 0)
    (hin : ∀ j ∈ b.idx, 0 ≤ j ∧ j < sboxSize a) :
    (sboxMul a b).idx = b.idx.map fun j => a.start + j * a.step := by
  have hfb := sboxFix_fixed b hb
  have hin' : ∀ j ∈ b.idx, 0 ≤ j ∧ j * (sboxFix a).step ≤ (sboxFix a).stop - (sboxFix a).step - (sboxFix a).start := by
    intro j hj
    have := hin j hj
    refine ⟨this.1, ?_⟩
    show j * a.step ≤ a.start + sboxSize a * a.step - a.step - a.start
    have h1 : j ≤ sboxSize a - 1 := by omega
    have h2 := mul_le_mul_of_nonneg_right h1 (show 0 ≤ a.step by omega)
    have e : (sboxSize a - 1) * a.step = sboxSize a * a.step - a.step := by ring
    omega
  have sa : (sboxFix a).step = a.step := rfl
  have sb : (sboxFix b).step = b.step := rfl
  have sta : (sboxFix a).start = a.start := rfl
  unfold sboxMul
  simp only [sa, sb, sta, show ¬ a.step < 0 by omega, if_false, decide_false, Bool.false_xor]
  rcases Int.lt_or_gt_of_ne hb with h | h
  · simp only [h, if_true, decide_true]
    have hfl := sboxFlip_fixed _ hfb
    have hmem : ∀ j, j ∈ (sboxFlip (sboxFix b)).idx ↔ j ∈ b.idx := by
      intro j; rw [idx_sboxFlip _ hfb, List.mem_reverse, idx_sboxFix b hb]
    have := mul_pos_case (sboxFix a) (sboxFlip (sboxFix b)) ha hfl (by
      show 0 < -b.step; omega) (fun j hj => hin' j ((hmem j).1 hj))
    rw [sa, sta] at this
    rw [idx_sboxFlip _ (sboxFix_fixed _ (by
      show a.step * (-b.step) ≠ 0
      have := Int.mul_pos ha (show 0 < -b.step by omega); omega)), this,
      idx_sboxFlip _ hfb, idx_sboxFix b hb, List.map_reverse, List.reverse_reverse]
  · have h' : ¬ b.step < 0 := by omega
    simp only [h', if_false, decide_false, Bool.false_eq_true]
    have := mul_pos_case (sboxFix a) (sboxFix b) ha hfb h (by
      intro j hj; rw [idx_sboxFix b hb] at hj; exact hin' j hj)
    rw [idx_sboxFix b hb, sa, sta] at this
    exact this

/-- `sbox_div` finds the box `c` with `arr[a] = arr[b][c]` whenever `a` lies on the grid of `b`. -/
theorem C12_div (a b : SBox) (c0 c2 : Int) (hb : b.step ≠ 0) (hc : c2 ≠ 0)
    (h0 : a.start = b.start + c0 * b.step) (h2 : a.step = c2 * b.step) :
    (sboxDiv a b).idx.map (fun j => b.start + j * b.step) = a.idx ∧ (sboxDiv a b).start = c0 ∧
      (sboxDiv a b).step = c2 := by
  have ha : a.step ≠ 0 := by rw [h2]; exact Int.mul_ne_zero hc hb
  have e1 : Int.fdiv a.step b.step = c2 := by rw [h2]; exact Int.mul_fdiv_cancel _ hb
  have e2 : Int.fdiv (a.start - b.start) b.step = c0 := by
    rw [h0, add_sub_cancel_left]; exact Int.mul_fdiv_cancel _ hb
  have e3 : Int.fdiv (a.start + sboxSize a * a.step - a.start) a.step = sboxSize a := by
    rw [add_sub_cancel_left]; exact Int.mul_fdiv_cancel _ ha
  have e : sboxDiv a b = ⟨c0, c0 + c2 * sboxSize a, c2⟩ := by
    simp only [sboxDiv, sboxFix, e1, e2, e3]
  rw [e]
  refine ⟨?_, rfl, rfl⟩
  unfold SBox.idx
  simp only
  rw [mul_comm c2]
  unfold range
  rw [rangeLen_mul _ _ _ hc, sboxSize_toNat a ha, List.map_map]
  apply List.map_congr_left
  intro k _
  simp only [Function.comp]
  rw [h0, h2]; ring

example : (sboxMul ⟨10, 30, 3⟩ ⟨5, -1, -2⟩).idx = [25, 19, 13] := by decide +kernel
example : ∀ j ∈ (SBox.mk 5 (-1) (-2)).idx, 0 ≤ j ∧ j < sboxSize ⟨10, 30, 3⟩ := by decide +kernel
example : (sboxDiv ⟨25, 7, -6⟩ ⟨10, 31, 3⟩).idx = [5, 3, 1] := by decide +kernel

/-! ## C10 -/

/-- The intersection of two normalised boxes with the second starting no earlier. -/
theorem mem_intersectSeg_aux (a b : SBox) (ha : a.Fixed) (hap : 0 < a.step) (hb : b.Fixed)
    (hbp : 0 < b.step) (hab : ¬ b.start < a.start) (x : Int) :
    (∃ r ∈ intersectSeg a b, 0 < r.step ∧ r.Fixed ∧ x ∈ r.idx) ↔ x ∈ a.idx ∧ x ∈ b.idx := by
  rw [mem_idx_pos a ha hap, mem_idx_pos b hb hbp]
  have hL : (0:Int) < (pyLcm a.step.natAbs b.step.natAbs : Nat) := by
    rw [pyLcm_eq]
    have := Nat.lcm_pos (m := a.step.natAbs) (n := b.step.natAbs) (by omega) (by omega)
    omega
  have hdvd : ∀ y : Int, ((pyLcm a.step.natAbs b.step.natAbs : Nat) : Int) ∣ y ↔ a.step ∣ y ∧ b.step ∣ y := by
    intro y
    rw [pyLcm_eq, Int.natCast_dvd]
    rw [← Int.natAbs_dvd_natAbs, ← Int.natAbs_dvd_natAbs]
    exact Nat.lcm_dvd_iff
  unfold intersectSeg
  simp only [if_neg hab]
  generalize hLdef : ((pyLcm a.step.natAbs b.step.natAbs : Nat) : Int) = L at *
  have hLa : a.step ∣ L := ((hdvd L).1 (Int.dvd_refl L)).1
  have hLb : b.step ∣ L := ((hdvd L).1 (Int.dvd_refl L)).2
  -- any common element leads to a match among the candidates, not later than itself
  have cand : ∀ y, b.start ≤ y → a.step ∣ y - a.start → b.step ∣ y - b.start →
      ∃ r ∈ range (b.start - a.start) (b.start - a.start + L) b.step, a.step ∣ r ∧ r + a.start ≤ y ∧
        L ∣ y - (r + a.start) := by
    intro y hy d1 d2
    obtain ⟨q, hq⟩ : ∃ q, q = (y - b.start) / L := ⟨_, rfl⟩
    have hm := Int.emod_add_mul_ediv (y - b.start) L
    have hm0 := Int.emod_nonneg (y - b.start) (show L ≠ 0 by omega)
    have hm1 := Int.emod_lt_of_pos (y - b.start) hL
    refine ⟨(y - b.start) % L + (b.start - a.start), ?_, ?_, ?_, ?_⟩
    · rw [mem_range]
      obtain ⟨t, ht⟩ : b.step ∣ (y - b.start) % L := by
        rw [Int.emod_def]
        exact Int.dvd_sub d2 (Dvd.dvd.mul_right hLb _)
      have ht0 : 0 ≤ t := by
        by_contra hc
        have : b.step * t < 0 := mul_neg_of_pos_of_neg hbp (by omega)
        omega
      refine ⟨t.toNat, ?_, Or.inl ⟨hbp, by omega⟩⟩
      rw [Int.toNat_of_nonneg ht0, ht]; ring
    · have : (y - b.start) % L + (b.start - a.start) = (y - a.start) - L * ((y - b.start) / L) := by omega
      rw [this]
      exact Int.dvd_sub d1 (Dvd.dvd.mul_right hLa _)
    · have : 0 ≤ (y - b.start) / L := Int.ediv_nonneg (by omega) (by omega)
      have : 0 ≤ L * ((y - b.start) / L) := mul_nonneg (by omega) this
      omega
    · exact ⟨(y - b.start) / L, by omega⟩
  cases hf : (range (b.start - a.start) (b.start - a.start + L) b.step).find? (fun r => r % a.step == 0) with
  | none =>
    simp only [List.not_mem_nil, false_and, exists_false, false_iff]
    rintro ⟨⟨h1, h2, h3⟩, h4, h5, h6⟩
    obtain ⟨r, hr, hr2, _⟩ := cand x h4 h3 h6
    rw [List.find?_eq_none] at hf
    have := hf r hr
    simp only [beq_iff_eq] at this
    exact this (Int.emod_eq_zero_of_dvd hr2)
  | some r =>
    have hr := List.find?_some hf
    simp only [beq_iff_eq] at hr
    have hra : a.step ∣ r := Int.dvd_of_emod_eq_zero hr
    have hrm := List.mem_of_find?_eq_some hf
    obtain ⟨k, hk, hk2⟩ := (mem_range _ _ _ _).1 hrm
    have hrL : r < b.start - a.start + L := by omega
    have hk0 : 0 ≤ (k:Int) * b.step := mul_nonneg (by omega) (by omega)
    have hrb : b.step ∣ r + a.start - b.start := ⟨k, by rw [hk]; ring⟩
    obtain ⟨M, hM⟩ : ∃ M, M = min (a.stop - a.step) (b.stop - b.step) := ⟨_, rfl⟩
    obtain ⟨Q, hQ⟩ : ∃ Q, Q = Int.fdiv (M - (r + a.start)) L := ⟨_, rfl⟩
    have hQ1 : Q * L ≤ M - (r + a.start) := by
      rw [hQ, Int.fdiv_eq_ediv_of_nonneg _ (by omega)]
      have := Int.ediv_mul_le (M - (r + a.start)) (show L ≠ 0 by omega)
      exact this
    have hQ2 : M - (r + a.start) < Q * L + L := by
      rw [hQ, Int.fdiv_eq_ediv_of_nonneg _ (by omega)]
      have := Int.lt_ediv_add_one_mul_self (M - (r + a.start)) hL
      have e : ((M - (r + a.start)) / L + 1) * L = (M - (r + a.start)) / L * L + L := by ring
      omega
    simp only
    rw [← hM, ← hQ]
    -- every common element is start + m L
    have common : ∀ y, b.start ≤ y → a.step ∣ y - a.start → b.step ∣ y - b.start →
        r + a.start ≤ y ∧ L ∣ y - (r + a.start) := by
      intro y hy d1 d2
      have hd : L ∣ y - (r + a.start) := by
        rw [hdvd]
        constructor
        · have : y - (r + a.start) = (y - a.start) - r := by ring
          rw [this]; exact Int.dvd_sub d1 hra
        · have : y - (r + a.start) = (y - b.start) - (r + a.start - b.start) := by ring
          rw [this]; exact Int.dvd_sub d2 hrb
      refine ⟨?_, hd⟩
      obtain ⟨m, hm⟩ := hd
      by_contra hc
      have hm1 : m < 0 := by
        by_contra h'
        have : 0 ≤ L * m := mul_nonneg (by omega) (by omega)
        omega
      have : L * m ≤ L * (-1) := mul_le_mul_of_nonneg_left (by omega) (by omega)
      omega
    have back : ∀ y, r + a.start ≤ y → L ∣ y - (r + a.start) → y ≤ M →
        (a.start ≤ y ∧ y ≤ a.stop - a.step ∧ a.step ∣ y - a.start) ∧
        (b.start ≤ y ∧ y ≤ b.stop - b.step ∧ b.step ∣ y - b.start) := by
      intro y h1 h2 h3
      have hd := (hdvd _).1 h2
      have hM1 : M ≤ a.stop - a.step := by rw [hM]; exact min_le_left _ _
      have hM2 : M ≤ b.stop - b.step := by rw [hM]; exact min_le_right _ _
      refine ⟨⟨by omega, by omega, ?_⟩, by omega, by omega, ?_⟩
      · have : y - a.start = (y - (r + a.start)) + r := by ring
        rw [this]; exact Int.dvd_add hd.1 hra
      · have : y - b.start = (y - (r + a.start)) + (r + a.start - b.start) := by ring
        rw [this]; exact Int.dvd_add hd.2 hrb
    split
    · rename_i hle
      simp only [List.not_mem_nil, false_and, exists_false, false_iff]
      rintro ⟨⟨h1, h2, h3⟩, h4, h5, h6⟩
      obtain ⟨g1, g2⟩ := common x h4 h3 h6
      have : x ≤ M := by rw [hM]; exact le_min h2 h5
      omega
    · rename_i hgt
      have hfix : (SBox.mk (r + a.start) (Q * L + (r + a.start) + L) L).Fixed :=
        ⟨by simp only; omega, Q + 1, by simp only; ring⟩
      constructor
      · rintro ⟨s, hs, _, _, hx⟩
        simp only [List.mem_singleton] at hs
        subst hs
        rw [mem_idx_pos _ hfix hL] at hx
        simp only at hx
        obtain ⟨h1, h2, h3⟩ := hx
        exact back x h1 h3 (by omega)
      · rintro ⟨⟨h1, h2, h3⟩, h4, h5, h6⟩
        obtain ⟨g1, g2⟩ := common x h4 h3 h6
        have hxM : x ≤ M := by rw [hM]; exact le_min h2 h5
        refine ⟨_, List.mem_singleton.2 rfl, hL, hfix, ?_⟩
        rw [mem_idx_pos _ hfix hL]
        simp only
        refine ⟨g1, ?_, g2⟩
        obtain ⟨m, hm⟩ := g2
        have hmQ : m ≤ Q := by
          by_contra hc
          have : L * (Q + 1) ≤ L * m := mul_le_mul_of_nonneg_left (by omega) (by omega)
          have e : L * (Q + 1) = Q * L + L := by ring
          omega
        have : L * m ≤ L * Q := mul_le_mul_of_nonneg_left hmQ (by omega)
        have e : L * Q = Q * L := by ring
        omega

theorem intersectSeg_swap (a b : SBox) (h : b.start < a.start) : intersectSeg a b = intersectSeg b a := by
  unfold intersectSeg
  rw [if_pos h, if_neg (by omega)]

theorem mem_intersectSeg (a b : SBox) (ha : a.Fixed) (hap : 0 < a.step) (hb : b.Fixed)
    (hbp : 0 < b.step) (x : Int) :
    (∃ r ∈ intersectSeg a b, 0 < r.step ∧ r.Fixed ∧ x ∈ r.idx) ↔ x ∈ a.idx ∧ x ∈ b.idx := by
  by_cases h : b.start < a.start
  · rw [intersectSeg_swap a b h, mem_intersectSeg_aux b a hb hbp ha hap (by omega) x, and_comm]
  · exact mem_intersectSeg_aux a b ha hap hb hbp h x

theorem intersectSeg_shape (p q : SBox) (hp : 0 < p.step) (hq : 0 < q.step) :
    (intersectSeg p q).length ≤ 1 ∧ ∀ r ∈ intersectSeg p q, 0 < r.step ∧ r.Fixed := by
  have aux : ∀ p q : SBox, 0 < p.step → 0 < q.step → ¬ q.start < p.start →
      (intersectSeg p q).length ≤ 1 ∧ ∀ r ∈ intersectSeg p q, 0 < r.step ∧ r.Fixed := by
    intro p q hp hq h
    have hL : (0:Int) < (pyLcm p.step.natAbs q.step.natAbs : Nat) := by
      rw [pyLcm_eq]
      have := Nat.lcm_pos (m := p.step.natAbs) (n := q.step.natAbs) (by omega) (by omega)
      omega
    unfold intersectSeg
    simp only [if_neg h]
    split
    · simp
    · split
      · simp
      · simp only [List.length_singleton, List.mem_singleton, forall_eq, Nat.le_refl, true_and]
        rename_i r _ _
        refine ⟨hL, by simp only; omega, Int.fdiv (min (p.stop - p.step) (q.stop - q.step) - (r + p.start))
          (pyLcm p.step.natAbs q.step.natAbs : Nat) + 1, ?_⟩
        simp only
        ring
  by_cases h : q.start < p.start
  · rw [intersectSeg_swap p q h]
    exact aux q p hq hp (by omega)
  · exact aux p q hp hq h

/-- C10.  For all boxes with nonzero steps of either sign: the result lists exactly the indices in
both boxes, as at most one box, with a positive step. -/
theorem C10_intersect (a b : SBox) (ha : a.step ≠ 0) (hb : b.step ≠ 0) :
    (∀ x, (∃ r ∈ sboxIntersect1d a b, 0 < r.step ∧ x ∈ r.idx) ↔ x ∈ a.idx ∧ x ∈ b.idx) ∧
    (sboxIntersect1d a b).length ≤ 1 ∧ ∀ r ∈ sboxIntersect1d a b, 0 < r.step := by
  have e : sboxIntersect1d a b = intersectSeg a.norm b.norm := rfl
  have hmem := mem_intersectSeg a.norm b.norm (a.norm_fixed ha).1 (a.norm_fixed ha).2 (b.norm_fixed hb).1
    (b.norm_fixed hb).2
  have hl := intersectSeg_shape a.norm b.norm (a.norm_fixed ha).2 (b.norm_fixed hb).2
  rw [e]
  refine ⟨fun x => ?_, hl.1, fun r hr => (hl.2 r hr).1⟩
  rw [← mem_norm_idx a ha, ← mem_norm_idx b hb, ← hmem x]
  constructor
  · rintro ⟨r, hr, hp, hx⟩
    exact ⟨r, hr, hp, (hl.2 r hr).2, hx⟩
  · rintro ⟨r, hr, hp, _, hx⟩
    exact ⟨r, hr, hp, hx⟩

/-- If the boxes have no common index the result is empty, and conversely. -/
theorem C10_empty (a b : SBox) (ha : a.step ≠ 0) (hb : b.step ≠ 0)
    (h : ∀ x ∈ a.idx, x ∉ b.idx) : ∀ r ∈ sboxIntersect1d a b, r.idx = [] := by
  intro r hr
  obtain ⟨h1, _, h3⟩ := C10_intersect a b ha hb
  apply List.eq_nil_iff_forall_not_mem.2
  intro x hx
  obtain ⟨g1, g2⟩ := (h1 x).1 ⟨r, hr, h3 r hr, hx⟩
  exact h x g1 g2

example : sboxIntersect1d ⟨20, 0, -3⟩ ⟨1, 30, 2⟩ = [⟨5, 23, 6⟩] := by decide +kernel
example : sboxIntersect1d ⟨0, 20, 2⟩ ⟨1, 20, 2⟩ = [] := by decide +kernel

end Pixell
