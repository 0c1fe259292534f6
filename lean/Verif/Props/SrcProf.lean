import Verif.Lemmas.SrcSim
import Mathlib.Tactic.NormNum
import Mathlib.Tactic.IntervalCases
import Mathlib.Algebra.BigOperators.Group.Finset.Basic

/-!
# C86, C87: profiles of objects, how far out they are painted, radial sums
-/

set_option linter.unusedSectionVars false

namespace Pixell

/-! ## C86: the value of a profile at a distance -/

/-- The samples are at increasing distances. -/
def Increasing (n : ℕ) (rs : ℕ → ℚ) : Prop := ∀ i j, i < j → j < n → rs i < rs j

theorem binarySearch_eq {n : ℕ} {rs : ℕ → ℚ} (h : Increasing n rs) {r : ℚ} {i : ℕ}
    (hi : i + 1 < n) (h1 : rs i ≤ r) (h2 : r < rs (i + 1)) : binarySearch n rs r = i := by
  unfold binarySearch
  have h0 : rs 0 ≤ r := by
    rcases Nat.eq_zero_or_pos i with rfl | hp
    · exact h1
    · exact (h 0 i hp (by omega)).le.trans h1
  have hn : r < rs (n - 1) := by
    rcases Nat.lt_or_ge (i + 1) (n - 1) with hp | hp
    · exact h2.trans (h _ _ hp (by omega))
    · rwa [show n - 1 = i + 1 by omega]
  rw [if_neg (not_lt.2 h0), if_neg (not_le.2 hn)]
  obtain ⟨s1, s2, _, s4⟩ := bsLoop_spec rs r n 0 (n - 1) (by omega) (by omega) h0 hn
  set k := bsLoop rs r n 0 (n - 1)
  have : k = i := by
    rcases Nat.lt_trichotomy k i with hk | hk | hk
    · exfalso
      have : rs (k + 1) ≤ rs i := by
        rcases Nat.lt_or_ge (k + 1) i with hp | hp
        · exact (h _ _ hp (by omega)).le
        · rw [show k + 1 = i by omega]
      linarith
    · exact hk
    · exfalso
      have : rs (i + 1) ≤ rs k := by
        rcases Nat.lt_or_ge (i + 1) k with hp | hp
        · exact (h _ _ hp (by omega)).le
        · rw [show i + 1 = k by omega]
      linarith
  rw [this]

/-- **C86 (linear interpolation).** The profile of an object is the first sample below the first
distance, zero from the last distance on, and on each interval between samples the straight line
through them. -/
theorem C86_profile {n : ℕ} {rs : ℕ → ℚ} (h : Increasing n rs) (vs : ℕ → ℚ) (r : ℚ) :
    (r < rs 0 → evaluateProfile n rs vs r false = vs 0) ∧
    (rs 0 ≤ r → rs (n - 1) ≤ r → evaluateProfile n rs vs r false = 0) ∧
    (∀ i, i + 1 < n → rs i ≤ r → r < rs (i + 1) →
      evaluateProfile n rs vs r false * (rs (i + 1) - rs i)
        = vs i * (rs (i + 1) - r) + vs (i + 1) * (r - rs i)) := by
  refine ⟨fun h1 => ?_, fun h0 h1 => ?_, fun i hi h1 h2 => ?_⟩
  · unfold evaluateProfile binarySearch
    simp [h1]
  · unfold evaluateProfile binarySearch
    rw [if_neg (not_lt.2 h0), if_pos h1]
    simp only [Bool.false_eq_true, if_false]
    rw [if_neg (by omega), if_pos (by omega)]
  · unfold evaluateProfile
    rw [binarySearch_eq h hi h1 h2]
    simp only [Bool.false_eq_true, if_false]
    rw [if_neg (by omega), if_neg (by omega)]
    have hd : rs (i + 1) - rs i ≠ 0 := by
      have := h i (i + 1) (by omega) hi
      linarith
    simp only [Int.toNat_natCast]
    field_simp
    ring

/-- The profile at a sample is the sample, except the last one. -/
example : evaluateProfile 3 (fun i => [0, 1, 3].getD i 0) (fun i => [5, 4, 2].getD i 0) 2 false
    = 3 := by decide +kernel

/-- **C86 (equal spacing, partial).** For samples at `0, δ, 2δ, ...` the fast lookup gives the same
profile as the search, at distances below the number of samples. Missing: larger distances, where it
fails (`C86_equi_refuted`). -/
theorem C86_equi_partial {n : ℕ} (hn : 2 ≤ n) {δ : ℚ} (hδ : 0 < δ) (vs : ℕ → ℚ) {r : ℚ}
    (h0 : 0 ≤ r) (hr : r < n) :
    evaluateProfile n (fun i => i * δ) vs r true = evaluateProfile n (fun i => i * δ) vs r false := by
  have hinc : Increasing n (fun i : ℕ => (i : ℚ) * δ) := by
    intro i j hij _
    have : (i : ℚ) < j := by exact_mod_cast hij
    exact mul_lt_mul_of_pos_right this hδ
  have hk0 : 0 ≤ ⌊r / δ⌋ := Int.floor_nonneg.2 (div_nonneg h0 hδ.le)
  have he : equiSearch n (fun i : ℕ => (i : ℚ) * δ) r = ⌊r / δ⌋ := by
    unfold equiSearch
    simp only [Nat.cast_one, one_mul]
    rw [if_neg (by omega), if_neg (not_le.2 hr)]
  have hlo : (⌊r / δ⌋ : ℚ) * δ ≤ r := by
    have := Int.floor_le (r / δ)
    rwa [le_div_iff₀ hδ] at this
  have hhi : r < ((⌊r / δ⌋ : ℚ) + 1) * δ := by
    have := Int.lt_floor_add_one (r / δ)
    rwa [div_lt_iff₀ hδ] at this
  obtain ⟨k, hk⟩ := Int.eq_ofNat_of_zero_le hk0
  rw [hk] at he hlo hhi
  push_cast at hlo hhi
  by_cases hkn : k + 1 < n
  · have hb := binarySearch_eq hinc (r := r) hkn hlo (by push_cast; exact hhi)
    unfold evaluateProfile
    simp only [if_true, Bool.false_eq_true, if_false]
    rw [he, hb]
  · have hlast : ((n - 1 : ℕ) : ℚ) * δ ≤ r := by
      have : ((n - 1 : ℕ) : ℚ) ≤ k := by exact_mod_cast (by omega : n - 1 ≤ k)
      nlinarith
    rw [(C86_profile hinc vs r).2.1 (by simpa using h0) hlast]
    unfold evaluateProfile
    simp only [if_true]
    rw [he, if_neg (by omega), if_pos (by omega)]

example : evaluateProfile 4 (fun i => i * (1 / 2)) (fun i => [8, 4, 2, 1].getD i 0) (3 / 4) true
    = 3 := by decide +kernel

/-- **C86 refuted (equal spacing).** The fast lookup compares the distance with the number of samples
instead of the last sample, so a profile with three samples 2 apart is cut at distance 3: there the
search gives 1 and the fast lookup 0. -/
theorem C86_equi_refuted :
    ∃ (n : ℕ) (rs vs : ℕ → ℚ) (r : ℚ), isEqui n rs = true ∧ (∀ i, rs i = i * rs 1) ∧
      0 ≤ r ∧ r < rs (n - 1) ∧ evaluateProfile n rs vs r true = 0 ∧
      evaluateProfile n rs vs r false = 1 :=
  ⟨3, fun i => i * 2, fun _ => 1, 3, by decide +kernel, fun i => by simp,
    by norm_num, by norm_num, by decide +kernel, by decide +kernel⟩

/-- **C86 refuted (recognising equal spacing).** Samples at `0, 1, 3/2, 3` pass the test for equal
spacing, which only looks at the second and the last one, and the profile is then evaluated at the
wrong place. -/
theorem C86_is_equi_refuted :
    ∃ (n : ℕ) (rs vs : ℕ → ℚ) (r : ℚ), Increasing n rs ∧ isEqui n rs = true ∧
      evaluateProfile n rs vs r (isEqui n rs) ≠ evaluateProfile n rs vs r false := by
  refine ⟨4, fun i => [0, 1, 3 / 2, 3].getD i 0, fun i => [3, 2, 1, 0].getD i 0, 7 / 4, ?_,
    by decide +kernel, by decide +kernel⟩
  intro i j hij hj
  interval_cases j <;> interval_cases i <;> norm_num

/-! ### How far out an object is painted -/

/-- **C86 (extent without the table).** The extent of an object is the distance of the last sample
whose size is at least the cutoff, or the first sample if there is none. -/
theorem C86_extent {n : ℕ} (hn : 0 < n) (vs : ℕ → ℚ) (vrel : ℚ) :
    ∃ i, extentIndex n vs vrel false = some i ∧ i < n ∧ (∀ j, i < j → j < n → |vs j| < vrel) ∧
      (0 < i → vrel ≤ |vs i|) := by
  obtain ⟨h1, h2, h3, _⟩ := scanDown_spec vs vrel 0 (n - 1)
  refine ⟨scanDown vs vrel 0 (n - 1), ?_, by omega, fun j hj hjn => h2 j hj (by omega), h3⟩
  unfold extentIndex
  simp only [Bool.false_eq_true, if_false]
  rw [if_neg (by omega), show ((n : ℤ) - 1).toNat = n - 1 by omega]

/-- **C86 (nothing above the cutoff further out).** From the sample after the extent on, the profile
is below the cutoff everywhere. -/
theorem C86_beyond {n : ℕ} {rs : ℕ → ℚ} (h : Increasing n rs) (vs : ℕ → ℚ) {vrel : ℚ}
    (hv : 0 < vrel) {i : ℕ} (he : extentIndex n vs vrel false = some i) {r : ℚ}
    (hi : i + 1 < n) (hr : rs (i + 1) ≤ r) : |evaluateProfile n rs vs r false| < vrel := by
  obtain ⟨i', he', hin, hlt, _⟩ := C86_extent (show 0 < n by omega) vs vrel
  rw [he] at he'
  obtain rfl := Option.some.inj he'
  have h0 : rs 0 ≤ r := (h 0 (i + 1) (by omega) hi).le.trans hr
  by_cases hlast : rs (n - 1) ≤ r
  · rw [(C86_profile h vs r).2.1 h0 hlast, abs_zero]; exact hv
  · -- find the interval of r
    have hex : ∃ k, k + 1 < n ∧ rs k ≤ r ∧ r < rs (k + 1) := by
      obtain ⟨s1, s2, _, s4⟩ := bsLoop_spec rs r n 0 (n - 1) (by omega) (by omega) h0
        (not_le.1 hlast)
      exact ⟨_, by omega, s1, s2⟩
    obtain ⟨k, hk, k1, k2⟩ := hex
    have hik : i < k := by
      by_contra hc
      have : rs (k + 1) ≤ rs (i + 1) := by
        rcases Nat.lt_or_ge k i with hp | hp
        · exact (h _ _ (by omega) hi).le
        · rw [show k = i by omega]
      linarith
    have hb1 := abs_lt.1 (hlt k hik (by omega))
    have hb2 := abs_lt.1 (hlt (k + 1) (by omega) hk)
    have hf := (C86_profile h vs r).2.2 k hk k1 k2
    have hd : 0 < rs (k + 1) - rs k := by linarith
    set e := evaluateProfile n rs vs r false
    have ha : 0 < rs (k + 1) - r := by linarith
    have hb : 0 ≤ r - rs k := by linarith
    rw [abs_lt]
    constructor
    · by_contra hc
      have h5 : e * (rs (k + 1) - rs k) ≤ -vrel * (rs (k + 1) - rs k) :=
        mul_le_mul_of_nonneg_right (not_lt.1 hc) hd.le
      nlinarith [mul_pos (show 0 < vs k + vrel by linarith) ha,
        mul_nonneg (show 0 ≤ vs (k + 1) + vrel by linarith) hb]
    · by_contra hc
      have h5 : vrel * (rs (k + 1) - rs k) ≤ e * (rs (k + 1) - rs k) :=
        mul_le_mul_of_nonneg_right (not_lt.1 hc) hd.le
      nlinarith [mul_pos (show 0 < vrel - vs k by linarith) ha,
        mul_nonneg (show 0 ≤ vrel - vs (k + 1) by linarith) hb]

/-- **C86 refuted (everything above the cutoff is painted).** The extent ends at the last sample above
the cutoff, although the profile is still above it for a while: with samples 1, 1, 0 at 0, 1, 2 and a
cutoff of one half the extent is 1, and at 5/4 the profile is 3/4. -/
theorem C86_tail_refuted :
    ∃ (n : ℕ) (rs vs : ℕ → ℚ) (vrel r : ℚ) (i : ℕ), Increasing n rs ∧
      extentIndex n vs vrel false = some i ∧ rs i < r ∧ 0 < vrel ∧
      vrel < |evaluateProfile n rs vs r false| := by
  refine ⟨3, fun i => i, fun i => [1, 1, 0].getD i 0, 1 / 2, 5 / 4, 1, ?_, by decide +kernel,
    by norm_num, by norm_num, by decide +kernel⟩
  intro i j hij _
  show (i : ℚ) < j
  exact_mod_cast hij

/-! ### The table of extents -/

theorem profMax_spec (vs : ℕ → ℚ) (n : ℕ) :
    (profMax n vs).2 = |vs (profMax n vs).1| ∧ (∀ j < n, |vs j| ≤ (profMax n vs).2) ∧
    ((profMax n vs).1 < n ∨ (profMax n vs).1 = 0) := by
  unfold profMax
  induction n with
  | zero => simp
  | succ n ih =>
    rw [List.range_succ, List.foldl_append, List.foldl_cons, List.foldl_nil]
    set st := (List.range n).foldl (fun st i => if |vs i| > st.2 then (i, |vs i|) else st)
      (0, |vs 0|)
    obtain ⟨i1, i2, i3⟩ := ih
    by_cases h : |vs n| > st.2
    · rw [if_pos h]
      refine ⟨rfl, fun j hj => ?_, Or.inl (Nat.lt_succ_self n)⟩
      rcases Nat.lt_or_eq_of_le (Nat.lt_succ_iff.1 hj) with h' | h'
      · exact (i2 j h').trans h.le
      · rw [h']
    · rw [if_neg h]
      refine ⟨i1, fun j hj => ?_, by omega⟩
      rcases Nat.lt_or_eq_of_le (Nat.lt_succ_iff.1 hj) with h' | h'
      · exact i2 j h'
      · rw [h']; exact not_lt.1 h

theorem profLevels_length (vs : ℕ → ℚ) (imax : ℕ) (vmax : ℚ) (li : ℕ) :
    ∀ ri, (profLevels vs imax vmax li ri).length = li := by
  induction li with
  | zero => intro ri; rfl
  | succ li ih => intro ri; unfold profLevels; simp only [List.length_cons, ih]

/-- Entry `k` of the reversed list of levels: the last sample at least `vmax/10^(k+1)`. -/
theorem profLevels_spec (vs : ℕ → ℚ) {imax : ℕ} {vmax : ℚ} (hv : 0 ≤ vmax) (N : ℕ) (li : ℕ) :
    ∀ ri, imax ≤ ri → ri ≤ N → (∀ j, ri < j → j ≤ N → |vs j| < vmax * (1 / 10) ^ li) →
      ∀ k < li, ∃ r, (profLevels vs imax vmax li ri).reverse[k]? = some r ∧ imax ≤ r ∧ r ≤ N ∧
        ∀ j, r < j → j ≤ N → |vs j| < vmax * (1 / 10) ^ (k + 1) := by
  induction li with
  | zero => intro ri _ _ _ k hk; omega
  | succ li ih =>
    intro ri h1 h2 h3 k hk
    obtain ⟨s1, s2, _, s4⟩ := scanDown_spec vs (vmax * (1 / 10) ^ (li + 1)) imax ri
    unfold profLevels
    simp only
    rw [List.reverse_cons]
    have hall : ∀ j, scanDown vs (vmax * (1 / 10) ^ (li + 1)) imax ri < j → j ≤ N →
        |vs j| < vmax * (1 / 10) ^ (li + 1) := by
      intro j hj hjN
      rcases Nat.lt_or_ge ri j with h | h
      · exact h3 j h hjN
      · exact s2 j hj h
    rcases Nat.lt_or_eq_of_le (Nat.lt_succ_iff.1 hk) with hk' | hk'
    · rw [List.getElem?_append_left (by rw [List.length_reverse, profLevels_length]; exact hk')]
      refine ih _ (s4 h1) (by omega) ?_ k hk'
      intro j hj hjN
      refine (hall j hj hjN).trans_le ?_
      refine mul_le_mul_of_nonneg_left ?_ hv
      exact pow_le_pow_of_le_one (by norm_num) (by norm_num) (Nat.le_succ li)
    · subst hk'
      refine ⟨_, ?_, s4 h1, by omega, hall⟩
      rw [List.getElem?_append_right (by rw [List.length_reverse, profLevels_length])]
      simp [profLevels_length]

theorem scanDown_eq {vs : ℕ → ℚ} {v : ℚ} {i a : ℕ} (hia : i ≤ a)
    (h1 : ∀ j, i < j → j ≤ a → |vs j| < v) (h2 : 0 < i → v ≤ |vs i|) : scanDown vs v 0 a = i := by
  obtain ⟨s1, s2, s3, _⟩ := scanDown_spec vs v 0 a
  rcases Nat.lt_trichotomy (scanDown vs v 0 a) i with h | h | h
  · have := s2 i h hia
    have := h2 (by omega)
    linarith
  · exact h
  · have := h1 _ h s1
    have := s3 (by omega)
    linarith

theorem profLevel_spec {vrel : ℚ} (h1 : vrel < 1) (h9 : (1 / 10 : ℚ) ^ 9 ≤ vrel) :
    1 ≤ profLevel vrel ∧ profLevel vrel ≤ 9 ∧ (1 / 10 : ℚ) ^ profLevel vrel ≤ vrel := by
  unfold profLevel
  cases hf : (List.range 10).find? fun k => decide ((1 / 10 : ℚ) ^ k ≤ vrel) with
  | none =>
    have := List.find?_eq_none.1 hf 9 (by decide)
    simp only [decide_eq_true_eq] at this
    exact absurd h9 this
  | some k =>
    have hk := List.mem_of_find?_eq_some hf
    have hp := List.find?_some hf
    rw [List.mem_range] at hk
    simp only [decide_eq_true_eq] at hp
    refine ⟨?_, by simpa using by omega, hp⟩
    rw [Option.getD_some]
    rcases Nat.eq_zero_or_pos k with rfl | h
    · simp at hp; linarith
    · exact h

theorem profInfo_mid {n : ℕ} (hn : 0 < n) (vs : ℕ → ℚ) {k : ℕ} (h1 : 1 ≤ k) (h9 : k ≤ 9) :
    (profMax n vs).1 ≤ (buildProfInfo n vs).getD k 0 ∧ (buildProfInfo n vs).getD k 0 ≤ n - 1 ∧
    ∀ j, (buildProfInfo n vs).getD k 0 < j → j ≤ n - 1 →
      |vs j| < (profMax n vs).2 * (1 / 10) ^ k := by
  obtain ⟨m1, m2, m3⟩ := profMax_spec vs n
  obtain ⟨r, hr, r1, r2, r3⟩ := profLevels_spec vs (imax := (profMax n vs).1)
    (vmax := (profMax n vs).2) (by rw [m1]; exact abs_nonneg _) (n - 1) 9 (n - 1) (by omega)
    (le_refl _) (fun j hj hjN => by omega) (k - 1) (by omega)
  have he : (buildProfInfo n vs).getD k 0 = r := by
    unfold buildProfInfo
    simp only
    obtain ⟨k, rfl⟩ : ∃ k', k = k' + 1 := ⟨k - 1, by omega⟩
    rw [List.getD_eq_getElem?_getD, List.cons_append, List.getElem?_cons_succ,
      List.getElem?_append_left (by rw [List.length_reverse, profLevels_length]; omega)]
    rw [Nat.add_sub_cancel] at hr
    rw [hr]
    rfl
  rw [he]
  refine ⟨r1, r2, fun j hj hjN => ?_⟩
  have := r3 j hj hjN
  rwa [Nat.sub_add_cancel h1] at this

/-- **C86 (extent with the table, partial).** For a
cutoff between `10⁻⁹` and 1, the table of extents used for long catalogues gives the same extent as the
direct search provided some sample beyond that extent is still at least `10⁻ᵏ` of the peak, where `10⁻ᵏ`
is the power of ten just below the cutoff. Missing: the other cases, where the last relevant sample is
dropped (`C86_table_refuted`) or memory before the array is read (`C86_bounds_refuted`). -/
theorem C86_table_partial {n : ℕ} (hn : 0 < n) (vs : ℕ → ℚ) {vrel : ℚ}
    (h1 : vrel < 1) (h9 : (1 / 10 : ℚ) ^ 9 ≤ vrel) {i : ℕ}
    (he : extentIndex n vs vrel false = some i)
    (hj : ∃ j, i < j ∧ j < n ∧ (profMax n vs).2 * (1 / 10) ^ profLevel vrel ≤ |vs j|) :
    extentIndex n vs vrel true = some i := by
  obtain ⟨i', he', hin, hlt, hge⟩ := C86_extent hn vs vrel
  rw [he] at he'
  obtain rfl := Option.some.inj he'
  obtain ⟨l1, l2, l3⟩ := profLevel_spec h1 h9
  obtain ⟨t1, t2, t3⟩ := profInfo_mid hn vs l1 l2
  obtain ⟨j, hij, hjn, hjv⟩ := hj
  have hjr : j ≤ (buildProfInfo n vs).getD (profLevel vrel) 0 := by
    by_contra hc
    have := t3 j (not_le.1 hc) (by omega)
    linarith
  unfold extentIndex
  simp only [if_true]
  unfold profInfoLookup
  rw [if_neg (by omega)]
  congr 1
  refine scanDown_eq (by omega) (fun j' h' h'' => hlt j' h' (by omega)) hge

/-- A cutoff below `10⁻⁹` never uses the table's inner entries, and the extent is exact. -/
theorem C86_table_small {n : ℕ} (vs : ℕ → ℚ) {vrel : ℚ} (h9 : vrel < (1 / 10 : ℚ) ^ 9) :
    extentIndex n vs vrel true = extentIndex n vs vrel false := by
  have hl : profLevel vrel = 10 := by
    unfold profLevel
    rw [List.find?_eq_none.2, Option.getD_none]
    intro k hk
    rw [List.mem_range] at hk
    simp only [decide_eq_true_eq, not_le]
    exact h9.trans_le (pow_le_pow_of_le_one (by norm_num) (by norm_num) (by omega))
  unfold extentIndex profInfoLookup
  rw [hl]
  have : (buildProfInfo n vs).getD 10 0 = n := by
    unfold buildProfInfo
    simp only
    rw [List.getD_eq_getElem?_getD, List.cons_append, List.getElem?_cons_succ,
      List.getElem?_append_right (by rw [List.length_reverse, profLevels_length])]
    simp [profLevels_length]
  simp only [this, if_true, Bool.false_eq_true, if_false]

/-- **C86 (the table never overshoots).** When the table gives an extent at all, it is at most the
direct one. -/
theorem C86_table_le {n : ℕ} (hn : 0 < n) (vs : ℕ → ℚ) {vrel : ℚ} {i k : ℕ}
    (he : extentIndex n vs vrel false = some i) (ht : extentIndex n vs vrel true = some k) :
    k ≤ i := by
  obtain ⟨i', he', hin, hlt, hge⟩ := C86_extent hn vs vrel
  rw [he] at he'
  obtain rfl := Option.some.inj he'
  unfold extentIndex at ht
  simp only [if_true] at ht
  split_ifs at ht with hneg
  obtain rfl := Option.some.inj ht
  obtain ⟨s1, s2, s3, _⟩ := scanDown_spec vs vrel 0
    ((profInfoLookup (buildProfInfo n vs) vrel : ℤ) - 1).toNat
  set a := ((profInfoLookup (buildProfInfo n vs) vrel : ℤ) - 1).toNat with ha
  by_contra hc
  have hk := s3 (by omega)
  have hbound : a ≤ n - 1 := by
    have : (buildProfInfo n vs).getD (profLevel vrel) 0 ≤ n := by
      have hl10 : profLevel vrel ≤ 10 := by
        unfold profLevel
        cases hf : (List.range 10).find? fun k => decide ((1 / 10 : ℚ) ^ k ≤ vrel) with
        | none => simp
        | some k =>
          have := List.mem_range.1 (List.mem_of_find?_eq_some hf)
          simpa using by omega
      rcases Nat.eq_zero_or_pos (profLevel vrel) with h0 | hp
      · rw [h0]; unfold buildProfInfo; simp; omega
      · rcases Nat.lt_or_ge (profLevel vrel) 10 with h | h
        · have := (profInfo_mid hn vs hp (by omega)).2.1
          omega
        · have : profLevel vrel = 10 := by omega
          rw [this]
          unfold buildProfInfo
          simp only
          rw [List.getD_eq_getElem?_getD, List.cons_append, List.getElem?_cons_succ,
            List.getElem?_append_right (by rw [List.length_reverse, profLevels_length])]
          simp [profLevels_length]
    unfold profInfoLookup at ha
    omega
  have := hlt _ (not_le.1 hc) (by omega)
  linarith

example : extentIndex 4 (fun i => [1, 1 / 2, 1 / 5, 1 / 20].getD i 0) (1 / 4) false = some 1 ∧
    extentIndex 4 (fun i => [1, 1 / 2, 1 / 5, 1 / 20].getD i 0) (1 / 4) true = some 1 := by
  decide +kernel

/-- **C86 refuted (the extent depends on the length of the catalogue).** The table holds the index of
the last relevant sample where the code expects the index after it. For samples 1, 1/10, 0 and a cutoff
of 1/10 a short catalogue paints the object to the second sample and a long one only to the first. -/
theorem C86_table_refuted :
    ∃ (n : ℕ) (vs : ℕ → ℚ) (vrel : ℚ), (profMax n vs).2 = 1 ∧
      extentIndex n vs vrel false = some 1 ∧ extentIndex n vs vrel true = some 0 ∧
      vrel ≤ |vs 1| :=
  ⟨3, fun i => [1, 1 / 10, 0].getD i 0, 1 / 10, by decide +kernel, by decide +kernel,
    by decide +kernel, by decide +kernel⟩

/-- **C86 refuted (memory safety).** If the profile falls by more than ten from its first to its second
sample, a faint object in a long catalogue makes the code read the element before the array of
distances. -/
theorem C86_bounds_refuted :
    ∃ (n : ℕ) (vs : ℕ → ℚ) (vrel : ℚ), 2 ≤ n ∧ (profMax n vs).2 = 1 ∧ vrel < 1 ∧ 0 < vrel ∧
      extentIndex n vs vrel true = none :=
  ⟨2, fun i => [1, 1 / 1000].getD i 0, 1 / 2, by decide, by decide +kernel, by norm_num,
    by norm_num, by decide +kernel⟩

/-! ## C87: radial sums -/

/-- Is the pixel in the box, counted around the map? -/
def InBoxAround (ny nx : ℕ) (b : Box4) (y x : ℕ) : Prop :=
  (∃ s : ℤ, b.y1 ≤ s ∧ s < b.y2 ∧ (ny : ℤ) ∣ s - y) ∧
  (∃ s : ℤ, b.x1 ≤ s ∧ s < b.x2 ∧ (nx : ℤ) ∣ s - x)

open Classical in
/-- Summing over the visits of a wrapped box is summing over the pixels in it. -/
theorem sum_wrapVisits {ny nx : ℕ} (hy : 0 < ny) (hx : 0 < nx) (b : Box4) (f : ℤ → ℤ → ℚ) :
    ((wrapVisits (wrapBox b ny nx) ny nx).map fun p => f p.1 p.2).sum
      = ∑ y ∈ Finset.range ny, ∑ x ∈ Finset.range nx,
          if InBoxAround ny nx b y x then f y x else 0 := by
  have hy' : (0 : ℤ) < ny := by exact_mod_cast hy
  have hx' : (0 : ℤ) < nx := by exact_mod_cast hx
  rw [← List.sum_toFinset _ (wrapVisits_nodup hy' hx' b), ← Finset.sum_product',
    ← Finset.sum_filter]
  refine Finset.sum_nbij' (fun p => (p.1.toNat, p.2.toNat)) (fun p => ((p.1 : ℤ), (p.2 : ℤ)))
    ?_ ?_ ?_ ?_ ?_
  · intro p hp
    rw [List.mem_toFinset, mem_wrapVisits hy' hx'] at hp
    obtain ⟨⟨a1, a2, a3⟩, b1, b2, b3⟩ := hp
    rw [Finset.mem_filter, Finset.mem_product, Finset.mem_range, Finset.mem_range]
    refine ⟨⟨by simp only; omega, by simp only; omega⟩, ?_⟩
    unfold InBoxAround
    simp only [Int.toNat_of_nonneg a1, Int.toNat_of_nonneg b1]
    exact ⟨a3, b3⟩
  · intro p hp
    rw [Finset.mem_filter, Finset.mem_product, Finset.mem_range, Finset.mem_range] at hp
    rw [List.mem_toFinset, mem_wrapVisits hy' hx']
    obtain ⟨⟨a1, a2⟩, a3, a4⟩ := hp
    exact ⟨⟨by positivity, by simp only; omega, a3⟩, by positivity, by simp only; omega, a4⟩
  · intro p hp
    rw [List.mem_toFinset, mem_wrapVisits hy' hx'] at hp
    obtain ⟨⟨a1, a2, a3⟩, b1, b2, b3⟩ := hp
    simp only [Int.toNat_of_nonneg a1, Int.toNat_of_nonneg b1]
  · intro p _
    simp
  · intro p hp
    rw [List.mem_toFinset, mem_wrapVisits hy' hx'] at hp
    obtain ⟨⟨a1, a2, a3⟩, b1, b2, b3⟩ := hp
    simp only [Int.toNat_of_nonneg a1, Int.toNat_of_nonneg b1]

theorem radial_foldl (nbin : ℕ) (idx : ℤ × ℤ → ℤ) (v : ℤ × ℤ → ℚ) (L : List (ℤ × ℤ))
    (bins : ℕ → ℚ) {i : ℕ} (hi : i < nbin) :
    L.foldl (fun b p => if idx p < 0 ∨ idx p ≥ nbin then b
      else Function.update b (idx p).toNat (b (idx p).toNat + v p)) bins i
    = bins i + (L.map fun p => if idx p = i then v p else 0).sum := by
  induction L generalizing bins with
  | nil => simp
  | cons p L ih =>
    rw [List.foldl_cons, ih, List.map_cons, List.sum_cons]
    by_cases h : idx p < 0 ∨ idx p ≥ nbin
    · rw [if_pos h, if_neg (by omega)]; ring
    · rw [if_neg h]
      by_cases he : idx p = i
      · rw [if_pos he, he, Int.toNat_natCast, Function.update_self]; ring
      · rw [if_neg he, Function.update_of_ne (by omega)]; ring

open Classical in
/-- **C87 (inner bins).** For increasing bin edges every bin but the last is increased by the sum of
the pixels of the box whose distance is between its edges; every pixel counts once, also when the box
reaches around the map. -/
theorem C87_bins_partial {nbin ny nx : ℕ} {rs : ℕ → ℚ} (h : Increasing (nbin + 1) rs) (hy : 0 < ny)
    (hx : 0 < nx) (b : Box4) (dist imap : ℤ → ℤ → ℚ) (bins : ℕ → ℚ) {i : ℕ} (hi : i + 1 < nbin) :
    radialSum nbin rs false ny nx b dist imap bins i = bins i +
      ∑ y ∈ Finset.range ny, ∑ x ∈ Finset.range nx,
        if InBoxAround ny nx b y x ∧ rs i ≤ dist y x ∧ dist y x < rs (i + 1) then imap y x
        else 0 := by
  have hinc : Increasing nbin rs := fun a c hac hc => h a c hac (by omega)
  have hidx : ∀ r, binarySearch nbin rs r = (i : ℤ) ↔ rs i ≤ r ∧ r < rs (i + 1) := by
    intro r
    constructor
    · intro he
      unfold binarySearch at he
      split_ifs at he with c1 c2
      · omega
      · obtain ⟨s1, s2, _, _⟩ := bsLoop_spec rs r nbin 0 (nbin - 1) (by omega) (by omega)
          (not_lt.1 c1) (not_le.1 c2)
        have he' : bsLoop rs r nbin 0 (nbin - 1) = i := by exact_mod_cast he
        rw [he'] at s1 s2
        exact ⟨s1, s2⟩
    · rintro ⟨h1, h2⟩
      exact binarySearch_eq hinc hi h1 h2
  unfold radialSum
  simp only [Bool.false_eq_true, if_false]
  rw [radial_foldl nbin (fun p => binarySearch nbin rs (dist p.1 p.2)) (fun p => imap p.1 p.2) _ _
    (by omega), sum_wrapVisits hy hx b
      (fun y x => if binarySearch nbin rs (dist y x) = (i : ℤ) then imap y x else 0)]
  congr 1
  refine Finset.sum_congr rfl fun y _ => Finset.sum_congr rfl fun x _ => ?_
  simp only [hidx]
  by_cases h1 : InBoxAround ny nx b y x <;> simp [h1]

/-- **C87 refuted (the last bin).** With bin edges that are not equally spaced the last bin stays as
it was, whatever is in the map: the search is told that there is one edge fewer. -/
theorem C87_last_refuted {nbin ny nx : ℕ} (hn : 0 < nbin) {rs : ℕ → ℚ} (h : Increasing (nbin + 1) rs)
    (b : Box4) (dist imap : ℤ → ℤ → ℚ) (bins : ℕ → ℚ) :
    radialSum nbin rs false ny nx b dist imap bins (nbin - 1) = bins (nbin - 1) := by
  have hidx : ∀ r, binarySearch nbin rs r ≠ ((nbin - 1 : ℕ) : ℤ) := by
    intro r he
    unfold binarySearch at he
    by_cases c1 : r < rs 0
    · rw [if_pos c1] at he; omega
    rw [if_neg c1] at he
    by_cases c2 : r ≥ rs (nbin - 1)
    · rw [if_pos c2] at he; omega
    · rw [if_neg c2] at he
      have h0 : 0 < nbin - 1 := by
        by_contra hc
        have : nbin - 1 = 0 := by omega
        rw [this] at c2
        exact c2 (not_lt.1 c1)
      obtain ⟨_, _, _, s4⟩ := bsLoop_spec rs r nbin 0 (nbin - 1) (by omega) h0
        (not_lt.1 c1) (not_le.1 c2)
      have he' : bsLoop rs r nbin 0 (nbin - 1) = nbin - 1 := by exact_mod_cast he
      omega
  unfold radialSum
  simp only [Bool.false_eq_true, if_false]
  rw [radial_foldl nbin (fun p => binarySearch nbin rs (dist p.1 p.2)) (fun p => imap p.1 p.2) _ _
    (by omega)]
  simp [hidx]

/-- A pixel at a distance inside the last bin, and a pixel in an inner bin. -/
example :
    let rs : ℕ → ℚ := fun i => [0, 1, 3].getD i 0
    let dist : ℤ → ℤ → ℚ := fun _ x => 2 * x + 1 / 2
    (rs 1 ≤ dist 0 1 ∧ dist 0 1 < rs 2) ∧
    radialSum 2 rs false 1 2 ⟨0, 1, 0, 2⟩ dist (fun _ _ => 7) (fun _ => 0) 1 = 0 ∧
    radialSum 2 rs false 1 2 ⟨0, 1, 0, 2⟩ dist (fun _ _ => 7) (fun _ => 0) 0 = 7 := by
  decide +kernel

open Classical in
/-- **C87 (equally spaced bins).** For bin edges `0, δ, 2δ, ...` all bins, the last one too, are
increased by the sum of the pixels of the box between their edges, as long as all distances are
smaller than the number of bins. The box is the one the code computes for the inner edge of the last
bin. -/
theorem C87_equi_partial {nbin ny nx : ℕ} {δ : ℚ} (hδ : 0 < δ) (hy : 0 < ny)
    (hx : 0 < nx) (b : Box4) {dist : ℤ → ℤ → ℚ} (hd : ∀ y x, 0 ≤ dist y x ∧ dist y x < nbin)
    (imap : ℤ → ℤ → ℚ) (bins : ℕ → ℚ) {i : ℕ} (hi : i < nbin) :
    radialSum nbin (fun k => k * δ) true ny nx b dist imap bins i = bins i +
      ∑ y ∈ Finset.range ny, ∑ x ∈ Finset.range nx,
        if InBoxAround ny nx b y x ∧ i * δ ≤ dist y x ∧ dist y x < (i + 1) * δ then imap y x
        else 0 := by
  have hidx : ∀ r : ℚ, 0 ≤ r → r < nbin → (equiSearch nbin (fun k : ℕ => (k : ℚ) * δ) r = (i : ℤ) ↔
      i * δ ≤ r ∧ r < (i + 1) * δ) := by
    intro r h0 hr
    have hk0 : 0 ≤ ⌊r / δ⌋ := Int.floor_nonneg.2 (div_nonneg h0 hδ.le)
    unfold equiSearch
    simp only [Nat.cast_one, one_mul]
    rw [if_neg (by omega), if_neg (not_le.2 hr), Int.floor_eq_iff, le_div_iff₀ hδ, div_lt_iff₀ hδ]
    push_cast
    rfl
  unfold radialSum
  simp only [if_true]
  rw [radial_foldl nbin (fun p => equiSearch nbin _ (dist p.1 p.2)) (fun p => imap p.1 p.2) _ _
    hi, sum_wrapVisits hy hx b
      (fun y x => if equiSearch nbin _ (dist y x) = (i : ℤ) then imap y x else 0)]
  congr 1
  refine Finset.sum_congr rfl fun y _ => Finset.sum_congr rfl fun x _ => ?_
  simp only [hidx _ (hd y x).1 (hd y x).2]
  by_cases h1 : InBoxAround ny nx b y x <;> simp [h1]

example : radialSum 2 (fun k => k * 1) true 1 3 ⟨0, 1, 2, 4⟩ (fun _ x => x / 2)
    (fun _ x => x + 1) (fun _ => 0) 1 = 3 := by decide +kernel

end Pixell
