import Verif.Props.MatchedVar
import Verif.Props.Groups
import Mathlib.Analysis.Complex.ExponentialBounds

/-
Property C110: what the source finder does with the filtered maps: grouping by signal-to-noise ratio, choosing between
several profiles, and solving for the fluxes of several maps.
-/
namespace Pixell

/-! ### Groups come in the order of their values -/

theorem groupInner_head (rows : List (List ℚ)) (inds : List Nat) (tol : ℚ) (xi : Nat) (js : List Nat) (done : List Nat) (x : Nat) (t : List Nat) :
    ∃ t', (groupInner rows inds tol xi js (done, x :: t)).2 = x :: t' := by
  induction js generalizing done t with
  | nil => exact ⟨t, rfl⟩
  | cons j js ih =>
    unfold groupInner
    simp only []
    split_ifs
    · exact ih done t
    · exact ⟨t, rfl⟩
    · exact ih (j :: done) (t ++ [inds.getD j 0])
    · exact ih done t

theorem groupOuter_heads (rows : List (List ℚ)) (inds : List Nat) (tol : ℚ) (k i : Nat) (done : List Nat) (res : List (List Nat)) (P : List Nat)
    (h1 : P.Pairwise (· < ·)) (h2 : ∀ p ∈ P, p < i) (h3 : res.map List.head? = P.map fun p => some (inds.getD p 0)) :
    ∃ P' : List Nat, P'.Pairwise (· < ·) ∧ (∀ p ∈ P', p < i + k) ∧
      (groupOuter rows inds tol (List.range' i k) (done, res)).2.map List.head? = P'.map fun p => some (inds.getD p 0) := by
  induction k generalizing i done res P with
  | zero => exact ⟨P, h1, h2, h3⟩
  | succ k ih =>
    rw [List.range'_succ]
    unfold groupOuter
    by_cases hi : i ∈ done
    · simp only [hi, if_true]
      obtain ⟨P', a, b, c⟩ := ih (i + 1) done res P h1 (fun p hp => by have := h2 p hp; omega) h3
      exact ⟨P', a, fun p hp => by have := b p hp; omega, c⟩
    · simp only [hi, if_false]
      obtain ⟨t, ht⟩ := groupInner_head rows inds tol (inds.getD i 0) (List.range' (i + 1) (inds.length - (i + 1))) (i :: done) (inds.getD i 0) []
      obtain ⟨P', a, b, c⟩ := ih (i + 1)
        (groupInner rows inds tol (inds.getD i 0) (List.range' (i + 1) (inds.length - (i + 1))) (i :: done, [inds.getD i 0])).1
        (res ++ [(groupInner rows inds tol (inds.getD i 0) (List.range' (i + 1) (inds.length - (i + 1))) (i :: done, [inds.getD i 0])).2]) (P ++ [i])
        (by rw [List.pairwise_append]; exact ⟨h1, by simp, fun p hp q hq => by rw [List.mem_singleton.1 hq]; exact h2 p hp⟩)
        (by
          intro p hp
          rcases List.mem_append.1 hp with h | h
          · have := h2 p h; omega
          · have := List.mem_singleton.1 h; omega)
        (by rw [List.map_append, List.map_append, h3, List.map_singleton, List.map_singleton, ht]; rfl)
      exact ⟨P', a, fun p hp => by have := b p hp; omega, c⟩

/-- Every group of find_equal_groups has a member, and the groups are in increasing order of their first column. -/
theorem groups_sorted (rows : List (List ℚ)) (m : Nat) (hm : ∀ r ∈ rows, r.length = m) (inds : List Nat)
    (ho : IsArgsort (rows.map fun r => r.headD 0) inds) :
    (∀ g ∈ findEqualGroups rows inds, g ≠ []) ∧
    (findEqualGroups rows inds).Pairwise fun g h => ∀ x ∈ g, ∀ y ∈ h, (rows.getD x []).headD 0 ≤ (rows.getD y []).headD 0 := by
  obtain ⟨P, h1, h2, h3⟩ := groupOuter_heads rows inds 0 inds.length 0 [] [] [] List.Pairwise.nil (by simp) rfl
  rw [← List.range_eq_range'] at h3
  change (findEqualGroups rows inds).map List.head? = _ at h3
  obtain ⟨hperm, hsame, -⟩ := C74_find_equal_groups rows m hm inds ho
  generalize findEqualGroups rows inds = G at *
  have hlt : ∀ g ∈ G, ∀ x ∈ g, x < rows.length := by
    intro g hg x hx
    have : x ∈ G.flatten := List.mem_flatten.2 ⟨g, hg, hx⟩
    rwa [hperm.mem_iff, List.mem_range] at this
  have hlen : G.length = P.length := by have := congrArg List.length h3; simpa using this
  have hhead : ∀ (i : Nat) (hi : i < G.length), G[i].head? = some (inds.getD (P[i]'(by omega)) 0) := by
    intro i hi
    have := congrArg (fun l => l[i]?) h3
    simp only [List.getElem?_map, List.getElem?_eq_getElem hi, List.getElem?_eq_getElem (show i < P.length by omega), Option.map_some] at this
    exact Option.some.inj this
  have hval : ∀ (i : Nat) (hi : i < G.length), ∀ x ∈ G[i], (rows.getD x []).headD 0 = (rows.getD (inds.getD (P[i]'(by omega)) 0) []).headD 0 := by
    intro i hi x hx
    have hh := List.mem_of_mem_head? (hhead i hi)
    have := hsame G[i] (List.getElem_mem hi) x hx _ hh
    rw [List.getD_eq_getElem?_getD, List.getD_eq_getElem?_getD, this]
  refine ⟨?_, ?_⟩
  · intro g hg hc
    obtain ⟨i, hi, rfl⟩ := List.mem_iff_getElem.1 hg
    have := hhead i hi
    rw [hc] at this
    simp at this
  · rw [List.pairwise_iff_getElem]
    intro i j hi hj hij x hx y hy
    rw [hval i hi x hx, hval j hj y hy]
    have hpi : P[i]'(by omega) < P[j]'(by omega) := List.pairwise_iff_getElem.1 h1 i j (by omega) (by omega) hij
    have hpj : P[j]'(by omega) < inds.length := by have := h2 _ (List.getElem_mem (show j < P.length by omega)); omega
    have hs := List.pairwise_iff_getElem.1 ho.2 _ _ (by omega) hpj hpi
    have hin : ∀ k (hk : k < inds.length), inds.getD k 0 = inds[k] := by
      intro k hk; rw [List.getD_eq_getElem?_getD, List.getElem?_eq_getElem hk]; rfl
    have hl : ∀ k (hk : k < inds.length), inds[k] < rows.length := by
      intro k hk; have := ho.lt (List.getElem_mem hk); simpa using this
    have hr : ∀ k (hk : k < inds.length), (rows.map fun r => r.headD 0)[inds[k]]? = some ((rows.getD inds[k] []).headD 0) := by
      intro k hk
      rw [List.getElem?_map, List.getD_eq_getElem?_getD, List.getElem?_eq_getElem (hl k hk)]; rfl
    rw [hin _ hpj, hin _ (by omega)]
    exact hs _ _ (hr _ (by omega)) (hr _ hpj)

/-! ### snr_split -/

/-- The value of one source that snr_split compares. -/
noncomputable def clampSnr (snrs : List ℝ) (snmin : ℝ) (i : Nat) : ℝ := max |snrs.getD i 0| snmin

/-- C110: snr_split places every source in exactly one group, no group is empty, within a group the values (raised to
snmin) differ by less than a factor 1/sntol, the groups come strongest first, and all the sources below snmin are
in the same group. -/
theorem C110_split (argsort : List ℤ → List Nat) (ha : ∀ v, IsArgsort v (argsort v)) (snrs : List ℝ) (hne : snrs ≠ [])
    {sntol snmin : ℝ} (h0 : 0 < sntol) (h1 : sntol < 1) (hm : 0 < snmin) :
    ∃ groups, snrSplit argsort snrs sntol snmin = some groups ∧ groups.flatten.Perm (List.range snrs.length) ∧ (∀ g ∈ groups, g ≠ []) ∧
      (∀ g ∈ groups, ∀ x ∈ g, ∀ y ∈ g, sntol * clampSnr snrs snmin y < clampSnr snrs snmin x) ∧
      (groups.Pairwise fun g h => ∀ x ∈ g, ∀ y ∈ h, clampSnr snrs snmin y < clampSnr snrs snmin x) ∧
      (∀ g ∈ groups, ∀ h ∈ groups, ∀ x ∈ g, ∀ y ∈ h, |snrs.getD x 0| ≤ snmin → |snrs.getD y 0| ≤ snmin → g = h) := by
  have hlog : 0 < Real.log (1 / sntol) := Real.log_pos (by rw [lt_div_iff₀ h0]; linarith)
  set f : ℝ → ℝ := fun s => Real.log (max |s| snmin) / Real.log (1 / sntol) with hf
  obtain ⟨M, hM⟩ : ∃ M, (snrs.map f).max? = some M := by
    cases h : (snrs.map f).max? with
    | none => rw [List.max?_eq_none_iff, List.map_eq_nil_iff] at h; exact absurd h hne
    | some M => exact ⟨M, rfl⟩
  set lv : ℝ → ℤ := fun s => ⌊f s - (M + 1 / 10 ^ 9)⌋ with hlv
  have hlev : snrLevels snrs sntol snmin = some (snrs.map lv) := by
    unfold snrLevels
    simp only []
    rw [hM]
    simp only [List.map_map]
    rfl
  set rows : List (List ℚ) := (snrs.map lv).map fun x : ℤ => [(x : ℚ)] with hrows
  have hcol : rows.map (fun r => r.headD 0) = (snrs.map lv).map fun x : ℤ => (x : ℚ) := by
    rw [hrows, List.map_map]; rfl
  have hrl : rows.length = snrs.length := by rw [hrows]; simp
  have ho : IsArgsort (rows.map fun r => r.headD 0) (argsort (snrs.map lv)) := by
    have := ha (snrs.map lv)
    rw [hcol]
    refine ⟨by rw [List.length_map]; exact this.1, this.2.imp ?_⟩
    intro a b hab x y hx hy
    rw [List.getElem?_map, Option.map_eq_some_iff] at hx hy
    obtain ⟨x', hx', rfl⟩ := hx
    obtain ⟨y', hy', rfl⟩ := hy
    exact_mod_cast hab x' y' hx' hy'
  have hm1 : ∀ r ∈ rows, r.length = 1 := by
    intro r hr
    rw [hrows, List.mem_map] at hr
    obtain ⟨x, _, rfl⟩ := hr
    rfl
  obtain ⟨hperm, hsame, hdiff⟩ := C74_find_equal_groups rows 1 hm1 _ ho
  obtain ⟨hnil, hord⟩ := groups_sorted rows 1 hm1 _ ho
  have hsp : snrSplit argsort snrs sntol snmin = some (findEqualGroups rows (argsort (snrs.map lv))).reverse := by
    unfold snrSplit; rw [hlev]; rfl
  generalize findEqualGroups rows (argsort (snrs.map lv)) = G at *
  have hlt : ∀ g ∈ G, ∀ x ∈ g, x < snrs.length := by
    intro g hg x hx
    have : x ∈ G.flatten := List.mem_flatten.2 ⟨g, hg, hx⟩
    rw [hperm.mem_iff, List.mem_range] at this
    omega
  have hrow : ∀ x < snrs.length, rows[x]? = some [((lv (snrs.getD x 0) : ℤ) : ℚ)] := by
    intro x hx
    rw [hrows, List.getElem?_map, List.getElem?_map, List.getD_eq_getElem?_getD, List.getElem?_eq_getElem hx]; rfl
  have hcl : ∀ x, 0 < clampSnr snrs snmin x := fun x => lt_max_of_lt_right hm
  have key : ∀ x y, lv (snrs.getD x 0) < lv (snrs.getD y 0) → clampSnr snrs snmin x < clampSnr snrs snmin y := by
    intro x y h
    have : f (snrs.getD x 0) < f (snrs.getD y 0) := by
      by_contra hc
      have : lv (snrs.getD y 0) ≤ lv (snrs.getD x 0) := Int.floor_le_floor (by linarith)
      omega
    rw [hf] at this
    simp only [] at this
    rw [div_lt_div_iff_of_pos_right hlog] at this
    exact (Real.log_lt_log_iff (hcl x) (hcl y)).1 this
  have strict : G.reverse.Pairwise fun g h => ∀ x ∈ g, ∀ y ∈ h, clampSnr snrs snmin y < clampSnr snrs snmin x := by
    rw [List.pairwise_reverse]
    refine (hord.and hdiff).imp_of_mem ?_
    intro g h hg hh hgh x hx y hy
    apply key
    have a := hgh.1 y hy x hx
    have b := hgh.2 y hy x hx
    rw [hrow x (hlt h hh x hx), hrow y (hlt g hg y hy)] at b
    rw [List.getD_eq_getElem?_getD, List.getD_eq_getElem?_getD, hrow x (hlt h hh x hx), hrow y (hlt g hg y hy)] at a
    simp only [Option.getD_some, List.headD_cons] at a
    have a' : lv (snrs.getD y 0) ≤ lv (snrs.getD x 0) := by exact_mod_cast a
    rcases lt_or_eq_of_le a' with h' | h'
    · exact h'
    · rw [h'] at b; exact absurd rfl b
  refine ⟨G.reverse, hsp, ?_, ?_, ?_, strict, ?_⟩
  · have := (List.reverse_perm G).flatten
    rw [← hrl]; exact this.trans hperm
  · intro g hg; exact hnil g (List.mem_reverse.1 hg)
  · intro g hg x hx y hy
    rw [List.mem_reverse] at hg
    have := hsame g hg x hx y hy
    rw [hrow x (hlt g hg x hx), hrow y (hlt g hg y hy)] at this
    have h2 : lv (snrs.getD x 0) = lv (snrs.getD y 0) := by simpa using this
    have h3 := Int.abs_sub_lt_one_of_floor_eq_floor h2
    rw [abs_lt] at h3
    have h4 : f (snrs.getD y 0) - f (snrs.getD x 0) < 1 := by linarith [h3.1]
    rw [hf] at h4
    simp only [] at h4
    rw [← sub_div, div_lt_one hlog, one_div, Real.log_inv] at h4
    have h5 : Real.log (sntol * clampSnr snrs snmin y) < Real.log (clampSnr snrs snmin x) := by
      rw [Real.log_mul h0.ne' (hcl y).ne']
      unfold clampSnr; linarith
    exact (Real.log_lt_log_iff (mul_pos h0 (hcl y)) (hcl x)).1 h5
  · intro g hg h hh x hx y hy h2 h3
    obtain ⟨i, hi, rfl⟩ := List.mem_iff_getElem.1 hg
    obtain ⟨j, hj, rfl⟩ := List.mem_iff_getElem.1 hh
    have hc : clampSnr snrs snmin x = clampSnr snrs snmin y := by
      unfold clampSnr; rw [max_eq_right h2, max_eq_right h3]
    rcases lt_trichotomy i j with hij | hij | hij
    · have := List.pairwise_iff_getElem.1 strict i j hi hj hij x hx y hy; rw [hc] at this; exact absurd this (lt_irrefl _)
    · subst hij; rfl
    · have := List.pairwise_iff_getElem.1 strict j i hj hi hij y hy x hx; rw [hc] at this; exact absurd this (lt_irrefl _)

example : (∀ v : List ℤ, IsArgsort v (argsort (fun a b => decide (a ≤ b)) v)) ∧ ([20, -7, 1] : List ℝ) ≠ [] :=
  ⟨isArgsort_argsort, by simp⟩

/-- C110: snr_split of no sources raises. -/
theorem C110_split_empty_refuted (argsort : List ℤ → List Nat) (sntol snmin : ℝ) : snrSplit argsort [] sntol snmin = none := rfl

/-- The documented bound on the weakest element of a group does not hold for the values themselves: with the defaults, a
source of 1 sigma is in the group of one of 6 sigma. -/
theorem C110_split_weak_refuted (argsort : List ℤ → List Nat) (ha : ∀ v, IsArgsort v (argsort v)) :
    ∃ groups, snrSplit argsort [6, 1] (1 / 4) 5 = some groups ∧ ∃ g ∈ groups, 0 ∈ g ∧ 1 ∈ g := by
  have l4 : (1 : ℝ) ≤ Real.log 4 := by
    rw [Real.le_log_iff_exp_le (by norm_num)]
    have := Real.exp_one_lt_d9; linarith
  have l65 : Real.log 6 - Real.log 5 ≤ 1 / 5 := by
    rw [← Real.log_div (by norm_num) (by norm_num)]
    have := Real.log_le_sub_one_of_pos (show (0 : ℝ) < 6 / 5 by norm_num)
    linarith
  have l56 : Real.log 5 < Real.log 6 := Real.log_lt_log (by norm_num) (by norm_num)
  have hlt : Real.log 5 / Real.log 4 < Real.log 6 / Real.log 4 := by
    apply div_lt_div_of_pos_right l56; linarith
  have hd : Real.log 6 / Real.log 4 - Real.log 5 / Real.log 4 ≤ 1 / 5 := by
    rw [← sub_div, div_le_iff₀ (by linarith)]; nlinarith
  have hlev : snrLevels [6, 1] (1 / 4) 5 = some [-1, -1] := by
    unfold snrLevels
    simp only [List.map_cons, List.map_nil]
    rw [show |(6 : ℝ)| = 6 by norm_num, show |(1 : ℝ)| = 1 by norm_num, show max (6 : ℝ) 5 = 6 by norm_num, show max (1 : ℝ) 5 = 5 by norm_num,
      show (1 : ℝ) / (1 / 4) = 4 by norm_num]
    have : [Real.log 6 / Real.log 4, Real.log 5 / Real.log 4].max? = some (Real.log 6 / Real.log 4) := by
      simp [List.max?_cons, max_eq_left hlt.le]
    rw [this]
    simp only [Option.some.injEq, List.cons.injEq, and_true, Int.floor_eq_iff]
    push_cast
    refine ⟨⟨by norm_num, by norm_num⟩, ⟨by linarith, by linarith⟩⟩
  obtain ⟨groups, hg, hperm, -, -, -, -⟩ := C110_split argsort ha [6, 1] (by simp) (sntol := 1 / 4) (snmin := 5) (by norm_num) (by norm_num) (by norm_num)
  refine ⟨groups, hg, ?_⟩
  unfold snrSplit at hg
  rw [hlev, Option.map_some, Option.some.injEq] at hg
  have ho : IsArgsort (([-1, -1] : List ℤ).map (fun x : ℤ => [(x : ℚ)]) |>.map fun r => r.headD 0) (argsort [-1, -1]) := by
    refine ⟨(ha [-1, -1]).1, (ha [-1, -1]).2.imp ?_⟩
    intro a b _ x y hx hy
    have hx' := List.mem_of_getElem? hx
    have hy' := List.mem_of_getElem? hy
    simp at hx' hy'
    rw [hx', hy']
  obtain ⟨-, -, hdiff⟩ := C74_find_equal_groups _ 1 (by simp) _ ho
  have h0 : 0 ∈ groups.flatten := by rw [hperm.mem_iff]; simp
  have h1 : 1 ∈ groups.flatten := by rw [hperm.mem_iff]; simp
  rw [List.mem_flatten] at h0 h1
  obtain ⟨g, hg0, hg0'⟩ := h0
  obtain ⟨h, hh1, hh1'⟩ := h1
  refine ⟨g, hg0, hg0', ?_⟩
  rw [← hg, List.mem_reverse] at hg0 hh1
  by_cases e : g = h
  · rw [e]; exact hh1'
  · obtain ⟨i, hi, rfl⟩ := List.mem_iff_getElem.1 hg0
    obtain ⟨j, hj, rfl⟩ := List.mem_iff_getElem.1 hh1
    rcases lt_trichotomy i j with hij | hij | hij
    · exact absurd rfl (List.pairwise_iff_getElem.1 hdiff i j hi hj hij 0 hg0' 1 hh1')
    · subst hij; exact absurd rfl e
    · exact absurd rfl (List.pairwise_iff_getElem.1 hdiff j i hj hi hij 1 hh1' 0 hg0')

/-! ### The best of several profiles -/

/-- C110: with several profiles, each pixel keeps the first profile with the highest signal-to-noise ratio, together with
the data of that profile. -/
theorem C110_best {α : Type} (cs : List (ℝ × α)) (hne : cs ≠ []) :
    ∃ (c : Nat) (s : ℝ) (d : α), bestCases 0 cs none = some (s, c, d) ∧ cs[c]? = some (s, d) ∧
      (∀ i s' d', cs[i]? = some (s', d') → s' ≤ s ∧ (i < c → s' < s)) := by
  have gen : ∀ (pre rest : List (ℝ × α)) (s : ℝ) (c : Nat) (d : α), pre[c]? = some (s, d) →
      (∀ i s' d', pre[i]? = some (s', d') → s' ≤ s ∧ (i < c → s' < s)) →
      ∃ (c' : Nat) (s1 : ℝ) (d1 : α), bestCases pre.length rest (some (s, c, d)) = some (s1, c', d1) ∧ (pre ++ rest)[c']? = some (s1, d1) ∧
        (∀ i s' d', (pre ++ rest)[i]? = some (s', d') → s' ≤ s1 ∧ (i < c' → s' < s1)) := by
    intro pre rest
    induction rest generalizing pre with
    | nil => intro s c d h1 h2; exact ⟨c, s, d, rfl, by simpa using h1, by simpa using h2⟩
    | cons a rest ih =>
      obtain ⟨sa, da⟩ := a
      intro s c d h1 h2
      have hc : c < pre.length := by
        by_contra hc
        rw [List.getElem?_eq_none (by omega)] at h1; exact absurd h1 (by simp)
      rw [show pre ++ (sa, da) :: rest = (pre ++ [(sa, da)]) ++ rest by simp]
      unfold bestCases bestStep
      simp only []
      rw [show pre.length + 1 = (pre ++ [(sa, da)]).length by simp]
      by_cases hs : sa > s
      · rw [if_pos hs]
        apply ih
        · simp
        · intro i s' d' hi
          rcases Nat.lt_or_ge i pre.length with hl | hl
          · rw [List.getElem?_append_left hl] at hi
            have := (h2 i s' d' hi).1
            exact ⟨by linarith, fun _ => by linarith⟩
          · rw [List.getElem?_append_right hl] at hi
            have h0 : i - pre.length = 0 := by
              by_contra h0
              rw [List.getElem?_eq_none (by simp; omega)] at hi; exact absurd hi (by simp)
            rw [h0] at hi
            simp at hi
            exact ⟨by rw [hi.1], fun h => by omega⟩
      · rw [if_neg hs]
        apply ih
        · rw [List.getElem?_append_left hc]; exact h1
        · intro i s' d' hi
          rcases Nat.lt_or_ge i pre.length with hl | hl
          · rw [List.getElem?_append_left hl] at hi
            exact h2 i s' d' hi
          · rw [List.getElem?_append_right hl] at hi
            have h0 : i - pre.length = 0 := by
              by_contra h0
              rw [List.getElem?_eq_none (by simp; omega)] at hi; exact absurd hi (by simp)
            rw [h0] at hi
            simp at hi
            exact ⟨by rw [← hi.1]; linarith, fun h => by omega⟩
  cases cs with
  | nil => exact absurd rfl hne
  | cons a rest =>
    obtain ⟨sa, da⟩ := a
    have := gen [(sa, da)] rest sa 0 da (by simp) (by
      intro i s' d' hi
      cases i with
      | zero => simp at hi; exact ⟨by rw [hi.1], fun h => by omega⟩
      | succ i => simp at hi)
    exact this

example : bestCases 0 [((1 : ℝ), "a"), (3, "b"), (3, "c"), (2, "d")] none = some (3, 1, "b") := by
  norm_num [bestCases, bestStep]

/-! ### Solving for the fluxes -/

/-- C110: the solution of the map system satisfies kappa·flux = rho for every symmetric invertible kappa. -/
theorem C110_solve {n : Nat} (kappa : Matrix (Fin n) (Fin n) ℝ) (rho : Fin n → ℝ) (hs : kappa.transpose = kappa) (hd : IsUnit kappa.det) :
    kappa.mulVec (solveMapsys kappa rho).1 = rho ∧ (∀ f, kappa.mulVec f = rho → f = (solveMapsys kappa rho).1) ∧
    ∀ a, 0 ≤ kappa⁻¹ a a → (solveMapsys kappa rho).2 a ^ 2 = kappa⁻¹ a a := by
  unfold solveMapsys
  simp only [hs]
  refine ⟨?_, ?_, ?_⟩
  · rw [Matrix.mulVec_mulVec, Matrix.mul_nonsing_inv _ hd, Matrix.one_mulVec]
  · intro f hf
    rw [← hf, Matrix.mulVec_mulVec, Matrix.nonsing_inv_mul _ hd, Matrix.one_mulVec]
  · intro a ha
    rw [Real.sq_sqrt (by rw [Matrix.transpose_apply]; exact ha), Matrix.transpose_apply]

/-- Together: for several maps with a source of flux F j in map j the solved fluxes are F. -/
theorem C110_fluxes {n ny nx : Nat} {A : ℝ} (hA : 0 < A) {beam : Nat → Nat → Nat → ℝ} {iN : Nat → Nat → Nat → Nat → ℝ}
    (hB : ∀ i, EvenProf ny nx (beam i)) (hN : ∀ i j, EvenProf ny nx (iN i j)) (hsym : ∀ i j ky kx, iN i j ky kx = iN j i ky kx)
    {F : Nat → ℝ} {py px : Nat} (hy : py < ny) (hx : px < nx)
    {obs : Nat → Nat → Nat → ℝ} (ho : ∀ j, Observes ny nx (fun _ _ => A) (beam j) (F j) py px (obs j))
    (hd : IsUnit (Matrix.of fun i j : Fin n => nmatCovKappa ny nx A beam iN i j).det) :
    (solveMapsys (Matrix.of fun i j : Fin n => nmatCovKappa ny nx A beam iN i j) fun i => nmatCovRho n ny nx A beam iN obs i py px).1 = fun j : Fin n => F j := by
  have hs : (Matrix.of fun i j : Fin n => nmatCovKappa ny nx A beam iN i j).transpose = Matrix.of fun i j : Fin n => nmatCovKappa ny nx A beam iN i j := by
    ext i j
    simp only [Matrix.transpose_apply, Matrix.of_apply]
    unfold nmatCovKappa
    simp only []
    congr 1
    apply Finset.sum_congr rfl
    intro ky _
    apply Finset.sum_congr rfl
    intro kx _
    rw [hsym j i]; ring
  symm
  apply (C110_solve _ _ hs hd).2.1
  funext i
  rw [C108_multi hA hB hN hy hx ho]
  simp only [Matrix.mulVec, dotProduct, Matrix.of_apply]
  exact (Finset.sum_range fun j => nmatCovKappa ny nx A beam iN i j * F j).symm

/-- C110 fails for a kappa that is not symmetric. -/
theorem C110_solve_refuted : ∃ (kappa : Matrix (Fin 2) (Fin 2) ℝ) (rho : Fin 2 → ℝ), IsUnit kappa.det ∧
    kappa.mulVec (solveMapsys kappa rho).1 ≠ rho := by
  refine ⟨!![1, 1; 0, 1], ![0, 1], by norm_num [Matrix.det_fin_two], ?_⟩
  have hi : (!![1, 1; 0, 1] : Matrix (Fin 2) (Fin 2) ℝ).transpose⁻¹ = !![1, 0; -1, 1] := by
    apply Matrix.inv_eq_right_inv
    ext i j; fin_cases i <;> fin_cases j <;> norm_num [Matrix.mul_apply, Fin.sum_univ_two]
  unfold solveMapsys
  simp only [hi]
  intro hc
  have := congrFun hc 0
  norm_num [Matrix.mulVec, dotProduct, Fin.sum_univ_two] at this

/-- C110 fails with numpy 2, which the package does not exclude: solving for the fluxes raises unless the height of the
map equals the number of maps. -/
theorem C110_numpy2_refuted (nx ny n : Nat) (h : ny ≠ n) : solveShape true nx ny n = none ∧ solveShape false nx ny n = some [nx, ny, n] := by
  unfold solveShape
  simp [h]

/-- C110: sanitize_kappa leaves the off-diagonal alone, makes each diagonal element at least tol times the largest one of
its map, and never lowers a quadratic form, so that a positive semidefinite kappa stays one. -/
theorem C110_sanitize (npix : Nat) (hp : 0 < npix) (tol : ℝ) (kappa : Nat → Nat → Nat → ℝ) :
    (∀ i j p, i ≠ j → sanitizeKappa npix hp tol kappa i j p = kappa i j p) ∧
    (0 ≤ tol → ∀ i p q, q < npix → tol * kappa i i q ≤ sanitizeKappa npix hp tol kappa i i p) ∧
    (∀ i p, p < npix → 0 ≤ tol → tol ≤ 1 → (∃ q < npix, 0 < kappa i i q) →
      ∃ q < npix, kappa i i p ≤ sanitizeKappa npix hp tol kappa i i p ∧ sanitizeKappa npix hp tol kappa i i p ≤ kappa i i q) ∧
    (∀ n p (a : Nat → ℝ), ∑ i ∈ Finset.range n, ∑ j ∈ Finset.range n, a i * kappa i j p * a j ≤
      ∑ i ∈ Finset.range n, ∑ j ∈ Finset.range n, a i * sanitizeKappa npix hp tol kappa i j p * a j) := by
  refine ⟨?_, ?_, ?_, ?_⟩
  · intro i j p h; unfold sanitizeKappa; rw [if_neg h]
  · intro ht i p q hq
    unfold sanitizeKappa; rw [if_pos rfl]
    refine le_trans ?_ (le_max_right _ _)
    rw [mul_comm]
    exact mul_le_mul_of_nonneg_right (Finset.le_sup' (kappa i i) (Finset.mem_range.2 hq)) ht
  · intro i p hpp ht ht1 hpos
    obtain ⟨q, hq, he⟩ := Finset.exists_mem_eq_sup' (⟨0, Finset.mem_range.2 hp⟩ : (Finset.range npix).Nonempty) (kappa i i)
    refine ⟨q, Finset.mem_range.1 hq, ?_, ?_⟩
    · unfold sanitizeKappa; rw [if_pos rfl]; exact le_max_left _ _
    · unfold sanitizeKappa; rw [if_pos rfl, he]
      have h1 : kappa i i p ≤ kappa i i q := by rw [← he]; exact Finset.le_sup' (kappa i i) (Finset.mem_range.2 hpp)
      obtain ⟨r, hr, hr0⟩ := hpos
      have h2 : kappa i i r ≤ kappa i i q := by rw [← he]; exact Finset.le_sup' (kappa i i) (Finset.mem_range.2 hr)
      exact max_le h1 (by nlinarith)
  · intro n p a
    apply Finset.sum_le_sum
    intro i _
    apply Finset.sum_le_sum
    intro j _
    by_cases h : i = j
    · subst h
      have : kappa i i p ≤ sanitizeKappa npix hp tol kappa i i p := by unfold sanitizeKappa; rw [if_pos rfl]; exact le_max_left _ _
      nlinarith [mul_self_nonneg (a i), mul_nonneg (mul_self_nonneg (a i)) (sub_nonneg.2 this)]
    · unfold sanitizeKappa; rw [if_neg h]

end Pixell
