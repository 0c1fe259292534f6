import Verif.Lemmas.Groups
import Mathlib.Data.List.Sort

/-
C74: grouping equal values; C60: label_multi.
-/
namespace Pixell

/-- C74: find_equal_groups (with tol=0) puts every row index into exactly one group, and two indices are in the same
group exactly when their rows are equal, however `np.argsort` orders ties. -/
theorem C74_find_equal_groups (rows : List (List ℚ)) (m : Nat) (hm : ∀ r ∈ rows, r.length = m) (inds : List Nat)
    (ho : IsArgsort (rows.map fun r => r.headD 0) inds) :
    (findEqualGroups rows inds).flatten.Perm (List.range rows.length) ∧
    (∀ g ∈ findEqualGroups rows inds, ∀ x ∈ g, ∀ y ∈ g, rows[x]? = rows[y]?) ∧
    (findEqualGroups rows inds).Pairwise fun g h => ∀ x ∈ g, ∀ y ∈ h, rows[x]? ≠ rows[y]? := by
  have hlen : inds.length = rows.length := by rw [ho.length, List.length_map]
  have hlt : ∀ i ∈ inds, i < rows.length := fun i hi => by have := ho.lt hi; simpa using this
  have hgi : ∀ j < inds.length, inds.getD j 0 ∈ inds := by
    intro j hj
    rw [List.getD_eq_getElem?_getD, List.getElem?_eq_getElem hj]
    exact List.getElem_mem hj
  have hrow : ∀ i < rows.length, rows[i]? = some (rows.getD i []) := by
    intro i hi
    rw [List.getD_eq_getElem?_getD, List.getElem?_eq_getElem hi]; rfl
  have inv := groupOuter_spec rows inds m
    (by
      intro j hj
      have h1 := hlt _ (hgi j hj)
      apply hm
      have := hrow _ h1
      exact List.mem_of_getElem? this)
    (by
      intro a b hab hb
      have h := List.pairwise_iff_getElem.1 ho.2 a b (by omega) hb hab
      have ha' : inds.getD a 0 = inds[a] := by
        rw [List.getD_eq_getElem?_getD, List.getElem?_eq_getElem (by omega)]; rfl
      have hb' : inds.getD b 0 = inds[b] := by
        rw [List.getD_eq_getElem?_getD, List.getElem?_eq_getElem hb]; rfl
      unfold rowAt
      rw [ha', hb']
      apply h
      · rw [List.getElem?_map, hrow _ (hlt _ (List.getElem_mem _))]; rfl
      · rw [List.getElem?_map, hrow _ (hlt _ (List.getElem_mem _))]; rfl)
    inds.length 0 (by omega) [] []
    ⟨by simp, by simp, List.nodup_nil, List.Perm.refl _, by simp, by simp, List.Pairwise.nil⟩
  rw [← List.range_eq_range'] at inv
  have hperm : (findEqualGroups rows inds).flatten.Perm inds := by
    refine inv.perm.trans ?_
    have hd : (groupOuter rows inds 0 (List.range inds.length) ([], [])).1.Perm (List.range inds.length) := by
      rw [List.perm_ext_iff_of_nodup inv.nodup List.nodup_range]
      intro a
      rw [List.mem_range]
      exact ⟨fun h => inv.bound a h, fun h => inv.upto a h⟩
    refine (hd.map _).trans ?_
    have : (List.range inds.length).map (fun j => inds.getD j 0) = inds := by
      apply List.ext_getElem
      · simp
      · intro i h1 h2
        simp [List.getD_eq_getElem?_getD, h2]
    rw [this]
  have hperm2 : (findEqualGroups rows inds).flatten.Perm (List.range rows.length) := by
    have := ho.1
    rw [List.length_map] at this
    exact hperm.trans this
  have hx : ∀ g ∈ findEqualGroups rows inds, ∀ x ∈ g, x < rows.length := by
    intro g hg x hx
    have : x ∈ (findEqualGroups rows inds).flatten := List.mem_flatten.2 ⟨g, hg, hx⟩
    rwa [hperm2.mem_iff, List.mem_range] at this
  refine ⟨hperm2, ?_, ?_⟩
  · intro g hg x hxg y hyg
    rw [hrow x (hx g hg x hxg), hrow y (hx g hg y hyg)]
    exact congrArg some (inv.same g hg x hxg y hyg)
  · refine List.Pairwise.imp_of_mem ?_ inv.diff
    intro g h hg hh hgh x hxg y hyh
    rw [hrow x (hx g hg x hxg), hrow y (hx h hh y hyh)]
    exact fun hc => hgh x hxg y hyh (Option.some.inj hc)

example : findEqualGroups [[0, 1], [1, 2], [0, 1], [0, 5]] [3, 0, 2, 1] = [[3], [0, 2], [1]] := by decide +kernel

/-- C74: find_equal_groups_fast: the unique values are sorted and are exactly the values that occur; the `i`-th
slice of the order is exactly the list of indices holding the `i`-th unique value, in increasing order. -/
theorem C74_fast (vals : List ℤ) :
    (findEqualGroupsFast vals).1.Pairwise (· < ·) ∧ (∀ v, v ∈ (findEqualGroupsFast vals).1 ↔ v ∈ vals) ∧
    (findEqualGroupsFast vals).2.2.length = (findEqualGroupsFast vals).1.length + 1 ∧
    ∀ i u, (findEqualGroupsFast vals).1[i]? = some u →
      ((findEqualGroupsFast vals).2.1.drop ((findEqualGroupsFast vals).2.2.getD i 0)).take
        ((findEqualGroupsFast vals).2.2.getD (i + 1) 0 - (findEqualGroupsFast vals).2.2.getD i 0) =
      (List.range vals.length).filter fun k => decide (vals[k]? = some u) := by
  have hval : ∀ k < vals.length, vals[k]? = some (vals.getD k 0) := by
    intro k hk
    rw [List.getD_eq_getElem?_getD, List.getElem?_eq_getElem hk]; rfl
  set order := argsort (fun a b : ℤ => decide (a ≤ b)) vals with hord
  set sorted := order.map fun i => vals.getD i 0 with hsorted
  set uvals := npUnique sorted with huv
  have e1 : (findEqualGroupsFast vals).1 = uvals := rfl
  have e2 : (findEqualGroupsFast vals).2.1 = order := rfl
  have e3 : (findEqualGroupsFast vals).2.2 = uvals.map (fun u => sorted.idxOf u) ++ [vals.length] := rfl
  rw [e1, e2, e3]
  have hmem : ∀ v, v ∈ uvals ↔ v ∈ vals := by
    intro v
    rw [huv, mem_npUnique, hsorted, List.mem_map]
    constructor
    · rintro ⟨k, hk, rfl⟩
      rw [hord, mem_argsort] at hk
      exact List.mem_of_getElem? (hval k hk)
    · intro hv
      obtain ⟨k, hk, e⟩ := List.getElem_of_mem hv
      refine ⟨k, by rw [hord, mem_argsort]; exact hk, ?_⟩
      rw [List.getD_eq_getElem?_getD, List.getElem?_eq_getElem hk, e]; rfl
  set B := uvals.map fun u => (List.range vals.length).filter fun k => decide (vals[k]? = some u) with hB
  -- the stable order is the concatenation of the blocks
  have hsortedU := npUnique_sorted sorted
  rw [← huv] at hsortedU
  have hflat : order = B.flatten := by
    have hR1 : order.Pairwise fun i j => ∀ a b, vals[i]? = some a → vals[j]? = some b → a ≤ b ∧ (b ≤ a → i < j) := by
      have := argsort_stable (fun a b : ℤ => decide (a ≤ b)) (by simp; intro a b c; exact le_trans)
        (by simp; exact le_total) vals
      simpa using this
    have hR2 : B.flatten.Pairwise fun i j => ∀ a b, vals[i]? = some a → vals[j]? = some b → a ≤ b ∧ (b ≤ a → i < j) := by
      rw [List.pairwise_flatten]
      constructor
      · intro l hl
        rw [hB] at hl
        obtain ⟨u, _, rfl⟩ := List.mem_map.1 hl
        refine List.Pairwise.imp_of_mem ?_ (List.Pairwise.filter _ List.pairwise_lt_range)
        intro i j hi hj hij a b ha hb
        have h1 := (List.mem_filter.1 hi).2
        have h2 := (List.mem_filter.1 hj).2
        simp only [decide_eq_true_eq] at h1 h2
        rw [ha, Option.some.injEq] at h1
        rw [hb, Option.some.injEq] at h2
        exact ⟨by omega, fun _ => hij⟩
      · rw [hB, List.pairwise_map]
        refine hsortedU.imp ?_
        intro u v huv' x hx y hy a b ha hb
        have h1 := (List.mem_filter.1 hx).2
        have h2 := (List.mem_filter.1 hy).2
        simp only [decide_eq_true_eq] at h1 h2
        rw [ha, Option.some.injEq] at h1
        rw [hb, Option.some.injEq] at h2
        exact ⟨by omega, fun _ => by omega⟩
    have hnd2 : B.flatten.Nodup := by
      rw [List.nodup_flatten]
      constructor
      · intro l hl
        rw [hB] at hl
        obtain ⟨u, _, rfl⟩ := List.mem_map.1 hl
        exact List.Nodup.filter _ List.nodup_range
      · rw [hB, List.pairwise_map]
        refine hsortedU.imp ?_
        intro u v huv' x hx hy
        have h1 := (List.mem_filter.1 hx).2
        have h2 := (List.mem_filter.1 hy).2
        simp only [decide_eq_true_eq] at h1 h2
        rw [h1, Option.some.injEq] at h2
        omega
    have hperm : order.Perm B.flatten := by
      rw [List.perm_ext_iff_of_nodup (argsort_nodup _ _) hnd2]
      intro k
      rw [mem_argsort, List.mem_flatten]
      constructor
      · intro hk
        refine ⟨_, List.mem_map.2 ⟨vals.getD k 0, (hmem _).2 (List.mem_of_getElem? (hval k hk)), rfl⟩, ?_⟩
        rw [List.mem_filter, List.mem_range]
        exact ⟨hk, by simpa using hval k hk⟩
      · rintro ⟨l, hl, hkl⟩
        rw [hB] at hl
        obtain ⟨u, _, rfl⟩ := List.mem_map.1 hl
        exact List.mem_range.1 (List.mem_filter.1 hkl).1
    refine List.Perm.eq_of_pairwise ?_ hR1 hR2 hperm
    intro i j hi hj h1 h2
    have hi' : i < vals.length := by rw [hord, mem_argsort] at hi; exact hi
    have hj' : j < vals.length := by
      have := hperm.mem_iff.2 hj
      rw [hord, mem_argsort] at this; exact this
    have := h1 _ _ (hval i hi') (hval j hj')
    have := h2 _ _ (hval j hj') (hval i hi')
    omega
  have hBlen : B.length = uvals.length := by rw [hB, List.length_map]
  have hBget : ∀ i (hi : i < uvals.length), B[i]? = some ((List.range vals.length).filter fun k => decide (vals[k]? = some uvals[i])) := by
    intro i hi
    rw [hB, List.getElem?_map, List.getElem?_eq_getElem hi]; rfl
  have hidx : ∀ i (hi : i < uvals.length), sorted.idxOf uvals[i] = (B.take i).flatten.length := by
    intro i hi
    have hsp : sorted = (B.take i).flatten.map (fun k => vals.getD k 0) ++
        (B[i]'(by omega) ++ (B.drop (i + 1)).flatten).map (fun k => vals.getD k 0) := by
      rw [hsorted, hflat, ← List.map_append]
      conv_lhs => rw [← List.take_append_drop i B, List.flatten_append, List.drop_eq_getElem_cons (by omega), List.flatten_cons]
    rw [hsp, List.idxOf_append_of_notMem]
    · have hBi : B[i]'(by omega) = (List.range vals.length).filter fun k => decide (vals[k]? = some uvals[i]) := by
        have := hBget i hi
        rw [List.getElem?_eq_getElem (by omega), Option.some.injEq] at this
        exact this
      have hne : ∃ k r, B[i]'(by omega) = k :: r ∧ vals.getD k 0 = uvals[i] := by
        obtain ⟨k, hk, e⟩ := List.getElem_of_mem ((hmem _).1 (List.getElem_mem hi))
        have hkB : k ∈ B[i]'(by omega) := by
          rw [hBi, List.mem_filter, List.mem_range]
          exact ⟨hk, by simp [List.getElem?_eq_getElem hk, e]⟩
        obtain ⟨k', r, e'⟩ := List.exists_cons_of_ne_nil (List.ne_nil_of_mem hkB)
        refine ⟨k', r, e', ?_⟩
        have : k' ∈ B[i]'(by omega) := by rw [e']; simp
        rw [hBi, List.mem_filter, List.mem_range] at this
        have h2 := this.2
        simp only [decide_eq_true_eq] at h2
        rw [hval k' this.1, Option.some.injEq] at h2
        exact h2
      obtain ⟨k, r, e, ek⟩ := hne
      rw [List.length_map, e, List.cons_append, List.map_cons, ek, List.idxOf_cons_self, Nat.add_zero]
    · intro hc
      obtain ⟨k, hk, ek⟩ := List.mem_map.1 hc
      obtain ⟨l, hl, hkl⟩ := List.mem_flatten.1 hk
      obtain ⟨j, hj, ej⟩ := List.getElem_of_mem hl
      rw [List.length_take] at hj
      rw [List.getElem_take] at ej
      have hju : j < uvals.length := by omega
      have := hBget j hju
      rw [List.getElem?_eq_getElem (by omega), Option.some.injEq, ej] at this
      rw [this, List.mem_filter, List.mem_range] at hkl
      have h2 := hkl.2
      simp only [decide_eq_true_eq] at h2
      rw [hval k hkl.1, Option.some.injEq, ek] at h2
      have := List.pairwise_iff_getElem.1 hsortedU j i hju hi (by omega)
      omega
  refine ⟨hsortedU, hmem, by simp, ?_⟩
  intro i u hiu
  obtain ⟨hi, hu⟩ := List.getElem?_eq_some_iff.1 hiu
  have hedge : ∀ j, j ≤ uvals.length → (uvals.map (fun u => sorted.idxOf u) ++ [vals.length]).getD j 0 = (B.take j).flatten.length := by
    intro j hj
    rw [List.getD_eq_getElem?_getD]
    rcases Nat.lt_or_ge j uvals.length with hlt | hge
    · rw [List.getElem?_append_left (by simpa using hlt), List.getElem?_map, List.getElem?_eq_getElem hlt]
      exact hidx j hlt
    · have : j = uvals.length := by omega
      subst this
      rw [List.getElem?_append_right (by simp)]
      simp only [List.length_map, Nat.sub_self, List.getElem?_cons_zero, Option.getD_some]
      rw [← hBlen, List.take_length, ← hflat, hord, argsort_length]
  rw [hedge i (by omega), hedge (i + 1) (by omega)]
  have hBi := hBget i hi
  have hiB : i < B.length := by omega
  rw [List.getElem?_eq_getElem hiB, Option.some.injEq, hu] at hBi
  have h3 : (B.take (i + 1)).flatten.length - (B.take i).flatten.length = B[i].length := by
    rw [List.take_add_one, List.getElem?_eq_getElem hiB, List.flatten_append]
    simp
  rw [h3, hflat, flatten_block B i hiB, hBi]

example : findEqualGroupsFast [5, 3, 5, 3, 9] = ([3, 5, 9], [1, 3, 0, 2, 4], [0, 2, 4, 5]) := by decide

/-! ### C60 -/

theorem idxOf_npUnique_inj {vals : List ℤ} {a b : ℤ} (ha : a ∈ vals) (hb : b ∈ vals) :
    (npUnique vals).idxOf a = (npUnique vals).idxOf b ↔ a = b := by
  constructor
  · intro h
    have h1 := List.idxOf_lt_length_of_mem ((mem_npUnique vals a).2 ha)
    have h2 := List.idxOf_lt_length_of_mem ((mem_npUnique vals b).2 hb)
    have e1 := List.getElem_idxOf h1
    have e2 := List.getElem_idxOf h2
    simp only [h] at e1
    exact e1.symm.trans e2
  · rintro rfl; rfl

/-- One round of label_multi. -/
def labelStep (st : List ℤ × ℤ) (vals : List ℤ) : List ℤ × ℤ :=
  (List.zipWith (fun (o : ℤ) (i : Nat) => o * st.2 + (i : ℤ)) st.1 (vals.map fun v => (npUnique vals).idxOf v), ((npUnique vals).length : ℤ))

theorem labelMulti_eq (cols : List (List ℤ)) (n : Nat) :
    labelMulti cols n = (cols.foldl labelStep (List.replicate n 0, 1)).1.map
      fun v => (npUnique (cols.foldl labelStep (List.replicate n 0, 1)).1).idxOf v := rfl

theorem labelStep_get {n : Nat} {st : List ℤ × ℤ} (h : st.1.length = n) {vals : List ℤ} (hv : vals.length = n) :
    (labelStep st vals).1.length = n ∧
    ∀ i < n, (labelStep st vals).1.getD i 0 = st.1.getD i 0 * st.2 + (npUnique vals).idxOf (vals.getD i 0) := by
  refine ⟨by simp [labelStep, h, hv], fun i hi => ?_⟩
  simp [labelStep, List.getD_eq_getElem?_getD, h, hv, hi]

theorem label_fold_length {n : Nat} (cols : List (List ℤ)) (hc : ∀ c ∈ cols, c.length = n) (st : List ℤ × ℤ)
    (h : st.1.length = n) : (cols.foldl labelStep st).1.length = n := by
  induction cols generalizing st with
  | nil => exact h
  | cons c cols ih =>
    exact ih (fun d hd => hc d (by simp [hd])) _ (labelStep_get h (hc c (by simp))).1

theorem label_fold_same {n : Nat} (cols : List (List ℤ)) (hc : ∀ c ∈ cols, c.length = n) (st : List ℤ × ℤ)
    (h : st.1.length = n) (i j : Nat) (hi : i < n) (hj : j < n) (h0 : st.1.getD i 0 = st.1.getD j 0)
    (heq : ∀ c ∈ cols, c.getD i 0 = c.getD j 0) :
    (cols.foldl labelStep st).1.getD i 0 = (cols.foldl labelStep st).1.getD j 0 := by
  induction cols generalizing st with
  | nil => exact h0
  | cons c cols ih =>
    obtain ⟨l1, l2⟩ := labelStep_get h (hc c (by simp))
    refine ih (fun d hd => hc d (by simp [hd])) _ l1 ?_ (fun d hd => heq d (by simp [hd]))
    rw [l2 i hi, l2 j hj, h0, heq c (by simp)]

theorem getD_mem {l : List ℤ} {i : Nat} (h : i < l.length) : l.getD i 0 ∈ l := by
  rw [List.getD_eq_getElem?_getD, List.getElem?_eq_getElem h]
  exact List.getElem_mem h

theorem mul_add_inj (o p m a b : ℤ) (ha : 0 ≤ a) (ha' : a < m) (hb : 0 ≤ b) (hb' : b < m) (h : o * m + a = p * m + b) :
    o = p ∧ a = b := by
  have : o = p := by
    rcases lt_trichotomy o p with hlt | heq | hgt
    · exfalso
      have : (o + 1) * m ≤ p * m := mul_le_mul_of_nonneg_right hlt (by omega)
      rw [add_mul] at this
      omega
    · exact heq
    · exfalso
      have : (p + 1) * m ≤ o * m := mul_le_mul_of_nonneg_right hgt (by omega)
      rw [add_mul] at this
      omega
  subst this
  exact ⟨rfl, by omega⟩

theorem label_fold_inj {n : Nat} (cols : List (List ℤ)) (hc : ∀ c ∈ cols, c.length = n) (st : List ℤ × ℤ)
    (h : st.1.length = n) (hchain : (cols.map fun c => ((npUnique c).length : ℤ)).Pairwise (· ≥ ·))
    (hfirst : ∀ c ∈ cols, ((npUnique c).length : ℤ) ≤ st.2) (i j : Nat) (hi : i < n) (hj : j < n)
    (heq : (cols.foldl labelStep st).1.getD i 0 = (cols.foldl labelStep st).1.getD j 0) :
    st.1.getD i 0 = st.1.getD j 0 ∧ ∀ c ∈ cols, c.getD i 0 = c.getD j 0 := by
  induction cols generalizing st with
  | nil => exact ⟨heq, by simp⟩
  | cons c cols ih =>
    have hcl := hc c (by simp)
    obtain ⟨l1, l2⟩ := labelStep_get h hcl
    rw [List.map_cons, List.pairwise_cons] at hchain
    obtain ⟨e1, e2⟩ := ih (fun d hd => hc d (by simp [hd])) _ l1 hchain.2
      (fun d hd => hchain.1 _ (List.mem_map.2 ⟨d, hd, rfl⟩)) heq
    rw [l2 i hi, l2 j hj] at e1
    have mi : c.getD i 0 ∈ c := getD_mem (by omega)
    have mj : c.getD j 0 ∈ c := getD_mem (by omega)
    have b1 := List.idxOf_lt_length_of_mem ((mem_npUnique c _).2 mi)
    have b2 := List.idxOf_lt_length_of_mem ((mem_npUnique c _).2 mj)
    have hf := hfirst c (by simp)
    have key := mul_add_inj (st.1.getD i 0) (st.1.getD j 0) st.2 _ _ (by omega) (by omega) (by omega) (by omega) e1
    refine ⟨key.1, fun d hd => ?_⟩
    rcases List.mem_cons.1 hd with rfl | hd
    · exact (idxOf_npUnique_inj mi mj).1 (by omega)
    · exact e2 d hd

/-- C60: rows with equal values in every column get equal labels. -/
theorem C60_same (cols : List (List ℤ)) (n : Nat) (hc : ∀ c ∈ cols, c.length = n) (i j : Nat) (hi : i < n) (hj : j < n)
    (heq : ∀ c ∈ cols, c[i]? = c[j]?) : (labelMulti cols n)[i]? = (labelMulti cols n)[j]? := by
  have hl := label_fold_length cols hc (List.replicate n 0, 1) (by simp)
  have := label_fold_same cols hc (List.replicate n 0, 1) (by simp) i j hi hj
    (by simp [List.getD_eq_getElem?_getD, hi, hj])
    (by intro c hcc; rw [List.getD_eq_getElem?_getD, List.getD_eq_getElem?_getD, heq c hcc])
  rw [labelMulti_eq, List.getElem?_map, List.getElem?_map]
  rw [List.getD_eq_getElem?_getD, List.getD_eq_getElem?_getD, List.getElem?_eq_getElem (by omega),
    List.getElem?_eq_getElem (by omega)] at this
  rw [List.getElem?_eq_getElem (by omega), List.getElem?_eq_getElem (by omega)]
  simp only [Option.getD_some] at this
  rw [this]

/-- C60: the labels are exactly `0, 1, …, k-1` for some `k`: none is skipped. -/
theorem C60_contiguous (cols : List (List ℤ)) (n : Nat) : ∃ k, ∀ l, l ∈ labelMulti cols n ↔ l < k := by
  rw [labelMulti_eq]
  generalize (cols.foldl labelStep (List.replicate n 0, 1)).1 = o
  refine ⟨(npUnique o).length, fun l => ?_⟩
  rw [List.mem_map]
  constructor
  · rintro ⟨v, hv, rfl⟩
    exact List.idxOf_lt_length_of_mem ((mem_npUnique o v).2 hv)
  · intro hl
    refine ⟨(npUnique o)[l], (mem_npUnique o _).1 (List.getElem_mem hl), ?_⟩
    exact List.Nodup.idxOf_getElem (npUnique_nodup o) l hl

/-- C60: rows with equal labels have equal values in every column, provided no column has more distinct values than
a column before it. -/
theorem C60_distinct_partial (cols : List (List ℤ)) (n : Nat) (hc : ∀ c ∈ cols, c.length = n)
    (hchain : (cols.map fun c => ((npUnique c).length : ℤ)).Pairwise (· ≥ ·)) (i j : Nat) (hi : i < n) (hj : j < n)
    (heq : (labelMulti cols n)[i]? = (labelMulti cols n)[j]?) : ∀ c ∈ cols, c[i]? = c[j]? := by
  have hl := label_fold_length cols hc (List.replicate n 0, 1) (by simp)
  rw [labelMulti_eq, List.getElem?_map, List.getElem?_map] at heq
  have hgi : (cols.foldl labelStep (List.replicate n 0, 1)).1[i]? =
      some ((cols.foldl labelStep (List.replicate n 0, 1)).1.getD i 0) := by
    rw [List.getD_eq_getElem?_getD, List.getElem?_eq_getElem (by omega)]; rfl
  have hgj : (cols.foldl labelStep (List.replicate n 0, 1)).1[j]? =
      some ((cols.foldl labelStep (List.replicate n 0, 1)).1.getD j 0) := by
    rw [List.getD_eq_getElem?_getD, List.getElem?_eq_getElem (by omega)]; rfl
  rw [hgi, hgj] at heq
  simp only [Option.map_some, Option.some.injEq] at heq
  rw [idxOf_npUnique_inj (getD_mem (by omega)) (getD_mem (by omega))] at heq
  have key : ∀ c ∈ cols, c.getD i 0 = c.getD j 0 := by
    cases cols with
    | nil => simp
    | cons c cols =>
      have hcl := hc c (by simp)
      obtain ⟨l1, l2⟩ := labelStep_get (st := (List.replicate n 0, 1)) (by simp) hcl
      rw [List.map_cons, List.pairwise_cons] at hchain
      obtain ⟨e1, e2⟩ := label_fold_inj cols (fun d hd => hc d (by simp [hd])) _ l1 hchain.2
        (fun d hd => hchain.1 _ (List.mem_map.2 ⟨d, hd, rfl⟩)) i j hi hj heq
      rw [l2 i hi, l2 j hj] at e1
      simp only [List.getD_eq_getElem?_getD, List.getElem?_replicate, hi, hj, if_true, Option.getD_some] at e1
      intro d hd
      rcases List.mem_cons.1 hd with rfl | hd
      · refine (idxOf_npUnique_inj (getD_mem (by omega)) (getD_mem (by omega))).1 ?_
        simp only [List.getD_eq_getElem?_getD]
        omega
      · exact e2 d hd
  intro c hcc
  have hcl := hc c hcc
  have := key c hcc
  rw [List.getD_eq_getElem?_getD, List.getD_eq_getElem?_getD, List.getElem?_eq_getElem (by omega),
    List.getElem?_eq_getElem (by omega)] at this
  simp only [Option.getD_some] at this
  rw [List.getElem?_eq_getElem (by omega), List.getElem?_eq_getElem (by omega), this]

example : labelMulti [[0, 0, 1, 1, 2], [0, 1, 1, 1, 1]] 5 = [0, 1, 2, 2, 3] ∧
    ([[0, 0, 1, 1, 2], [0, 1, 1, 1, 1]].map fun c => ((npUnique c).length : ℤ)).Pairwise (· ≥ ·) := by decide

/-- C60 fails in general: the running label is multiplied by the number of distinct values of the previous column
instead of the current one, so rows (0,"c") and (1,"a") of two columns with 2 and 3 distinct values collide. -/
theorem C60_refuted :
    ¬ ∀ (cols : List (List ℤ)) (n : Nat), (∀ c ∈ cols, c.length = n) → ∀ i j : Nat, i < n → j < n →
      (labelMulti cols n)[i]? = (labelMulti cols n)[j]? → ∀ c ∈ cols, c[i]? = c[j]? := by
  intro h
  have := h [[0, 0, 0, 1], [0, 1, 2, 0]] 4 (by decide) 2 3 (by omega) (by omega) (by decide) [0, 0, 0, 1] (by simp)
  revert this
  decide

end Pixell
