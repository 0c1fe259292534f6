import Verif.Lemmas.Iter
import Verif.Lemmas.Extract
import Verif.Props.Splits

/-
Properties C34 - C37: iteration over indices and digits, escaped splitting, splitting of index expressions.
-/
namespace Pixell

/-! ### C34: nditer -/

theorem allSel_full (shape : List Nat) : allSel (shape.map fun b => (b, true)) = (allIdx shape).map (List.map some) := by
  induction shape with
  | nil => rfl
  | cons b bs ih =>
    rw [List.map_cons, allSel, allIdx, ih, List.map_flatMap]
    congr 1
    funext i
    rw [List.map_map, List.map_map]
    rfl

/-- What nditer needs of the reversed axes: they are the positions of the mask from right to left. -/
theorem nditer_of_mask (fuel : Nat) (sm : List (Nat × Bool)) (hpos : ∀ p ∈ sm, p.2 = true → 0 < p.1)
    (hf : (allSel sm).length ≤ fuel) (axes : Option (List ℤ)) (rev : List Nat)
    (hrev : (ndAxes sm.length axes).reverse = rev)
    (he : rev = descAxes (sm.map Prod.snd)) :
    nditer fuel (sm.map Prod.fst) axes = some (allSel sm) := by
  have hI : rev.foldl (fun I a => I.set a (some 0)) (List.replicate sm.length (none : Option Nat)) =
      zeroSel (sm.map Prod.snd) := by
    apply List.ext_getElem?
    intro j
    rw [foldl_set_zero, he]
    unfold zeroSel
    simp only [descAxes_mem, List.length_replicate, List.getElem?_map, List.getElem?_replicate]
    by_cases hj : j < sm.length
    · rw [List.getElem?_eq_getElem hj]
      rcases h : sm[j] with ⟨b, m⟩
      cases m <;> simp [hj]
    · rw [List.getElem?_eq_none (by omega)]
      simp [hj]
  unfold nditer
  simp only [List.length_map]
  rw [hrev, hI, he]
  exact ndRun_of_visits (nd_visits sm hpos) fuel hf

theorem descAxes_full (n : Nat) : descAxes (List.replicate n true) = (List.range n).reverse := by
  induction n with
  | zero => rfl
  | succ n ih => rw [List.replicate_succ, descAxes, ih, reverse_range_succ]; rfl

/-- C34: for an array without empty axes nditer stops after as many values as there are elements, and it yields every
multi-index below the shape exactly once in row-major (lexicographic) order. -/
theorem C34_nditer (shape : List Nat) (hpos : ∀ b ∈ shape, 0 < b) :
    ∃ L : List (List Nat), nditer shape.prod shape none = some (L.map (List.map some)) ∧
      (∀ d, d ∈ L ↔ d.length = shape.length ∧ ∀ i : Nat, i < shape.length → d.getD i 0 < shape.getD i 0) ∧
      L.Pairwise (List.Lex (· < ·)) ∧ L.length = shape.prod := by
  refine ⟨allIdx shape, ?_, mem_allIdx shape, allIdx_sorted shape, allIdx_length shape⟩
  rw [← allSel_full]
  have e : (shape.map fun b => (b, true)).map Prod.fst = shape := by
    rw [List.map_map]; exact List.map_id shape
  have e2 : (shape.map fun b => (b, true)).map Prod.snd = List.replicate shape.length true := by
    rw [List.map_map]
    simp [Function.comp_def]
  conv_lhs => rw [← e]
  refine nditer_of_mask _ _ ?_ ?_ none _ rfl ?_
  · intro p hp _
    obtain ⟨b, hb, rfl⟩ := List.mem_map.1 hp
    exact hpos b hb
  · rw [allSel_full, List.length_map, allIdx_length, e]
  · rw [e2, descAxes_full]; simp [ndAxes]

example : nditer 6 [2, 3] none = some ([[0, 0], [0, 1], [0, 2], [1, 0], [1, 1], [1, 2]].map (List.map some)) := by
  decide +kernel

/-- C34: with a list of distinct axes (in any order, negative ones counting from the end) nditer runs over exactly
those axes, the last one fastest, and leaves the other axes as full slices. -/
theorem C34_axes (shape : List Nat) (axes : List ℤ) (hnd : (axes.map fun a : ℤ => a.fmod shape.length).Nodup)
    (hlen : axes = [] ∨ 0 < shape.length)
    (hpos : ∀ i : Nat, (i : ℤ) ∈ axes.map (fun a : ℤ => a.fmod shape.length) → 0 < shape.getD i 0) :
    ∃ mask : List Bool, mask.length = shape.length ∧
      (∀ i : Nat, mask[i]? = some true ↔ (i : ℤ) ∈ axes.map fun a : ℤ => a.fmod shape.length) ∧
      nditer (allSel (shape.zip mask)).length shape (some axes) = some (allSel (shape.zip mask)) := by
  set n := shape.length with hn
  set pos : List Nat := axes.map fun a : ℤ => (a.fmod n).toNat with hp
  have hmod : ∀ a ∈ axes, 0 ≤ a.fmod n ∧ a.fmod n < n := by
    intro a ha
    have h0 : 0 < n := by
      rcases hlen with h | h
      · rw [h] at ha; simp at ha
      · exact h
    exact ⟨Int.fmod_nonneg_of_pos a (by omega), Int.fmod_lt_of_pos a (by omega)⟩
  have hmemp : ∀ i : Nat, i ∈ pos ↔ (i : ℤ) ∈ axes.map fun a : ℤ => a.fmod n := by
    intro i
    rw [hp, List.mem_map, List.mem_map]
    constructor
    · rintro ⟨a, ha, e⟩
      have := hmod a ha
      exact ⟨a, ha, by omega⟩
    · rintro ⟨a, ha, e⟩
      exact ⟨a, ha, by omega⟩
  have hposnd : pos.Nodup := by
    rw [hp]
    have : pos.map (fun k : Nat => (k : ℤ)) = axes.map fun a : ℤ => a.fmod n := by
      rw [hp, List.map_map]
      apply List.map_congr_left
      intro a ha
      have := hmod a ha
      simp only [Function.comp]
      omega
    rw [← this] at hnd
    exact List.Nodup.of_map _ hnd
  let mask : List Bool := (List.range n).map fun i => decide (i ∈ pos)
  have hm : ∀ i : Nat, mask[i]? = some true ↔ i ∈ pos := by
    intro i
    by_cases h : i < n
    · simp [mask, h]
    · constructor
      · intro hc; simp [mask, h] at hc
      · intro hc
        rw [hp, List.mem_map] at hc
        obtain ⟨a, ha, e⟩ := hc
        have := hmod a ha
        omega
  have hml : mask.length = n := by simp [mask]
  refine ⟨mask, hml, fun i => (hm i).trans (hmemp i), ?_⟩
  have e1 : (shape.zip mask).map Prod.fst = shape := List.map_fst_zip (by omega)
  have e2 : (shape.zip mask).map Prod.snd = mask := List.map_snd_zip (by omega)
  conv_lhs => rw [← e1]
  refine nditer_of_mask _ (shape.zip mask) ?_ (le_of_eq (by rw [e1])) (some axes) _ rfl ?_
  · intro p hpm hb
    obtain ⟨i, hi, e⟩ := List.mem_iff_getElem.1 hpm
    have hi' : i < shape.length ∧ i < mask.length := by simpa using hi
    have := hpos i ((hmemp i).1 ((hm i).1 (by
      rw [List.getElem?_eq_getElem hi'.2]
      have : mask[i] = p.2 := by rw [← e]; simp
      rw [this, hb])))
    rw [← e]
    simpa [hi'.1] using this
  · rw [e2]
    simp only [List.length_zip, hml, ← hn, Nat.min_self]
    refine List.Perm.eq_of_pairwise (le := (· > ·)) (fun a b _ _ h1 h2 => by omega) ?_ (descAxes_desc mask) ?_
    · rw [List.pairwise_reverse]
      have hs := sortBy_sorted (fun a b : Nat => decide (a ≤ b)) (by intro a b c; simp; omega) (by intro a b; simp; omega) pos
      have hs2 : (sortBy (fun a b : Nat => decide (a ≤ b)) pos).Nodup := (sortBy_perm _ pos).nodup_iff.2 hposnd
      refine (hs.and hs2).imp ?_
      rintro a b ⟨h1, h2⟩
      simp at h1
      omega
    · refine (List.perm_ext_iff_of_nodup ?_ ?_).2 ?_
      · rw [List.nodup_reverse]
        exact (sortBy_perm _ pos).nodup_iff.2 hposnd
      · exact (descAxes_desc mask).imp (by intro a b h; omega)
      · intro a
        rw [List.mem_reverse, ndAxes, (sortBy_perm _ _).mem_iff, descAxes_mem, hm]

example : nditer 4 [2, 5, 2] (some [-1, 0]) =
    some [[some 0, none, some 0], [some 0, none, some 1], [some 1, none, some 0], [some 1, none, some 1]] := by decide +kernel

/-- C34 fails for arrays with an empty axis: nditer still yields indices although there is no element. -/
theorem C34_empty_refuted : nditer 2 [2, 0] none = some [[some 0, some 0], [some 1, some 0]] := by decide +kernel

/-- C34: the same axis given twice (here 1 and -1) makes the generator run forever. -/
theorem C34_repeated_axis_refuted (fuel : Nat) : nditer fuel [2, 3] (some [1, -1]) = none := by
  have key : ∀ fuel k, k < 3 → ndRun fuel [2, 3] [1, 1] [none, some k] = none := by
    intro fuel
    induction fuel with
    | zero => intro k _; rfl
    | succ f ih =>
      intro k hk
      rw [ndRun]
      have h3 : k = 0 ∨ k = 1 ∨ k = 2 := by omega
      rcases h3 with rfl | rfl | rfl
      · have : ndCarry [2, 3] [1, 1] [none, some 0] = ([none, some 1], true) := by decide
        rw [this]; simp [ih 1 (by omega)]
      · have : ndCarry [2, 3] [1, 1] [none, some 1] = ([none, some 2], true) := by decide
        rw [this]; simp [ih 2 (by omega)]
      · have : ndCarry [2, 3] [1, 1] [none, some 2] = ([none, some 1], true) := by decide
        rw [this]; simp [ih 1 (by omega)]
  exact key fuel 0 (by omega)

/-! ### C35: count_variable_basis -/

/-- C35: with positive bases the digit vectors seen during the iteration are all vectors below the bases, each once,
in lexicographic order. -/
theorem C35_seen (bases : List Nat) (hpos : ∀ b ∈ bases, 0 < b) :
    ∃ L fin, countVariableBasis bases.prod bases = some (L, fin) ∧
      (∀ d, d ∈ L ↔ d.length = bases.length ∧ ∀ i : Nat, i < bases.length → d.getD i 0 < bases.getD i 0) ∧
      L.Pairwise (List.Lex (· < ·)) ∧ L.length = bases.prod :=
  ⟨allIdx bases, _, cvbRun_of_visits (cvb_visits bases hpos) _ (le_of_eq (allIdx_length bases)), mem_allIdx bases,
    allIdx_sorted bases, allIdx_length bases⟩

example : (countVariableBasis 6 [2, 3]).map Prod.fst = some [[0, 0], [0, 1], [0, 2], [1, 0], [1, 1], [1, 2]] := by
  decide +kernel

/-- C35 fails for collected results: the generator hands out one list object, so `list(count_variable_basis(bases))`
is a list of zero vectors, for all bases. -/
theorem C35_collect_refuted (bases : List Nat) (hpos : ∀ b ∈ bases, 0 < b) :
    collectVariableBasis bases.prod bases = some (List.replicate bases.prod (List.replicate bases.length 0)) := by
  unfold collectVariableBasis countVariableBasis
  rw [cvbRun_of_visits (cvb_visits bases hpos) _ (le_of_eq (allIdx_length bases))]
  simp [List.map_const', allIdx_length]

example : collectVariableBasis 4 [2, 2] = some [[0, 0], [0, 0], [0, 0], [0, 0]] := by decide +kernel

/-- C35: with non-empty lists list_combination_iter yields, for every choice of one position in each list, the chosen
values, in lexicographic order of the positions. -/
theorem C35_list_combination {β : Type} (ilist : List (List β)) (hpos : ∀ l ∈ ilist, l ≠ []) :
    ∃ out : List (List β), listCombination (ilist.map List.length).prod ilist = some out ∧
      out.length = (ilist.map List.length).prod ∧
      ∀ (k : Nat) (I : List Nat), (allIdx (ilist.map List.length))[k]? = some I →
        ∃ vals, out[k]? = some vals ∧ vals.length = ilist.length ∧
          ∀ (j : Nat) (l : List β), ilist[j]? = some l → vals[j]? = l[I.getD j 0]? ∧ I.getD j 0 < l.length := by
  have hb : ∀ b ∈ ilist.map List.length, 0 < b := by
    intro b hb
    obtain ⟨l, hl, rfl⟩ := List.mem_map.1 hb
    exact List.length_pos_of_ne_nil (hpos l hl)
  have hrun := cvbRun_of_visits (cvb_visits _ hb) _ (le_of_eq (allIdx_length (ilist.map List.length)))
  have hone : ∀ I ∈ allIdx (ilist.map List.length), ∃ vals,
      ((ilist.zip I).mapM fun vi => vi.1[vi.2]?) = some vals ∧ vals.length = ilist.length ∧
        ∀ (j : Nat) (l : List β), ilist[j]? = some l → vals[j]? = l[I.getD j 0]? ∧ I.getD j 0 < l.length := by
    intro I hI
    clear hrun hb hpos
    induction ilist generalizing I with
    | nil =>
      have : I = [] := by simpa [allIdx] using hI
      subst this
      exact ⟨[], rfl, rfl, by simp⟩
    | cons l ilist ih =>
      rw [List.map_cons, allIdx, List.mem_flatMap] at hI
      obtain ⟨i, hi, hI⟩ := hI
      obtain ⟨J, hJ, rfl⟩ := List.mem_map.1 hI
      obtain ⟨vals, h1, h2, h3⟩ := ih J hJ
      have hi' : i < l.length := by simpa using hi
      refine ⟨l[i] :: vals, ?_, by simp [h2], ?_⟩
      · rw [List.zip_cons_cons, List.mapM_cons, List.getElem?_eq_getElem hi', h1]; rfl
      · intro j m hj
        cases j with
        | zero => simp at hj; subst hj; simp [hi']
        | succ j => simpa using h3 j m (by simpa using hj)
  have hall : ∀ LL : List (List Nat), (∀ I ∈ LL, I ∈ allIdx (ilist.map List.length)) →
      ∃ out, (LL.mapM fun I => (ilist.zip I).mapM fun vi => vi.1[vi.2]?) = some out ∧ out.length = LL.length ∧
        ∀ (k : Nat) (I : List Nat), LL[k]? = some I → ∃ vals, out[k]? = some vals ∧ vals.length = ilist.length ∧
          ∀ (j : Nat) (l : List β), ilist[j]? = some l → vals[j]? = l[I.getD j 0]? ∧ I.getD j 0 < l.length := by
    intro LL
    induction LL with
    | nil => intro _; exact ⟨[], rfl, rfl, by simp⟩
    | cons I LL ih =>
      intro h
      obtain ⟨out, h1, h2, h3⟩ := ih fun J hJ => h J (List.mem_cons_of_mem _ hJ)
      obtain ⟨vals, v1, v2, v3⟩ := hone I (h I (by simp))
      refine ⟨vals :: out, by rw [List.mapM_cons, v1, h1]; rfl, by simp [h2], ?_⟩
      intro k J hk
      cases k with
      | zero =>
        simp only [List.getElem?_cons_zero, Option.some.injEq] at hk
        subst hk
        exact ⟨vals, by simp, v2, v3⟩
      | succ k => simpa using h3 k J (by simpa using hk)
  obtain ⟨out, h1, h2, h3⟩ := hall _ fun I h => h
  refine ⟨out, ?_, by rw [h2, allIdx_length], h3⟩
  unfold listCombination countVariableBasis
  rw [hrun]
  exact h1

example : listCombination 4 [["a", "b"], ["x", "y"]] = some [["a", "x"], ["a", "y"], ["b", "x"], ["b", "y"]] := by
  decide +kernel

/-- C35: an empty list among the choices raises instead of giving no combinations. -/
theorem C35_empty_refuted : listCombination 9 [["a", "b"], ([] : List String)] = none := by decide +kernel

/-! ### C36: split_esc -/

/-- Put the escape character before every delimiter in a token. -/
def escapeDelim (delim esc : Char) (tok : List Char) : List Char := tok.flatMap fun c => if c = delim then [esc, c] else [c]

/-- Put the escape character before every delimiter and escape character in a token. -/
def escapeAll (delim esc : Char) (tok : List Char) : List Char :=
  tok.flatMap fun c => if c = delim ∨ c = esc then [esc, c] else [c]

/-- C36, as far as it holds: tokens that may contain the delimiter but not the escape character come back after
escaping and joining, provided the last one is not empty.  Missing: tokens with escape characters and an empty last
token, for which the claim is false (`C36_refuted`). -/
theorem C36_split_esc_partial (delim esc : Char) (hde : delim ≠ esc) (toks : List (List Char)) (last : List Char)
    (hesc : ∀ t ∈ toks ++ [last], esc ∉ t) (hlast : last ≠ []) :
    splitEsc ([delim].intercalate ((toks ++ [last]).map (escapeDelim delim esc))) delim esc = toks ++ [last] := by
  have key : ∀ (toks : List (List Char)) (out : List (List Char)), (∀ t ∈ toks ++ [last], esc ∉ t) →
      ([delim].intercalate ((toks ++ [last]).map (escapeDelim delim esc))).foldl (escStep delim esc) ((false, []), out) =
        ((false, last), out ++ toks) := by
    intro toks
    induction toks with
    | nil =>
      intro out h
      have := escStep_fold_plain delim esc hde last (h last (by simp)) [] out
      simpa [List.intercalate, escapeDelim] using this
    | cons t toks ih =>
      intro out h
      have e : [delim].intercalate (((t :: toks) ++ [last]).map (escapeDelim delim esc)) =
          escapeDelim delim esc t ++ ([delim] ++ [delim].intercalate ((toks ++ [last]).map (escapeDelim delim esc))) := by
        have : ((toks ++ [last]).map (escapeDelim delim esc)) ≠ [] := by simp
        obtain ⟨x, r, hx⟩ := List.exists_cons_of_ne_nil this
        rw [List.cons_append, List.map_cons, hx]
        simp [List.intercalate, List.intersperse]
      rw [e, List.foldl_append, List.foldl_append]
      have := escStep_fold_plain delim esc hde t (h t (by simp)) [] out
      rw [show escapeDelim delim esc t = t.flatMap fun c => if c = delim then [esc, c] else [c] from rfl, this]
      have : ([delim].foldl (escStep delim esc) ((false, [] ++ t), out)) = ((false, []), out ++ [t]) := by
        simp [escStep, hde]
      rw [this, ih (out ++ [t]) fun u hu => h u (by rw [List.cons_append]; exact List.mem_cons_of_mem _ hu)]
      simp
  have hne : ([delim].intercalate ((toks ++ [last]).map (escapeDelim delim esc))).length ≠ 0 := by
    intro h0
    have := key toks [] hesc
    rw [List.eq_nil_of_length_eq_zero h0] at this
    simp only [List.foldl_nil, Prod.mk.injEq] at this
    exact hlast this.1.2.symm
  unfold splitEsc
  simp only [if_neg hne]
  rw [key toks [] hesc]
  simp [List.length_pos_of_ne_nil hlast]

example : splitEsc "a\\,b,,c".toList ',' = ["a,b".toList, [], "c".toList] := by decide +kernel

/-- C36 fails in general: an escaped escape character disappears, and an empty last token is lost. -/
theorem C36_refuted :
    splitEsc (escapeAll ',' '\\' ['a', '\\', 'b']) ',' = [['a', 'b']] ∧
    splitEsc ([','].intercalate [['a'], []]) ',' = [['a']] := by decide +kernel

/-! ### C37: split_slice -/

theorem consumes_sum (sel : List SelItem) :
    (sel.map fun (v : SelItem) => if v.consumes then (1 : ℚ) else 0).sum = (sel.countP SelItem.consumes : ℕ) := by
  induction sel with
  | nil => rfl
  | cons v sel ih =>
    rw [List.map_cons, List.sum_cons, ih, List.countP_cons]
    by_cases h : v.consumes = true
    · simp [h, add_comm]
    · simp [h]

theorem cast_sum (l : List Nat) : (l.map fun (n : Nat) => (n : ℚ)).sum = (l.sum : ℕ) := by
  induction l with
  | nil => rfl
  | cons n l ih => rw [List.map_cons, List.sum_cons, ih, List.sum_cons]; push_cast; ring

/-- The cuts made by split_slice, in terms of numbers of consuming indices. -/
theorem sliceCuts_spec (sel : List SelItem) (ndims : List Nat) :
    (sliceCuts sel ndims).length = ndims.length ∧ (sliceCuts sel ndims).Pairwise (· ≤ ·) ∧
    ∀ j k : Nat, (sliceCuts sel ndims)[j]? = some k → k ≤ sel.length ∧
      (sel.take k).countP SelItem.consumes ≤ (ndims.take (j + 1)).sum ∧
      (k < sel.length → (ndims.take (j + 1)).sum = (sel.take k).countP SelItem.consumes) := by
  have hc : ∀ x ∈ ndims.map fun (n : Nat) => (n : ℚ), 0 ≤ x := by
    intro x hx
    obtain ⟨n, _, rfl⟩ := List.mem_map.1 hx
    exact_mod_cast Nat.zero_le n
  have hs : ∀ x ∈ sel.map fun (v : SelItem) => if v.consumes then (1 : ℚ) else 0, 0 ≤ x := by
    intro x hx
    obtain ⟨v, _, rfl⟩ := List.mem_map.1 hx
    split <;> norm_num
  obtain ⟨h1, h2⟩ := C27_cumsplit _ _ hs hc
  refine ⟨by unfold sliceCuts; rw [h1, List.length_map], C27_cumsplit_sorted _ _ hc, ?_⟩
  intro j k hjk
  obtain ⟨a, b, c⟩ := h2 j k hjk
  rw [List.length_map] at a c
  rw [← List.map_take, ← List.map_take, consumes_sum, cast_sum] at b
  have b' : (sel.take k).countP SelItem.consumes ≤ (ndims.take (j + 1)).sum := by exact_mod_cast b
  refine ⟨a, b', fun hk => ?_⟩
  have c' := c hk
  rw [← List.map_take, ← List.map_take, consumes_sum, cast_sum] at c'
  have c'' : (ndims.take (j + 1)).sum < (sel.take (k + 1)).countP SelItem.consumes := by exact_mod_cast c'
  rw [List.take_add_one (l := sel), List.countP_append, List.getElem?_eq_getElem hk] at c''
  have : List.countP SelItem.consumes (some sel[k]).toList ≤ 1 := by
    refine le_trans List.countP_le_length ?_
    simp
  omega

/-- C37 without ellipses: too many indices (not counting `None`) is an error; otherwise there is one group per entry of
`ndims`, the groups joined give the index tuple back, and group `i` has at most `ndims[i]` indices that consume an
axis; it has fewer only if no consuming index is left for later groups. -/
theorem C37_simple (sel : List SelItem) (ndims : List Nat) (hne : ndims ≠ []) :
    (splitSliceSimple sel ndims = none ↔ ndims.sum < sel.countP SelItem.consumes) ∧
    ∀ g, splitSliceSimple sel ndims = some g →
      g.length = ndims.length ∧ g.flatten = sel ∧
      ∀ (i : Nat) (gi : List SelItem), g[i]? = some gi → gi.countP SelItem.consumes ≤ ndims.getD i 0 ∧
        (gi.countP SelItem.consumes < ndims.getD i 0 →
          ∀ (j : Nat) (gj : List SelItem), i < j → g[j]? = some gj → gj = []) := by
  obtain ⟨h1, h2, h3⟩ := sliceCuts_spec sel ndims
  set cuts := sliceCuts sel ndims with hcuts
  have hcne : cuts ≠ [] := by
    intro h; rw [h] at h1; simp at h1; exact hne (List.eq_nil_of_length_eq_zero h1.symm)
  have hnd : 0 < ndims.length := List.length_pos_of_ne_nil hne
  have hlast : cuts.getLast? = some (cuts.getLast hcne) := List.getLast?_eq_getLast_of_ne_nil hcne
  set last := cuts.getLast hcne with hl
  have hlast' : cuts[ndims.length - 1]? = some last := by
    rw [← hlast, List.getLast?_eq_getElem?, h1]
  obtain ⟨l1, l2, l3⟩ := h3 _ _ hlast'
  rw [show ndims.length - 1 + 1 = ndims.length by omega, List.take_length] at l2 l3
  have hdef : splitSliceSimple sel ndims = if last < sel.length then none else some (sliceGroups sel 0 cuts) := by
    unfold splitSliceSimple
    simp only [← hcuts, hlast]
  have hcount : last < sel.length → ndims.sum < sel.countP SelItem.consumes := by
    intro h
    have hs : (sel.take (last + 1)).countP SelItem.consumes ≤ sel.countP SelItem.consumes := by
      conv_rhs => rw [← List.take_append_drop (last + 1) sel, List.countP_append]
      omega
    -- the item at the cut consumes, otherwise the cut would be later
    have hstrict : ndims.sum < (sel.take (last + 1)).countP SelItem.consumes := by
      have hc : ∀ x ∈ ndims.map fun (n : Nat) => (n : ℚ), 0 ≤ x := by
        intro x hx
        obtain ⟨n, _, rfl⟩ := List.mem_map.1 hx
        exact_mod_cast Nat.zero_le n
      have hsz : ∀ x ∈ sel.map fun (v : SelItem) => if v.consumes then (1 : ℚ) else 0, 0 ≤ x := by
        intro x hx
        obtain ⟨v, _, rfl⟩ := List.mem_map.1 hx
        split <;> norm_num
      obtain ⟨_, _, c⟩ := (C27_cumsplit _ _ hsz hc).2 _ _ hlast'
      rw [List.length_map] at c
      have c' := c h
      rw [← List.map_take, ← List.map_take, consumes_sum, cast_sum,
        show ndims.length - 1 + 1 = ndims.length by omega, List.take_length] at c'
      exact_mod_cast c'
    omega
  refine ⟨?_, ?_⟩
  · rw [hdef]
    constructor
    · intro h
      by_cases hlt : last < sel.length
      · exact hcount hlt
      · rw [if_neg hlt] at h; cases h
    · intro h
      rw [if_pos]
      by_contra hc
      have : last = sel.length := by omega
      rw [this, List.take_length] at l2
      omega
  · intro g hg
    rw [hdef] at hg
    by_cases hlt : last < sel.length
    · rw [if_pos hlt] at hg; cases hg
    · rw [if_neg hlt, Option.some.injEq] at hg
      subst hg
      have hll : last = sel.length := by omega
      obtain ⟨f1, f2⟩ := sliceGroups_spec sel cuts 0 (List.pairwise_cons.2 ⟨fun _ _ => Nat.zero_le _, h2⟩) hcne (by rw [hlast, hll])
      refine ⟨by rw [f2, h1], by rw [f1]; rfl, ?_⟩
      intro i gi hgi
      have hi : i < cuts.length := by
        by_contra hc
        rw [List.getElem?_eq_none (by omega)] at hgi
        cases hgi
      rw [sliceGroups_get sel cuts 0 i hi, Option.some.injEq] at hgi
      -- counts up to the start and the end of the group
      have hend : cuts[i]? = some (cuts.getD i 0) := by rw [List.getElem?_eq_getElem hi]; simp [hi]
      obtain ⟨e1, e2, e3⟩ := h3 i _ hend
      have hle : (0 :: cuts).getD i 0 ≤ cuts.getD i 0 ∧
          (((0 :: cuts).getD i 0 < sel.length → (ndims.take i).sum = (sel.take ((0 :: cuts).getD i 0)).countP SelItem.consumes) ) := by
        cases i with
        | zero => simp
        | succ i =>
          have hi0 : i < cuts.length := by omega
          have hst : cuts[i]? = some (cuts.getD i 0) := by rw [List.getElem?_eq_getElem hi0]; simp [hi0]
          obtain ⟨s1, s2, s3⟩ := h3 i _ hst
          refine ⟨?_, by simpa using s3⟩
          have := (List.pairwise_iff_getElem.1 h2) i (i + 1) hi0 hi (by omega)
          simpa [hi0, hi] using this
      have hil : i < ndims.length := by omega
      have hsum : (ndims.take (i + 1)).sum = (ndims.take i).sum + ndims.getD i 0 := by
        rw [List.take_add_one, List.sum_append, List.getElem?_eq_getElem hil]
        simp [hil]
      set a := (0 :: cuts).getD i 0
      set b := cuts.getD i 0
      have hcnt : (sel.take b).countP SelItem.consumes = (sel.take a).countP SelItem.consumes + gi.countP SelItem.consumes := by
        rw [← hgi, ← List.countP_append]
        congr 1
        conv_lhs => rw [← Nat.add_sub_cancel' hle.1, List.take_add]
      refine ⟨?_, ?_⟩
      · by_cases ha : a < sel.length
        · have := hle.2 ha
          omega
        · have : gi = [] := by rw [← hgi, List.drop_eq_nil_of_le (by omega), List.take_nil]
          rw [this]; simp
      · intro hless j gj hij hgj
        have hb : b = sel.length := by
          by_contra hc
          have hb' : b < sel.length := by omega
          have := e3 hb'
          have ha : a < sel.length := by omega
          have := hle.2 ha
          omega
        have hj : j < cuts.length := by
          by_contra hc
          rw [List.getElem?_eq_none (by omega)] at hgj
          cases hgj
        rw [sliceGroups_get sel cuts 0 j hj, Option.some.injEq] at hgj
        obtain ⟨j', rfl⟩ : ∃ j', j = j' + 1 := ⟨j - 1, by omega⟩
        have hj0 : j' < cuts.length := by omega
        have : b ≤ (0 :: cuts).getD (j' + 1) 0 := by
          rcases Nat.lt_or_ge i j' with h | h
          · have := (List.pairwise_iff_getElem.1 h2) i j' hi hj0 h
            simpa [b, hi, hj0] using this
          · have : i = j' := by omega
            subst this; simp [b]
        rw [← hgj, List.drop_eq_nil_of_le (by omega), List.take_nil]

example : splitSliceSimple [.other 1, .newaxis, .other 2, .newaxis] [1, 2] = some [[.other 1, .newaxis], [.other 2, .newaxis]] := by
  decide +kernel
example : splitSliceSimple [.other 1, .other 2, .other 3] [1, 1] = none := by decide +kernel

/-- C37 with ellipses: an index tuple `left, ..., right` is read as `left` followed by as many full slices as are needed
to index every axis, followed by `right`, and then distributed as in `C37_simple`; it is an error exactly if `left` and
`right` together have more consuming indices than there are axes. -/
theorem C37_ellipsis (left right : List SelItem) (ndims : List Nat) (hne : ndims ≠ [])
    (hl : ∀ v ∈ left ++ right, v.isEllipsis = false) :
    (splitSlice (left ++ [.ellipsis] ++ right) ndims = none ↔ ndims.sum < (left ++ right).countP SelItem.consumes) ∧
    ∀ g, splitSlice (left ++ [.ellipsis] ++ right) ndims = some g →
      g.flatten = left ++ List.replicate (ndims.sum - (left ++ right).countP SelItem.consumes) .full ++ right ∧
      g.length = ndims.length ∧
      ∀ (i : Nat) (gi : List SelItem), g[i]? = some gi → gi.countP SelItem.consumes = ndims.getD i 0 := by
  have hmap : (left ++ [SelItem.ellipsis] ++ right).map (fun (v : SelItem) => if v.isEllipsis then SelItem.ellipsis else v) =
      left ++ [SelItem.ellipsis] ++ right := by
    rw [List.map_append, List.map_append]
    have e : ∀ l : List SelItem, (∀ v ∈ l, v.isEllipsis = false) →
        l.map (fun (v : SelItem) => if v.isEllipsis then SelItem.ellipsis else v) = l := by
      intro l hl
      conv_rhs => rw [← List.map_id l]
      apply List.map_congr_left
      intro v hv
      simp [hl v hv]
    rw [e left fun v hv => hl v (by simp [hv]), e right fun v hv => hl v (by simp [hv])]
    rfl
  have hnot : ∀ l : List SelItem, (∀ v ∈ l, v.isEllipsis = false) → listsplit l SelItem.ellipsis = [l] := by
    intro l
    induction l with
    | nil => intro _; rfl
    | cons v l ih =>
      intro h
      have hv : v ≠ SelItem.ellipsis := by
        rintro rfl; have := h SelItem.ellipsis (by simp); simp [SelItem.isEllipsis] at this
      rw [listsplit_cons_ne l hv (ih fun w hw => h w (List.mem_cons_of_mem _ hw))]
  have hsplit : ∀ l : List SelItem, (∀ v ∈ l, v.isEllipsis = false) →
      listsplit (l ++ [SelItem.ellipsis] ++ right) SelItem.ellipsis = [l, right] := by
    intro l
    induction l with
    | nil =>
      intro _
      rw [List.nil_append, List.singleton_append, listsplit_cons_eq right rfl, hnot right fun v hv => hl v (by simp [hv])]
    | cons v l ih =>
      intro h
      have hv : v ≠ SelItem.ellipsis := by
        rintro rfl; have := h SelItem.ellipsis (by simp); simp [SelItem.isEllipsis] at this
      rw [List.cons_append, List.cons_append, listsplit_cons_ne _ hv (ih fun w hw => h w (List.mem_cons_of_mem _ hw))]
  have hdef : splitSlice (left ++ [.ellipsis] ++ right) ndims =
      splitSliceSimple (left ++ List.replicate (ndims.sum - (left ++ right).countP SelItem.consumes) .full ++ right) ndims := by
    unfold splitSlice
    simp only [hmap]
    rw [hsplit left fun v hv => hl v (by simp [hv])]
    simp
  rw [hdef]
  set k := (left ++ right).countP SelItem.consumes with hk
  have hcount : (left ++ List.replicate (ndims.sum - k) SelItem.full ++ right).countP SelItem.consumes = k + (ndims.sum - k) := by
    rw [List.countP_append, List.countP_append, hk, List.countP_append, List.countP_replicate]
    simp [SelItem.consumes]
    omega
  obtain ⟨s1, s2⟩ := C37_simple (left ++ List.replicate (ndims.sum - k) .full ++ right) ndims hne
  rw [hcount] at s1
  refine ⟨by rw [s1]; omega, ?_⟩
  intro g hg
  obtain ⟨g1, g2, g3⟩ := s2 g hg
  refine ⟨g2, g1, ?_⟩
  have hok : k ≤ ndims.sum := by
    by_contra hc
    have := s1.2 (by omega)
    rw [this] at hg; cases hg
  -- all groups are full because the totals agree
  have htot : (g.map fun gi => gi.countP SelItem.consumes).sum = ndims.sum := by
    rw [← List.countP_flatten, g2, hcount]; omega
  have hle : ∀ (ns : List Nat) (g : List (List SelItem)), g.length = ns.length →
      (∀ (i : Nat) (gi : List SelItem), g[i]? = some gi → gi.countP SelItem.consumes ≤ ns.getD i 0) →
      (g.map fun gi => gi.countP SelItem.consumes).sum ≤ ns.sum ∧
      ((g.map fun gi => gi.countP SelItem.consumes).sum = ns.sum →
        ∀ (i : Nat) (gi : List SelItem), g[i]? = some gi → gi.countP SelItem.consumes = ns.getD i 0) := by
    intro ns
    induction ns with
    | nil => intro g hg _; have := List.eq_nil_of_length_eq_zero hg; subst this; simp
    | cons n ns ih =>
      intro g hg h
      cases g with
      | nil => simp at hg
      | cons g0 g =>
        obtain ⟨i1, i2⟩ := ih g (by simpa using hg) (fun i gi hi => by simpa using h (i + 1) gi (by simpa using hi))
        have h0 := h 0 g0 (by simp)
        simp only [List.getD_cons_zero] at h0
        rw [List.map_cons, List.sum_cons, List.sum_cons]
        refine ⟨by omega, ?_⟩
        intro he i gi hi
        cases i with
        | zero =>
          simp only [List.getElem?_cons_zero, Option.some.injEq] at hi
          subst hi
          simp only [List.getD_cons_zero]
          omega
        | succ i => simpa using i2 (by omega) i gi (by simpa using hi)
  exact (hle ndims g g1 fun i gi hi => (g3 i gi hi).1).2 htot

example : splitSlice [.other 7, .ellipsis, .newaxis, .other 8] [2, 2] =
    some [[.other 7, .full], [.full, .newaxis, .other 8]] := by decide +kernel

/-- C37 fails for an empty index array: it is taken for an ellipsis, so selecting nothing selects everything. -/
theorem C37_empty_array_refuted : splitSlice [.array 0 1] [1, 2] = some [[.full], [.full, .full]] := by decide +kernel

end Pixell
