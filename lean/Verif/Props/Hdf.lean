import Mathlib.Data.List.Infix
import Mathlib.Data.List.Nodup
import Verif.Model.Store
import Verif.Props.Store

/-
Properties C55 and C56: HDF files.
-/
namespace Pixell

variable {α : Type}

/-- A well-formed file: no path twice, the root is a group, and the parent of every node is a group. -/
structure HOk (f : HFile α) : Prop where
  nodup : (f.map (·.1)).Nodup
  root : hGet f [] = some none
  parent : ∀ g k, (hGet f (g ++ [k])).isSome → hGet f g = some none

theorem mem_hParents (p q : List (List Char)) : q ∈ hParents p ↔ q <+: p ∧ q ≠ p := by
  unfold hParents
  rw [List.mem_map]
  constructor
  · rintro ⟨i, hi, rfl⟩
    refine ⟨List.take_prefix _ _, fun e => ?_⟩
    have := congrArg List.length e
    rw [List.length_take] at this
    have := List.mem_range.1 hi
    omega
  · rintro ⟨h, hne⟩
    refine ⟨q.length, ?_, (List.prefix_iff_eq_take.1 h).symm⟩
    rw [List.mem_range]
    rcases Nat.lt_or_ge q.length p.length with h' | h'
    · exact h'
    · exact absurd (h.eq_of_length (Nat.le_antisymm h.length_le h')) hne

theorem hParents_nodup (p : List (List Char)) : (hParents p).Nodup := by
  unfold hParents
  refine List.Nodup.map_on ?_ List.nodup_range
  intro i hi j hj e
  have := congrArg List.length e
  simp only [List.length_take] at this
  have := List.mem_range.1 hi
  have := List.mem_range.1 hj
  omega

/-- Existing nodes below which another exists are groups. -/
theorem HOk.above {f : HFile α} (hf : HOk f) (q r : List (List Char)) (hr : r ≠ []) (h : (hGet f (q ++ r)).isSome) :
    hGet f q = some none := by
  induction r using List.reverseRecOn with
  | nil => exact absurd rfl hr
  | append_singleton r k ih =>
    rw [← List.append_assoc] at h
    have := hf.parent _ _ h
    by_cases hr0 : r = []
    · subst hr0; simpa using this
    · exact ih hr0 (by rw [this]; rfl)

theorem HOk.below {f : HFile α} (hf : HOk f) (q r : List (List Char)) (h : hGet f q = none) : hGet f (q ++ r) = none := by
  by_cases hr : r = []
  · subst hr; simpa using h
  · by_contra hc
    have := hf.above q r hr (by rw [← Option.ne_none_iff_isSome]; exact hc)
    rw [h] at this; cases this

/-- The missing parents of a path. -/
def hMissing (f : HFile α) (p : List (List Char)) : HFile α :=
  ((hParents p).filter fun q => (hGet f q).isNone).map fun q => (q, none)

theorem hCreate_eq (f : HFile α) (p : List (List Char)) (v : Option α) (h0 : hGet f p = none)
    (h1 : ∀ q, q <+: p → q ≠ p → ∀ a, hGet f q ≠ some (some a)) :
    hCreate f p v = some (f ++ hMissing f p ++ [(p, v)]) := by
  unfold hCreate
  rw [if_neg (by rw [h0]; simp), if_neg]
  · rfl
  · rw [Bool.not_eq_true, List.any_eq_false]
    intro q hq
    rw [mem_hParents] at hq
    have := h1 q hq.1 hq.2
    cases hg : hGet f q with
    | none => simp
    | some w =>
      cases w with
      | none => simp
      | some a => exact absurd hg (this a)

theorem hGet_create (f : HFile α) (p : List (List Char)) (v : Option α) (q : List (List Char)) :
    hGet (f ++ hMissing f p ++ [(p, v)]) q = if (hGet f q).isSome then hGet f q else if q = p then some v
      else if q <+: p then some none else none := by
  unfold hGet
  rw [List.append_assoc, dictGet_append]
  by_cases h : q ∈ f.map (·.1)
  · rw [if_pos h, if_pos ((dictGet_isSome f q).2 h)]
  · rw [if_neg h, if_neg (fun hh => h ((dictGet_isSome f q).1 hh)), dictGet_append]
    have hn : dictGet f q = none := by
      have := (dictGet_isSome f q).not.2 h
      simpa using this
    have hm : q ∈ (hMissing f p).map (·.1) ↔ q <+: p ∧ q ≠ p := by
      unfold hMissing
      rw [List.map_map]
      simp only [Function.comp_def, List.map_id']
      rw [List.mem_filter, mem_hParents]
      simp [hGet, hn]
    by_cases hq : q = p
    · subst hq
      rw [if_neg (by rw [hm]; simp), dictGet_cons]; simp
    · by_cases hp : q <+: p
      · rw [if_pos (hm.2 ⟨hp, hq⟩), if_neg hq, if_pos hp]
        have hs := (dictGet_isSome (hMissing f p) q).2 (hm.2 ⟨hp, hq⟩)
        obtain ⟨w, hw⟩ := Option.isSome_iff_exists.1 hs
        rw [hw]
        have hmem : ∃ e ∈ hMissing f p, e.2 = w := by
          unfold dictGet at hw
          rw [Option.map_eq_some_iff] at hw
          obtain ⟨e, he, rfl⟩ := hw
          exact ⟨e, List.mem_of_find?_eq_some he, rfl⟩
        obtain ⟨e, he, rfl⟩ := hmem
        unfold hMissing at he
        obtain ⟨x, _, rfl⟩ := List.mem_map.1 he
        rfl
      · rw [if_neg (fun hh => hp (hm.1 hh).1), if_neg hq, if_neg hp, dictGet_cons, if_neg (fun e => hq e.symm), dictGet_nil]

theorem HOk.create {f : HFile α} (hf : HOk f) (p : List (List Char)) (v : Option α) (h0 : hGet f p = none)
    (h1 : ∀ q, q <+: p → q ≠ p → ∀ a, hGet f q ≠ some (some a)) : HOk (f ++ hMissing f p ++ [(p, v)]) := by
  have hp0 : p ≠ [] := by rintro rfl; rw [hf.root] at h0; cases h0
  refine ⟨?_, ?_, ?_⟩
  · rw [List.append_assoc, List.map_append, List.nodup_append]
    have hnotin : ∀ q, hGet f q = none → q ∉ f.map (·.1) := by
      intro q hq hm
      have := (dictGet_isSome f q).2 hm
      unfold hGet at hq
      rw [hq] at this; simp at this
    have hmk : (hMissing f p).map (·.1) = (hParents p).filter fun q => (hGet f q).isNone := by
      unfold hMissing
      rw [List.map_map]; simp [Function.comp_def]
    refine ⟨hf.nodup, ?_, ?_⟩
    · rw [List.map_append, List.nodup_append, hmk]
      refine ⟨(hParents_nodup p).filter _, by simp, ?_⟩
      intro a ha b hb
      rw [List.mem_filter, mem_hParents] at ha
      simp at hb
      rw [hb]; exact ha.1.2
    · intro a ha b hb
      rw [List.map_append, List.mem_append, hmk] at hb
      rintro rfl
      rcases hb with hb | hb
      · rw [List.mem_filter] at hb
        exact hnotin a (by simpa using hb.2) ha
      · simp at hb; subst hb
        exact hnotin a h0 ha
  · rw [hGet_create, hf.root]; rfl
  · intro g k h
    rw [hGet_create] at h ⊢
    by_cases hin : (hGet f (g ++ [k])).isSome
    · have := hf.parent g k hin
      rw [this]; rfl
    · rw [if_neg hin] at h
      have hpre : g ++ [k] <+: p := by
        split_ifs at h with h2 h3
        · rw [h2]
        · exact h3
        · simp at h
      have hg : g <+: p := (List.prefix_append g [k]).trans hpre
      have hne : g ≠ p := by
        rintro rfl
        have := hpre.length_le
        simp at this
      by_cases hgin : (hGet f g).isSome
      · rw [if_pos hgin]
        obtain ⟨w, hw⟩ := Option.isSome_iff_exists.1 hgin
        rw [hw]
        cases w with
        | none => rfl
        | some a => exact absurd hw (h1 g hg hne a)
      · rw [if_neg hgin, if_neg hne, if_pos hg]

/-- Creating a node in an existing group. -/
theorem HOk.createIn {f : HFile α} (hf : HOk f) (g : List (List Char)) (k : List Char) (v : Option α)
    (hg : hGet f g = some none) (h0 : hGet f (g ++ [k]) = none) :
    hCreate f (g ++ [k]) v = some (f ++ [(g ++ [k], v)]) ∧ HOk (f ++ [(g ++ [k], v)]) ∧
    ∀ q, hGet (f ++ [(g ++ [k], v)]) q = if q = g ++ [k] then some v else hGet f q := by
  have hpar : ∀ q, q <+: g ++ [k] → q ≠ g ++ [k] → hGet f q = some none := by
    intro q hq hne
    rw [List.prefix_concat_iff] at hq
    rcases hq with hq | hq
    · exact absurd hq hne
    · obtain ⟨r, rfl⟩ := hq
      by_cases hr : r = []
      · subst hr; simpa using hg
      · exact hf.above q r hr (by rw [hg]; rfl)
  have h1 : ∀ q, q <+: g ++ [k] → q ≠ g ++ [k] → ∀ a, hGet f q ≠ some (some a) := by
    intro q hq hne a
    rw [hpar q hq hne]; simp
  have hm : hMissing f (g ++ [k]) = [] := by
    unfold hMissing
    rw [List.map_eq_nil_iff, List.filter_eq_nil_iff]
    intro q hq
    rw [mem_hParents] at hq
    rw [hpar q hq.1 hq.2]; simp
  have a := hCreate_eq f (g ++ [k]) v h0 h1
  have b := hf.create (g ++ [k]) v h0 h1
  have c := hGet_create f (g ++ [k]) v
  rw [hm, List.append_nil] at a b c
  refine ⟨a, b, ?_⟩
  intro q
  rw [c]
  by_cases hq : q = g ++ [k]
  · subst hq; rw [h0]; simp
  · rw [if_neg hq, if_neg hq]
    by_cases hs : (hGet f q).isSome
    · rw [if_pos hs]
    · rw [if_neg hs]
      have hn : hGet f q = none := by simpa using hs
      rw [if_neg, hn]
      intro hp
      rw [hpar q hp hq] at hn; cases hn

theorem hGet_delete (f : HFile α) (p q : List (List Char)) :
    hGet (hDelete f p) q = if p <+: q then none else hGet f q := by
  unfold hGet hDelete
  induction f with
  | nil => simp [dictGet]
  | cons e f ih =>
    rw [List.filter_cons]
    by_cases h : p <+: e.1
    · have : p.isPrefixOf e.1 = true := by simpa using h
      simp only [this, Bool.not_true, Bool.false_eq_true, if_false]
      rw [ih, dictGet_cons]
      by_cases h2 : p <+: q
      · rw [if_pos h2, if_pos h2]
      · rw [if_neg h2, if_neg h2, if_neg]
        rintro rfl; exact h2 h
    · have : p.isPrefixOf e.1 = false := by
        rw [← Bool.not_eq_true]; simpa using h
      simp only [this, Bool.not_false, if_true]
      rw [dictGet_cons, dictGet_cons, ih]
      by_cases h2 : p <+: q
      · rw [if_pos h2, if_pos h2, if_neg]
        rintro rfl; exact h h2
      · rw [if_neg h2, if_neg h2]

theorem HOk.delete {f : HFile α} (hf : HOk f) (p : List (List Char)) (hp : p ≠ []) : HOk (hDelete f p) := by
  refine ⟨?_, ?_, ?_⟩
  · unfold hDelete
    exact (List.filter_sublist.map _).nodup hf.nodup
  · rw [hGet_delete, if_neg, hf.root]
    intro h; exact hp (List.prefix_nil.1 h)
  · intro g k h
    rw [hGet_delete] at h ⊢
    split_ifs at h with h1
    · simp at h
    · rw [if_neg, hf.parent g k h]
      intro hh; exact h1 (hh.trans (List.prefix_append _ _))

/-! ### C55 -/

theorem mapWrite_header {g : List (List Char)} (h : List (List Char × α)) : ∀ (f : HFile α), HOk f →
    hGet f (g ++ ["wcs".toList]) = some none → (h.map (·.1)).Nodup →
    (∀ e ∈ h, hGet f (g ++ ["wcs".toList, e.1]) = none) →
    h.foldl (fun acc e => acc.bind fun f => hCreate f (g ++ ["wcs".toList, e.1]) (some e.2)) (some f) =
      some (f ++ h.map fun e => (g ++ ["wcs".toList, e.1], some e.2)) ∧
    HOk (f ++ h.map fun e => (g ++ ["wcs".toList, e.1], some e.2)) := by
  induction h with
  | nil => intro f hf _ _ _; simpa using hf
  | cons e h ih =>
    intro f hf hg hn h0
    have eapp : ∀ k : List Char, g ++ ["wcs".toList, k] = (g ++ ["wcs".toList]) ++ [k] := by simp
    obtain ⟨c1, c2, c3⟩ := hf.createIn (g ++ ["wcs".toList]) e.1 (some e.2) hg (by rw [← eapp]; exact h0 e (by simp))
    rw [List.map_cons, List.nodup_cons] at hn
    have := ih (f ++ [(g ++ ["wcs".toList] ++ [e.1], some e.2)]) c2 (by rw [c3, if_neg (by simp)]; exact hg) hn.2 (by
      intro e' he'
      rw [eapp, c3, if_neg, ← eapp]
      · exact h0 e' (List.mem_cons_of_mem _ he')
      · intro x
        have : e'.1 = e.1 := by simpa using x
        exact hn.1 (by rw [← this]; exact List.mem_map_of_mem (f := (·.1)) he'))
    rw [List.foldl_cons, Option.bind_some, eapp, c1]
    simpa [eapp] using this

/-- The nodes written for a map in the group `g`. -/
def mapNodes (g : List (List Char)) (m : HMap α) : HFile α :=
  [(g, none), (g ++ ["data".toList], some m.data), (g ++ ["wcs".toList], none)] ++
    m.header.map fun e => (g ++ ["wcs".toList, e.1], some e.2)

/-- What write_hdf does to a well-formed file. -/
theorem mapWrite_eq {f : HFile α} (hf : HOk f) (a : List Char) (m : HMap α) (hg : hResolve [] a ≠ [])
    (hpar : ∀ q, q <+: hResolve [] a → q ≠ hResolve [] a → ∀ x, hGet f q ≠ some (some x))
    (hh : m.header ≠ []) (hn : (m.header.map (·.1)).Nodup) :
    mapWrite f (some a) m = some (hDelete f (hResolve [] a) ++ hMissing (hDelete f (hResolve [] a)) (hResolve [] a) ++
      mapNodes (hResolve [] a) m) ∧
    HOk (hDelete f (hResolve [] a) ++ hMissing (hDelete f (hResolve [] a)) (hResolve [] a) ++ mapNodes (hResolve [] a) m) := by
  set g := hResolve [] a with hgdef
  have hf0 : (if (hGet f g).isSome then hDelete f g else f) = hDelete f g := by
    split_ifs with h
    · rfl
    · unfold hDelete
      symm
      rw [List.filter_eq_self]
      intro e he
      have hs : (hGet f e.1).isSome := (dictGet_isSome f e.1).2 (List.mem_map_of_mem (f := (·.1)) he)
      rw [Bool.not_eq_true', ← Bool.not_eq_true]
      intro hp
      have hp : g <+: e.1 := by simpa using hp
      obtain ⟨r, hr⟩ := hp
      rw [← hr, hf.below g r (by simpa using h)] at hs
      simp at hs
  have hd := hf.delete g hg
  have hnone : ∀ r, hGet (hDelete f g) (g ++ r) = none := by
    intro r
    rw [hGet_delete, if_pos (List.prefix_append _ _)]
  have hd0 : hGet (hDelete f g) g = none := by simpa using hnone []
  have hdpar : ∀ q, q <+: g → q ≠ g → ∀ x, hGet (hDelete f g) q ≠ some (some x) := by
    intro q hq hne x
    rw [hGet_delete]
    split_ifs
    · simp
    · exact hpar q hq hne x
  have c1 := hCreate_eq (hDelete f g) g none hd0 hdpar
  have k1 := hd.create g none hd0 hdpar
  have g1 := hGet_create (hDelete f g) g none
  set f1 := hDelete f g ++ hMissing (hDelete f g) g ++ [(g, none)] with hf1
  have g1g : hGet f1 g = some none := by rw [g1, hd0]; simp
  have g1n : ∀ k r, hGet f1 (g ++ k :: r) = none := by
    intro k r
    rw [g1, hnone, if_neg (by simp), if_neg (by simp), if_neg]
    intro h
    have := h.length_le
    simp at this
  obtain ⟨c2, k2, g2⟩ := k1.createIn g "data".toList (some m.data) g1g (g1n _ [])
  set f2 := f1 ++ [(g ++ ["data".toList], some m.data)] with hf2
  have g2g : hGet f2 g = some none := by rw [g2, if_neg (by simp)]; exact g1g
  -- the first header entry also creates the group wcs
  have g2wn : ∀ r, hGet f2 (g ++ "wcs".toList :: r) = none := by
    intro r
    rw [g2, if_neg, g1n]
    intro h
    rw [List.append_right_inj] at h
    have := (List.cons.inj h).1
    revert this; decide
  obtain ⟨c3, k3, g3⟩ := k2.createIn g "wcs".toList none g2g (g2wn [])
  set f3 := f2 ++ [(g ++ ["wcs".toList], (none : Option α))] with hf3
  have g3w : hGet f3 (g ++ ["wcs".toList]) = some none := by rw [g3]; simp
  have h3n : ∀ e ∈ m.header, hGet f3 (g ++ ["wcs".toList, e.1]) = none := by
    intro e _
    rw [g3, if_neg (by simp)]
    exact g2wn [e.1]
  obtain ⟨c4, k4⟩ := mapWrite_header (g := g) m.header f3 k3 g3w hn h3n
  have first : ∀ (e : List Char × α), hCreate f2 (g ++ ["wcs".toList, e.1]) (some e.2) =
      hCreate f3 (g ++ ["wcs".toList, e.1]) (some e.2) := by
    intro e
    have eapp : ∀ k : List Char, g ++ ["wcs".toList, k] = (g ++ ["wcs".toList]) ++ [k] := by simp
    obtain ⟨d1, _, _⟩ := k3.createIn (g ++ ["wcs".toList]) e.1 (some e.2) g3w (by
      rw [← eapp, g3, if_neg (by simp)]; exact g2wn [e.1])
    rw [eapp, d1]
    have hp2 : ∀ q, q <+: g ++ ["wcs".toList] ++ [e.1] → q ≠ g ++ ["wcs".toList] ++ [e.1] →
        (q = g ++ ["wcs".toList] ∨ hGet f2 q = some none) := by
      intro q hq hne
      rw [List.prefix_concat_iff] at hq
      rcases hq with hq | hq
      · exact absurd hq hne
      · rw [List.prefix_concat_iff] at hq
        rcases hq with hq | ⟨r, hq⟩
        · exact Or.inl hq
        · right
          by_cases hr : r = []
          · subst hr; simp at hq; rw [hq]; exact g2g
          · exact k2.above q r hr (by rw [hq, g2g]; rfl)
    rw [hCreate_eq f2 _ (some e.2) (by rw [← eapp]; exact g2wn [e.1])]
    · have hm : hMissing f2 (g ++ ["wcs".toList] ++ [e.1]) = [(g ++ ["wcs".toList], none)] := by
        unfold hMissing
        have hpar2 : hParents (g ++ ["wcs".toList] ++ [e.1]) = hParents (g ++ ["wcs".toList]) ++ [g ++ ["wcs".toList]] := by
          unfold hParents
          rw [List.length_append, List.length_singleton, List.range_succ, List.map_append]
          congr 1
          · apply List.map_congr_left
            intro i hi
            rw [List.take_append_of_le_length (by have := List.mem_range.1 hi; omega)]
          · simp only [List.map_singleton]
            rw [List.take_append_of_le_length (le_refl _), List.take_length]
        rw [hpar2, List.filter_append]
        have : (hParents (g ++ ["wcs".toList])).filter (fun q => (hGet f2 q).isNone) = [] := by
          rw [List.filter_eq_nil_iff]
          intro q hq
          rw [mem_hParents] at hq
          have hne : q ≠ g ++ ["wcs".toList] ++ [e.1] := by
            intro x
            have := hq.1.length_le
            rw [x] at this; simp at this
          rcases hp2 q (hq.1.trans (List.prefix_append _ _)) hne with h | h
          · exact absurd h hq.2
          · rw [h]; simp
        rw [this]
        have hw : hGet f2 (g ++ ["wcs".toList]) = none := g2wn []
        rw [List.nil_append, List.filter_cons, if_pos (by rw [hw]; rfl)]
        rfl
      rw [hm]
    · intro q hq hne x
      rcases hp2 q hq hne with h | h
      · rw [h]
        have hw : hGet f2 (g ++ ["wcs".toList]) = none := g2wn []
        rw [hw]; simp
      · rw [h]; simp
  have hfold : m.header.foldl (fun acc e => acc.bind fun f => hCreate f (g ++ ["wcs".toList, e.1]) (some e.2)) (some f2) =
      m.header.foldl (fun acc e => acc.bind fun f => hCreate f (g ++ ["wcs".toList, e.1]) (some e.2)) (some f3) := by
    cases hc : m.header with
    | nil => exact absurd hc hh
    | cons e h => rw [List.foldl_cons, List.foldl_cons, Option.bind_some, Option.bind_some, first]
  have hres : f3 ++ m.header.map (fun e => (g ++ ["wcs".toList, e.1], some e.2)) =
      hDelete f g ++ hMissing (hDelete f g) g ++ mapNodes g m := by
    rw [hf3, hf2, hf1]
    unfold mapNodes
    simp
  rw [hres] at c4 k4
  refine ⟨?_, k4⟩
  unfold mapWrite
  simp only [← hgdef]
  rw [hf0, c1]
  simp only [Option.map_some, Option.bind_some]
  rw [c2]
  simp only [Option.bind_some]
  rw [hfold, c4]

/-- Two paths neither of which contains the other. -/
def Apart (p q : List (List Char)) : Prop := ¬ p <+: q ∧ ¬ q <+: p

theorem mapNodes_under (g : List (List Char)) (m : HMap α) : ∀ e ∈ mapNodes g m, g <+: e.1 := by
  intro e he
  unfold mapNodes at he
  rw [List.mem_append] at he
  rcases he with he | he
  · simp only [List.mem_cons, List.not_mem_nil, or_false] at he
    rcases he with rfl | rfl | rfl
    · exact List.prefix_refl _
    · exact List.prefix_append _ _
    · exact List.prefix_append _ _
  · obtain ⟨x, _, rfl⟩ := List.mem_map.1 he
    exact List.prefix_append _ _

theorem hMissing_prefix (f : HFile α) (g : List (List Char)) : ∀ e ∈ hMissing f g, e.1 <+: g ∧ e.2 = none := by
  intro e he
  unfold hMissing at he
  obtain ⟨x, hx, rfl⟩ := List.mem_map.1 he
  rw [List.mem_filter, mem_hParents] at hx
  exact ⟨hx.1.1, rfl⟩

/-- The file after the write, path by path. -/
theorem hGet_mapWrite (f : HFile α) (g : List (List Char)) (m : HMap α) (q : List (List Char)) (hq : ¬ g <+: q) :
    hGet (hDelete f g ++ hMissing (hDelete f g) g ++ mapNodes g m) q =
      if (hGet f q).isSome then hGet f q else if q <+: g then some none else none := by
  have h := hGet_create (hDelete f g) g none q
  rw [hGet_delete, if_neg hq] at h
  have hne : q ≠ g := by rintro rfl; exact hq (List.prefix_refl _)
  rw [if_neg hne] at h
  rw [← h]
  unfold hGet
  have h1 : q ∉ (mapNodes g m).map (·.1) := by
    intro hm
    obtain ⟨e, he, rfl⟩ := List.mem_map.1 hm
    exact hq (mapNodes_under g m e he)
  have h2 : q ∉ [(g, (none : Option α))].map (·.1) := by simp; exact hne
  have e1 : dictGet (mapNodes g m) q = none := by
    have := (dictGet_isSome (mapNodes g m) q).not.2 h1; simpa using this
  have e2 : dictGet [(g, (none : Option α))] q = none := by
    have := (dictGet_isSome [(g, (none : Option α))] q).not.2 h2; simpa using this
  rw [dictGet_append _ (mapNodes g m), dictGet_append _ [(g, (none : Option α))], e1, e2]

/-- Names listed in a group apart from `g` are not affected. -/
theorem hChildren_mapWrite (f : HFile α) (g : List (List Char)) (m : HMap α) (h : List (List Char)) (ha : Apart g h) :
    hChildren (hDelete f g ++ hMissing (hDelete f g) g ++ mapNodes g m) h = hChildren f h := by
  have key : ∀ e : List (List Char), e ≠ [] → e.dropLast = h → ¬ g <+: e ∧ ¬ e <+: g := by
    intro e he hd
    have hsplit : h <+: e := by rw [← hd]; exact List.dropLast_prefix e
    constructor
    · intro hp
      rcases List.prefix_or_prefix_of_prefix hp hsplit with h' | h'
      · exact ha.1 h'
      · exact ha.2 h'
    · intro hp
      exact ha.2 (hsplit.trans hp)
  unfold hChildren
  rw [List.filterMap_append, List.filterMap_append]
  have a : (hMissing (hDelete f g) g).filterMap (fun e => if e.1 ≠ [] ∧ e.1.dropLast = h then e.1.getLast? else none) = [] := by
    rw [List.filterMap_eq_nil_iff]
    intro e he
    rw [if_neg]
    rintro ⟨h1, h2⟩
    exact (key _ h1 h2).2 (hMissing_prefix _ _ e he).1
  have b : (mapNodes g m).filterMap (fun e => if e.1 ≠ [] ∧ e.1.dropLast = h then e.1.getLast? else none) = [] := by
    rw [List.filterMap_eq_nil_iff]
    intro e he
    rw [if_neg]
    rintro ⟨h1, h2⟩
    exact (key _ h1 h2).1 (mapNodes_under g m e he)
  rw [a, b, List.append_nil, List.append_nil]
  unfold hDelete
  rw [List.filterMap_filter]
  apply List.filterMap_congr
  intro e _
  by_cases hc : e.1 ≠ [] ∧ e.1.dropLast = h
  · have : g.isPrefixOf e.1 = false := by
      rw [← Bool.not_eq_true]
      intro hp
      exact (key _ hc.1 hc.2).1 (by simpa using hp)
    simp [this]
  · simp [hc]

/-- C55: writing a map at an address of a file succeeds unless the address passes through a dataset; the map reads back
from there; a map at an address apart from this one reads as before; and nothing outside the address changes except that
missing parent groups are created. -/
theorem C55_write {f : HFile α} (hf : HOk f) (a : List Char) (m : HMap α) (hg : hResolve [] a ≠ [])
    (hpar : ∀ q, q <+: hResolve [] a → q ≠ hResolve [] a → ∀ x, hGet f q ≠ some (some x))
    (hh : m.header ≠ []) (hn : (m.header.map (·.1)).Nodup) :
    ∃ f', mapWrite f (some a) m = some f' ∧ HOk f' ∧ mapRead f' (some a) = some m ∧
      (∀ b, Apart (hResolve [] a) (hResolve [] b) → mapRead f' (some b) = mapRead f (some b)) ∧
      ∀ q, ¬ hResolve [] a <+: q → hGet f' q = hGet f q ∨ (q <+: hResolve [] a ∧ hGet f q = none ∧ hGet f' q = some none) := by
  obtain ⟨h1, h2⟩ := mapWrite_eq hf a m hg hpar hh hn
  refine ⟨_, h1, h2, ?_, ?_, ?_⟩
  · -- reading back
    set g := hResolve [] a with hgdef
    have under : ∀ r, hGet (hDelete f g ++ hMissing (hDelete f g) g ++ mapNodes g m) (g ++ r) = dictGet (mapNodes g m) (g ++ r) := by
      intro r
      unfold hGet
      rw [dictGet_append, if_neg]
      intro hm
      rw [List.map_append, List.mem_append] at hm
      rcases hm with hm | hm
      · obtain ⟨e, he, hee⟩ := List.mem_map.1 hm
        unfold hDelete at he
        rw [List.mem_filter] at he
        have : g <+: e.1 := by rw [hee]; exact List.prefix_append _ _
        have h2 := he.2
        rw [List.isPrefixOf_iff_prefix.2 this] at h2
        simp at h2
      · obtain ⟨e, he, hee⟩ := List.mem_map.1 hm
        unfold hMissing at he
        obtain ⟨x, hx, rfl⟩ := List.mem_map.1 he
        rw [List.mem_filter, mem_hParents] at hx
        simp only at hee
        apply hx.1.2
        have hl := hx.1.1.length_le
        rw [hee] at hl ⊢
        simp at hl
        simp [hl]
    have hchild : hChildren (hDelete f g ++ hMissing (hDelete f g) g ++ mapNodes g m) (g ++ ["wcs".toList]) =
        m.header.map (·.1) := by
      unfold hChildren
      rw [List.filterMap_append, List.filterMap_append]
      have a1 : (hDelete f g).filterMap (fun e => if e.1 ≠ [] ∧ e.1.dropLast = g ++ ["wcs".toList] then e.1.getLast? else none) = [] := by
        rw [List.filterMap_eq_nil_iff]
        intro e he
        rw [if_neg]
        rintro ⟨_, hd⟩
        unfold hDelete at he
        rw [List.mem_filter] at he
        have : g <+: e.1 := (List.prefix_append g ["wcs".toList]).trans (by rw [← hd]; exact List.dropLast_prefix _)
        have h2 := he.2
        rw [List.isPrefixOf_iff_prefix.2 this] at h2
        simp at h2
      have a2 : (hMissing (hDelete f g) g).filterMap (fun e => if e.1 ≠ [] ∧ e.1.dropLast = g ++ ["wcs".toList] then e.1.getLast? else none) = [] := by
        rw [List.filterMap_eq_nil_iff]
        intro e he
        rw [if_neg]
        rintro ⟨_, hd⟩
        have := (hMissing_prefix _ _ e he).1.length_le
        have h3 := congrArg List.length hd
        simp at h3
        omega
      rw [a1, a2]
      unfold mapNodes
      rw [List.filterMap_append]
      have a3 : ([(g, none), (g ++ ["data".toList], some m.data), (g ++ ["wcs".toList], none)] : HFile α).filterMap
          (fun e => if e.1 ≠ [] ∧ e.1.dropLast = g ++ ["wcs".toList] then e.1.getLast? else none) = [] := by
        rw [List.filterMap_eq_nil_iff]
        intro e he
        rw [if_neg]
        rintro ⟨_, hd⟩
        have h3 := congrArg List.length hd
        simp only [List.mem_cons, List.not_mem_nil, or_false] at he
        rcases he with rfl | rfl | rfl <;> simp at h3 <;> omega
      rw [a3, List.filterMap_map]
      simp only [List.nil_append]
      rw [← List.filterMap_eq_map]
      apply List.filterMap_congr
      intro e _
      simp only [Function.comp]
      rw [if_pos]
      · simp
      · refine ⟨by simp, ?_⟩
        have : g ++ ["wcs".toList, e.1] = (g ++ ["wcs".toList]) ++ [e.1] := by simp
        rw [this, List.dropLast_concat]
    have hdata : dictGet (mapNodes g m) (g ++ ["data".toList]) = some (some m.data) := by
      unfold mapNodes
      simp [dictGet_cons]
    have hwcs : dictGet (mapNodes g m) (g ++ ["wcs".toList]) = some none := by
      unfold mapNodes
      rw [List.cons_append, List.cons_append, List.cons_append, dictGet_cons, dictGet_cons, dictGet_cons]
      rw [if_neg (by simp), if_neg (by simp), if_pos rfl]
    have hent : ∀ e ∈ m.header, dictGet (mapNodes g m) (g ++ ["wcs".toList, e.1]) = some (some e.2) := by
      intro e he
      unfold mapNodes
      rw [dictGet_append, if_neg (by
        intro hm
        have hm := List.mem_map.1 hm
        obtain ⟨y, hy, hye⟩ := hm
        have := congrArg List.length hye
        simp only [List.mem_cons, List.not_mem_nil, or_false] at hy
        rcases hy with rfl | rfl | rfl <;> simp at this)]
      clear h1 h2 under hchild hdata hwcs hh
      revert hn he
      generalize m.header = hd
      intro hn he
      induction hd with
      | nil => simp at he
      | cons x l ih =>
        rw [List.map_cons, dictGet_cons]
        rw [List.map_cons, List.nodup_cons] at hn
        rcases List.mem_cons.1 he with rfl | he
        · simp
        · rw [if_neg, ih hn.2 he]
          intro hx
          have : x.1 = e.1 := by simpa using hx
          exact hn.1 (by rw [this]; exact List.mem_map_of_mem (f := (·.1)) he)
    unfold mapRead
    simp only [Option.elim_some, ← hgdef]
    rw [under, hdata, under, hwcs, hchild]
    simp only [Option.join_some, Option.bind_some]
    have hmm : (m.header.map (·.1)).mapM (fun k => (hGet (hDelete f g ++ hMissing (hDelete f g) g ++ mapNodes g m)
        (g ++ ["wcs".toList, k])).join.map fun v => (k, v)) = some m.header := by
      have : ∀ l : List (List Char × α), (∀ e ∈ l, e ∈ m.header) → (l.map (·.1)).mapM (fun k =>
          (hGet (hDelete f g ++ hMissing (hDelete f g) g ++ mapNodes g m) (g ++ ["wcs".toList, k])).join.map
            fun v => (k, v)) = some l := by
        intro l
        induction l with
        | nil => intro _; rfl
        | cons e l ih =>
          intro hl
          rw [List.map_cons, List.mapM_cons, ih (fun x hx => hl x (List.mem_cons_of_mem _ hx)), under,
            hent e (hl e (by simp))]
          rfl
      exact this m.header (fun e he => he)
    rw [hmm]
    rfl
  · -- other maps
    intro b hb
    set g := hResolve [] a
    set h := hResolve [] b with hhdef
    have far : ∀ r, hGet (hDelete f g ++ hMissing (hDelete f g) g ++ mapNodes g m) (h ++ r) = hGet f (h ++ r) := by
      intro r
      rw [hGet_mapWrite]
      · split_ifs with c1 c2
        · rfl
        · exact absurd ((List.prefix_append h r).trans c2) hb.2
        · symm; simpa using c1
      · intro hp
        rcases List.prefix_or_prefix_of_prefix hp (List.prefix_append h r) with c | c
        · exact hb.1 c
        · exact hb.2 c
    have hchild : hChildren (hDelete f g ++ hMissing (hDelete f g) g ++ mapNodes g m) (h ++ ["wcs".toList]) =
        hChildren f (h ++ ["wcs".toList]) := by
      apply hChildren_mapWrite
      constructor
      · intro hp
        rcases List.prefix_or_prefix_of_prefix hp (List.prefix_append h _) with c | c
        · exact hb.1 c
        · exact hb.2 c
      · intro hp
        exact hb.2 ((List.prefix_append h _).trans hp)
    unfold mapRead
    simp only [Option.elim_some, ← hhdef]
    rw [far, far, hchild]
    simp only [far]
  · intro q hq
    rw [hGet_mapWrite f _ m q hq]
    split_ifs with c1 c2
    · exact Or.inl rfl
    · exact Or.inr ⟨c2, by simpa using c1, rfl⟩
    · left; symm; simpa using c1

/-- A file with the maps written one after the other. -/
def mapWrites (f : HFile α) (ws : List (List Char × HMap α)) : Option (HFile α) :=
  ws.foldl (fun acc w => acc.bind fun f => mapWrite f (some w.1) w.2) (some f)

/-- C55: after any history of writes to a set of addresses none of which lies inside another, all writes succeed and every
address reads as the map last written to it, or as at the start if none was. -/
theorem C55_history {f : HFile α} (hf : HOk f) (addrs : List (List Char)) (ws : List (List Char × HMap α))
    (hin : ∀ w ∈ ws, w.1 ∈ addrs ∧ w.2.header ≠ [] ∧ (w.2.header.map (·.1)).Nodup)
    (hne : ∀ a ∈ addrs, hResolve [] a ≠ [])
    (hap : ∀ a ∈ addrs, ∀ b ∈ addrs, hResolve [] a = hResolve [] b ∨ Apart (hResolve [] a) (hResolve [] b))
    (hpar : ∀ a ∈ addrs, ∀ q, q <+: hResolve [] a → q ≠ hResolve [] a → ∀ x, hGet f q ≠ some (some x)) :
    ∃ f', mapWrites f ws = some f' ∧ ∀ a ∈ addrs, mapRead f' (some a) =
      ((ws.reverse.find? fun w => decide (hResolve [] w.1 = hResolve [] a)).map fun w => w.2).elim (mapRead f (some a)) some := by
  suffices h : ∃ f', mapWrites f ws = some f' ∧ HOk f' ∧
      (∀ a ∈ addrs, ∀ q, q <+: hResolve [] a → q ≠ hResolve [] a → ∀ x, hGet f' q ≠ some (some x)) ∧
      ∀ a ∈ addrs, mapRead f' (some a) =
      ((ws.reverse.find? fun w => decide (hResolve [] w.1 = hResolve [] a)).map fun w => w.2).elim (mapRead f (some a)) some by
    obtain ⟨f', h1, _, _, h2⟩ := h
    exact ⟨f', h1, h2⟩
  induction ws using List.reverseRecOn with
  | nil => exact ⟨f, rfl, hf, hpar, fun a _ => rfl⟩
  | append_singleton ws w ih =>
    obtain ⟨f1, i1, i2, i3, i4⟩ := ih (fun x hx => hin x (List.mem_append_left _ hx))
    obtain ⟨w1, w2, w3⟩ := hin w (by simp)
    obtain ⟨f2, j1, j2, j3, j4, j5⟩ := C55_write i2 w.1 w.2 (hne _ w1) (i3 _ w1) w2 w3
    refine ⟨f2, ?_, j2, ?_, ?_⟩
    · unfold mapWrites at i1 ⊢
      rw [List.foldl_append, i1]
      exact j1
    · intro a ha q hq hqa x
      have hnot : ¬ hResolve [] w.1 <+: q := by
        intro hp
        rcases hap _ w1 a ha with e | e
        · rw [e] at hp
          exact hqa (hq.eq_of_length (Nat.le_antisymm hq.length_le hp.length_le))
        · exact e.1 (hp.trans hq)
      rcases j5 q hnot with e | ⟨_, _, e⟩
      · rw [e]; exact i3 a ha q hq hqa x
      · rw [e]; simp
    · intro a ha
      rw [List.reverse_append, List.reverse_singleton, List.singleton_append, List.find?_cons]
      by_cases e : hResolve [] w.1 = hResolve [] a
      · simp only [e, decide_true, Option.map_some, Option.elim_some]
        have : mapRead f2 (some a) = mapRead f2 (some w.1) := by
          unfold mapRead; simp only [Option.elim_some, e]
        rw [this, j3]
      · simp only [e, decide_false]
        rw [j4 a ((hap _ w1 a ha).resolve_left e)]
        exact i4 a ha

/-- C55 fails for Bunch.write with a group: everything that was in the file is lost, whatever it was. -/
theorem C55_bunch_refuted : ∃ (f : HFile Nat) (b : BunchTree Nat) (g : List Char) (f' : HFile Nat),
    HOk f ∧ hGet f ["a".toList] = some (some 1) ∧ g = "b".toList ∧ bunchWrite f (some g) b = some f' ∧
    hGet f' ["a".toList] = none := by
  refine ⟨[([], none), (["a".toList], some 1)], .val "x".toList 2 .nil, "b".toList, 
    [([], none), (["b".toList], none), (["b".toList, "x".toList], some 2)], ⟨by decide, by decide, ?_⟩, by decide, rfl,
    by decide, by decide⟩
  intro g k h
  have hm := (dictGet_isSome _ _).1 h
  simp only [List.map_cons, List.map_nil, List.mem_cons, List.not_mem_nil, or_false] at hm
  rcases hm with hm | hm
  · simp at hm
  · cases g with
    | nil => decide
    | cons x g => simp at hm

/-- In general the result of Bunch.write does not depend on what the file held. -/
theorem C55_bunch_overwrites (f g : HFile α) (group : Option (List Char)) (b : BunchTree α) :
    bunchWrite f group b = bunchWrite g group b := rfl

example : (mapWrites (hNew : HFile Nat) [("x/y".toList, ⟨1, [("K".toList, 5)]⟩), ("z".toList, ⟨2, [("K".toList, 6)]⟩),
    ("x/y".toList, ⟨3, [("L".toList, 7)]⟩)]).bind (fun f => mapRead f (some "x/y".toList)) =
    some ⟨3, [("L".toList, 7)]⟩ := by decide
example : HOk (hNew : HFile Nat) := ⟨by decide, rfl, by
  intro g k h
  have hm := (dictGet_isSome _ _).1 h
  simp [hNew] at hm⟩

/-! ### C56 -/

/-- What successive indexing of a nested Bunch with the keys of a path gives: a value (`some (some a)`), a Bunch
(`some none`) or a KeyError (`none`). Two nested Bunches are equal as dictionaries when all paths look the same. -/
def BunchTree.look : BunchTree α → List (List Char) → Option (Option α)
  | _, [] => some none
  | .nil, _ :: _ => none
  | .val k' a rest, k :: p => if k = k' then (if p = [] then some (some a) else none) else rest.look (k :: p)
  | .sub k' b rest, k :: p => if k = k' then b.look p else rest.look (k :: p)

/-- The keys of a Bunch. -/
def BunchTree.keys : BunchTree α → List (List Char)
  | .nil => []
  | .val k _ rest => k :: rest.keys
  | .sub k _ rest => k :: rest.keys

/-- A key that HDF stores under its own name. -/
def PlainKey (k : List Char) : Prop := k ≠ [] ∧ k ≠ ['.'] ∧ '/' ∉ k

/-- A Bunch with plain keys, none twice (as in any dictionary), at all levels. -/
def BunchTree.Ok : BunchTree α → Prop
  | .nil => True
  | .val k _ rest => PlainKey k ∧ k ∉ rest.keys ∧ rest.Ok
  | .sub k b rest => PlainKey k ∧ k ∉ rest.keys ∧ b.Ok ∧ rest.Ok

theorem hResolve_plain (g : List (List Char)) (k : List Char) (hk : PlainKey k) : hResolve g k = g ++ [k] := by
  unfold hResolve
  have : pySplit '/' k = [k] := by
    have := pySplit_pyJoin '/' [k] (by simp) (by simpa using hk.2.2)
    simpa [pyJoin] using this
  simp only [this]
  rw [if_neg]
  · simp [hk.1, hk.2.1]
  · intro h
    exact hk.2.2 (List.mem_of_mem_head? (by rw [h]; rfl))

theorem BunchTree.look_none (b : BunchTree α) (k : List Char) (p : List (List Char)) (h : k ∉ b.keys) :
    b.look (k :: p) = none := by
  induction b with
  | nil => rfl
  | val k' a rest ih =>
    simp only [keys, List.mem_cons, not_or] at h
    simp only [look]
    rw [if_neg h.1, ih h.2]
  | sub k' b rest _ ih =>
    simp only [keys, List.mem_cons, not_or] at h
    simp only [look]
    rw [if_neg h.1, ih h.2]

/-- Writing a Bunch into a group that has none of its keys. -/
theorem bunchWriteRec_spec (b : BunchTree α) : ∀ (g : List (List Char)) (f : HFile α), HOk f → hGet f g = some none → b.Ok →
    (∀ k ∈ b.keys, hGet f (g ++ [k]) = none) →
    ∃ f', bunchWriteRec g b f = some f' ∧ HOk f' ∧ (∀ k ∈ b.keys, ∀ p, hGet f' (g ++ k :: p) = b.look (k :: p)) ∧
      ∀ q, (∀ k ∈ b.keys, ∀ p, q ≠ g ++ k :: p) → hGet f' q = hGet f q := by
  induction b with
  | nil => intro g f hf _ _ _; exact ⟨f, rfl, hf, by simp [BunchTree.keys], fun q _ => rfl⟩
  | val k a rest ih =>
    intro g f hf hg hok hno
    obtain ⟨o1, o2, o3⟩ := hok
    obtain ⟨c1, c2, c3⟩ := hf.createIn g k (some a) hg (hno k (by simp [BunchTree.keys]))
    obtain ⟨f', i1, i2, i3, i4⟩ := ih g _ c2 (by rw [c3, if_neg (by simp)]; exact hg) o3 (by
      intro k' hk'
      rw [c3, if_neg]
      · exact hno k' (by simp [BunchTree.keys, hk'])
      · intro e
        have : k' = k := by simpa using e
        exact o2 (this ▸ hk'))
    have hown : ∀ p, hGet f' (g ++ k :: p) = hGet (f ++ [(g ++ [k], some a)]) (g ++ k :: p) := by
      intro p
      apply i4
      intro k' hk' p' e
      rw [List.append_right_inj] at e
      exact o2 ((List.cons.inj e).1 ▸ hk')
    refine ⟨f', ?_, i2, ?_, ?_⟩
    · simp only [bunchWriteRec, hResolve_plain g k o1, c1, Option.bind_some, i1]
    · intro k' hk' p
      simp only [BunchTree.keys, List.mem_cons] at hk'
      by_cases e : k' = k
      · subst e
        rw [hown, c3]
        simp only [BunchTree.look, if_true]
        by_cases hp : p = []
        · subst hp; simp
        · rw [if_neg hp, if_neg (by simpa using hp)]
          have := hf.below (g ++ [k']) p (hno k' (by simp [BunchTree.keys]))
          simpa using this
      · rw [i3 k' (hk'.resolve_left e)]
        simp only [BunchTree.look, if_neg e]
    · intro q hq
      rw [i4 q (fun k' hk' p => hq k' (by simp [BunchTree.keys, hk']) p), c3, if_neg]
      exact hq k (by simp [BunchTree.keys]) []
  | sub k b rest ihb ih =>
    intro g f hf hg hok hno
    obtain ⟨o1, o2, o3, o4⟩ := hok
    obtain ⟨c1, c2, c3⟩ := hf.createIn g k none hg (hno k (by simp [BunchTree.keys]))
    have hbelow : ∀ p, p ≠ [] → hGet (f ++ [(g ++ [k], none)]) (g ++ [k] ++ p) = none := by
      intro p hp
      rw [c3, if_neg (by simpa using hp)]
      exact hf.below (g ++ [k]) p (hno k (by simp [BunchTree.keys]))
    obtain ⟨f1, j1, j2, j3, j4⟩ := ihb (g ++ [k]) _ c2 (by rw [c3]; simp) o3 (fun k' _ => hbelow [k'] (by simp))
    have hkeep : ∀ q, (∀ k' p, q ≠ g ++ [k] ++ k' :: p) → hGet f1 q = hGet (f ++ [(g ++ [k], none)]) q :=
      fun q hq => j4 q (fun k' _ p => hq k' p)
    obtain ⟨f', i1, i2, i3, i4⟩ := ih g f1 j2 (by
        rw [hkeep g (by intro k' p e; have := congrArg List.length e; simp at this), c3, if_neg (by simp)]; exact hg) o4 (by
      intro k' hk'
      rw [hkeep, c3, if_neg]
      · exact hno k' (by simp [BunchTree.keys, hk'])
      · intro e
        have : k' = k := by simpa using e
        exact o2 (this ▸ hk')
      · intro k'' p e
        rw [List.append_assoc, List.append_right_inj] at e
        have e := List.cons.inj e
        simp at e)
    have hown : ∀ p, hGet f' (g ++ k :: p) = hGet f1 (g ++ k :: p) := by
      intro p
      apply i4
      intro k' hk' p' e
      rw [List.append_right_inj] at e
      exact o2 ((List.cons.inj e).1 ▸ hk')
    refine ⟨f', ?_, i2, ?_, ?_⟩
    · simp only [bunchWriteRec, hResolve_plain g k o1, c1, Option.bind_some, j1, i1]
    · intro k' hk' p
      simp only [BunchTree.keys, List.mem_cons] at hk'
      by_cases e : k' = k
      · subst e
        rw [hown]
        simp only [BunchTree.look, if_true]
        cases p with
        | nil =>
          rw [hkeep _ (by intro k'' p e; have := congrArg List.length e; simp at this), c3]
          simp [BunchTree.look]
        | cons k'' p =>
          by_cases hm : k'' ∈ b.keys
          · have := j3 k'' hm p
            simpa using this
          · rw [b.look_none k'' p hm, j4]
            · have := hbelow (k'' :: p) (by simp)
              simpa using this
            · intro k3 hk3 p3 e
              have : k'' :: p = k3 :: p3 := by simpa using e
              exact hm ((List.cons.inj this).1 ▸ hk3)
      · rw [i3 k' (hk'.resolve_left e)]
        simp only [BunchTree.look, if_neg e]
    · intro q hq
      rw [i4 q (fun k' hk' p => hq k' (by simp [BunchTree.keys, hk']) p), hkeep q, c3, if_neg]
      · exact hq k (by simp [BunchTree.keys]) []
      · intro k' p e
        exact hq k (by simp [BunchTree.keys]) (k' :: p) (by rw [e]; simp)

theorem mem_hChildren (f : HFile α) (g : List (List Char)) (k : List Char) :
    k ∈ hChildren f g ↔ (hGet f (g ++ [k])).isSome := by
  unfold hGet
  rw [dictGet_isSome]
  unfold hChildren
  rw [List.mem_filterMap, List.mem_map]
  constructor
  · rintro ⟨e, he, h⟩
    refine ⟨e, he, ?_⟩
    split_ifs at h with hc
    obtain ⟨hc1, hc2⟩ := hc
    rw [List.getLast?_eq_some_getLast hc1] at h
    have := List.dropLast_concat_getLast hc1
    rw [hc2, Option.some.inj h] at this
    exact this.symm
  · rintro ⟨e, he, h⟩
    refine ⟨e, he, ?_⟩
    rw [h, if_pos]
    · simp
    · simp

theorem hChildren_nodup {f : HFile α} (hf : (f.map (·.1)).Nodup) (g : List (List Char)) : (hChildren f g).Nodup := by
  induction f with
  | nil => simp [hChildren]
  | cons e f ih =>
    rw [List.map_cons, List.nodup_cons] at hf
    unfold hChildren
    rw [List.filterMap_cons]
    by_cases hc : e.1 ≠ [] ∧ e.1.dropLast = g
    · rw [if_pos hc, List.getLast?_eq_some_getLast hc.1]
      simp only
      rw [List.nodup_cons]
      refine ⟨?_, ih hf.2⟩
      intro hm
      have := (mem_hChildren f g _).1 hm
      unfold hGet at this
      rw [dictGet_isSome] at this
      obtain ⟨hc1, hc2⟩ := hc
      have e2 := List.dropLast_concat_getLast hc1
      rw [hc2] at e2
      rw [e2] at this
      exact hf.1 this
    · rw [if_neg hc]
      exact ih hf.2

/-- Reading a group of a well-formed file, with enough fuel for what lies below. -/
theorem bunchReadRec_spec {f : HFile α} (hf : HOk f) : ∀ (fuel : Nat) (g : List (List Char)),
    (∀ p, (hGet f (g ++ p)).isSome → p.length < fuel) → (hGet f g).isSome →
    (∀ a, hGet f g = some (some a) → bunchReadRec fuel f g = some (.leaf a)) ∧
    (hGet f g = some none → ∃ b, bunchReadRec fuel f g = some (.bunch b) ∧ ∀ p, b.look p = hGet f (g ++ p)) := by
  intro fuel
  induction fuel with
  | zero =>
    intro g h hs
    have := h [] (by simpa using hs)
    omega
  | succ fuel ih =>
    intro g h hs
    refine ⟨fun a ha => by simp only [bunchReadRec, ha], fun hg => ?_⟩
    simp only [bunchReadRec, hg]
    have main : ∀ ks : List (List Char), ks.Nodup → (∀ k ∈ ks, k ∈ hChildren f g) →
        ∃ b, (ks.foldr (fun k acc => acc.bind fun rest =>
        (bunchReadRec fuel f (g ++ [k])).map fun v => bunchAdd k v rest) (some BunchTree.nil)) = some b ∧ b.keys = ks ∧
          ∀ k ∈ ks, ∀ p, b.look (k :: p) = hGet f (g ++ k :: p) := by
      intro ks
      induction ks with
      | nil => intro _ _; exact ⟨.nil, rfl, rfl, by simp⟩
      | cons k ks ihk =>
        intro hn hsub
        rw [List.nodup_cons] at hn
        obtain ⟨rest, r1, r2, r3⟩ := ihk hn.2 (fun x hx => hsub x (List.mem_cons_of_mem _ hx))
        have hk := (mem_hChildren f g k).1 (hsub k (by simp))
        have hrec := ih (g ++ [k]) (by
          intro p hp
          have := h (k :: p) (by simpa using hp)
          simp at this; omega) hk
        rw [List.foldr_cons, r1, Option.bind_some]
        obtain ⟨w, hw⟩ := Option.isSome_iff_exists.1 hk
        cases w with
        | some a =>
          rw [hrec.1 a hw]
          refine ⟨.val k a rest, rfl, by simp [BunchTree.keys, r2], ?_⟩
          intro k' hk' p
          simp only [BunchTree.look]
          by_cases e : k' = k
          · subst e
            rw [if_pos rfl]
            by_cases hp : p = []
            · subst hp; rw [if_pos rfl]; exact hw.symm
            · rw [if_neg hp]
              symm
              by_contra hc
              have := hf.above (g ++ [k']) p hp (by
                rw [← Option.ne_none_iff_isSome]; simpa using hc)
              rw [hw] at this; cases this
          · rw [if_neg e]
            exact r3 k' ((List.mem_cons.1 hk').resolve_left e) p
        | none =>
          obtain ⟨b, b1, b2⟩ := hrec.2 hw
          rw [b1]
          refine ⟨.sub k b rest, rfl, by simp [BunchTree.keys, r2], ?_⟩
          intro k' hk' p
          simp only [BunchTree.look]
          by_cases e : k' = k
          · subst e
            rw [if_pos rfl, b2]; simp
          · rw [if_neg e]
            exact r3 k' ((List.mem_cons.1 hk').resolve_left e) p
    obtain ⟨b, b1, b2, b3⟩ := main (hChildren f g) (hChildren_nodup hf.nodup g) (fun k hk => hk)
    refine ⟨b, by rw [b1]; rfl, ?_⟩
    intro p
    cases p with
    | nil => rw [List.append_nil, hg]; cases b <;> rfl
    | cons k p =>
      by_cases hk : k ∈ hChildren f g
      · exact b3 k hk p
      · rw [b.look_none k p (by rw [b2]; exact hk)]
        have : hGet f (g ++ [k]) = none := by
          have := (mem_hChildren f g k).not.1 hk
          simpa using this
        have := hf.below (g ++ [k]) p this
        symm; simpa using this

/-- Paths in a Bunch have bounded length. -/
theorem BunchTree.look_bounded (b : BunchTree α) : ∃ n, ∀ p, (b.look p).isSome → p.length < n := by
  induction b with
  | nil =>
    refine ⟨1, fun p h => ?_⟩
    cases p with
    | nil => simp
    | cons k p => simp [look] at h
  | val k a rest ih =>
    obtain ⟨n, hn⟩ := ih
    refine ⟨n + 2, fun p h => ?_⟩
    cases p with
    | nil => simp
    | cons k' p =>
      simp only [look] at h
      split_ifs at h with h1 h2
      · subst h2; simp
      · simp at h
      · have := hn _ h; omega
  | sub k b rest ihb ih =>
    obtain ⟨n, hn⟩ := ih
    obtain ⟨m, hm⟩ := ihb
    refine ⟨n + m + 2, fun p h => ?_⟩
    cases p with
    | nil => simp
    | cons k' p =>
      simp only [look] at h
      split_ifs at h with h1
      · have := hm _ h; simp; omega
      · have := hn _ h; omega

/-- C56: a nested Bunch with plain keys, written to a file of its own or to a group of one, reads back as an equal
Bunch. -/
theorem C56_partial (old : HFile α) (group : Option (List Char)) (b : BunchTree α) (hb : b.Ok)
    (hgr : ∀ s, group = some s → hResolve [] s ≠ []) :
    ∃ f' n, bunchWrite old group b = some f' ∧ ∀ fuel ≥ n,
      ∃ b', bunchReadRec fuel f' (group.elim [] (hResolve [])) = some (.bunch b') ∧ ∀ p, b'.look p = b.look p := by
  have hnew : HOk (hNew : HFile α) := by
    refine ⟨by simp [hNew], rfl, ?_⟩
    intro g k h
    have hm := (dictGet_isSome _ _).1 h
    simp [hNew] at hm
  have hnew0 : ∀ q, q ≠ [] → hGet (hNew : HFile α) q = none := by
    intro q hq
    unfold hGet hNew
    rw [dictGet_cons, if_neg (fun e => hq e.symm), dictGet_nil]
  -- the common part: write into an empty group, then read it
  have main : ∀ (g : List (List Char)) (f : HFile α), HOk f → hGet f g = some none → (∀ k r, hGet f (g ++ k :: r) = none) →
      ∃ f' n, bunchWriteRec g b f = some f' ∧ ∀ fuel ≥ n, ∃ b', bunchReadRec fuel f' g = some (.bunch b') ∧
        ∀ p, b'.look p = b.look p := by
    intro g f hf hg h0
    obtain ⟨f', w1, w2, w3, w4⟩ := bunchWriteRec_spec b g f hf hg hb (fun k _ => h0 k [])
    have hsame : ∀ p, hGet f' (g ++ p) = b.look p := by
      intro p
      cases p with
      | nil =>
        rw [List.append_nil, w4 g (by intro k _ p e; have := congrArg List.length e; simp at this), hg]
        cases b <;> rfl
      | cons k p =>
        by_cases hk : k ∈ b.keys
        · exact w3 k hk p
        · rw [b.look_none k p hk, w4, h0]
          intro k' hk' p' e
          rw [List.append_right_inj] at e
          exact hk ((List.cons.inj e).1 ▸ hk')
    obtain ⟨n, hn⟩ := b.look_bounded
    refine ⟨f', n, w1, fun fuel hfuel => ?_⟩
    have hg' : hGet f' g = some none := by
      have := hsame []
      rw [List.append_nil] at this
      rw [this]; cases b <;> rfl
    obtain ⟨b', r1, r2⟩ := (bunchReadRec_spec w2 fuel g (by
      intro p hp
      rw [hsame] at hp
      have := hn p hp
      omega) (by rw [hg']; rfl)).2 hg'
    exact ⟨b', r1, fun p => by rw [r2, hsame]⟩
  cases group with
  | none =>
    obtain ⟨f', n, m1, m2⟩ := main [] hNew hnew rfl (fun k r => hnew0 _ (by simp))
    exact ⟨f', n, m1, m2⟩
  | some s =>
    have hs : s ≠ [] := by
      intro e
      apply hgr s rfl
      rw [e]; rfl
    have hg := hgr s rfl
    have h1 : ∀ q, q <+: hResolve [] s → q ≠ hResolve [] s → ∀ a, hGet (hNew : HFile α) q ≠ some (some a) := by
      intro q _ _ a
      by_cases hq : q = []
      · subst hq; rw [hnew.root]; simp
      · rw [hnew0 q hq]; simp
    have c1 := hCreate_eq (hNew : HFile α) _ none (hnew0 _ hg) h1
    have k1 := hnew.create _ none (hnew0 _ hg) h1
    have g1 := hGet_create (hNew : HFile α) (hResolve [] s) none
    obtain ⟨f', n, m1, m2⟩ := main (hResolve [] s) _ k1 (by rw [g1, hnew0 _ hg]; simp) (by
      intro k r
      rw [g1, hnew0 _ (by simp), if_neg (by simp), if_neg (by simp), if_neg]
      intro h
      have := h.length_le
      simp at this)
    refine ⟨f', n, ?_, m2⟩
    simp only [bunchWrite]
    rw [if_neg hs, c1]
    exact m1

/-- C56 fails for a key containing "/": it comes back as a nested Bunch. -/
theorem C56_refuted : ∃ (b b' : BunchTree Nat) (f' : HFile Nat), bunchWrite hNew none b = some f' ∧
    bunchReadRec 5 f' [] = some (.bunch b') ∧ b.look ["a/b".toList] = some (some 1) ∧ b'.look ["a/b".toList] = none := by
  refine ⟨.val "a/b".toList 1 .nil, .sub "a".toList (.val "b".toList 1 .nil) .nil,
    [([], none), (["a".toList], none), (["a".toList, "b".toList], some 1)], by decide, by decide, by decide, by decide⟩

example : (BunchTree.sub "x".toList (.val "y".toList 1 .nil) (.sub "e".toList .nil (.val "z".toList 2 .nil))).Ok := by
  simp [BunchTree.Ok, BunchTree.keys, PlainKey]
example : ((bunchWrite hNew (some "g/h".toList)
    (.sub "x".toList (.val "y".toList 1 .nil) (.sub "e".toList .nil (.val "z".toList 2 .nil)))).bind fun f =>
    bunchReadRec 9 f ["g".toList, "h".toList]) =
    some (.bunch (.sub "x".toList (.val "y".toList 1 .nil) (.sub "e".toList .nil (.val "z".toList 2 .nil)))) := by decide

end Pixell
