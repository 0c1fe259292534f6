import Verif.Model.Match
import Verif.Lemmas.Index
import Mathlib.Data.List.Induction

/-
Property C39: crossmatching.
-/
namespace Pixell

/-- The two pairs have an end in common. -/
def Shares (p q : Nat × Nat) : Prop := p.1 = q.1 ∨ p.2 = q.2

/-- The groups returned by the ball query: one per point of the first catalogue, listing without repetition exactly
the points of the second catalogue within the radius. -/
structure BallQuery (n1 n2 : Nat) (close : Nat → Nat → Prop) (groups : List (List Nat)) : Prop where
  len : groups.length = n1
  nodup : ∀ g ∈ groups, g.Nodup
  mem : ∀ i1 i2, i1 < n1 → (i2 ∈ groups.getD i1 [] ↔ i2 < n2 ∧ close i1 i2)

theorem mem_matchPairs {n1 n2 : Nat} {close : Nat → Nat → Prop} {groups : List (List Nat)}
    (h : BallQuery n1 n2 close groups) (p : Nat × Nat) :
    p ∈ matchPairs groups ↔ p.1 < n1 ∧ p.2 < n2 ∧ close p.1 p.2 := by
  unfold matchPairs
  rw [List.mem_flatMap]
  constructor
  · rintro ⟨i1, hi, hp⟩
    obtain ⟨i2, h2, rfl⟩ := List.mem_map.1 hp
    have hi : i1 < n1 := by rw [← h.len]; simpa using hi
    exact ⟨hi, (h.mem i1 i2 hi).1 h2⟩
  · rintro ⟨h1, h2⟩
    exact ⟨p.1, by simpa [h.len] using h1, List.mem_map.2 ⟨p.2, (h.mem _ _ h1).2 h2, rfl⟩⟩

theorem matchPairs_nodup {n1 n2 : Nat} {close : Nat → Nat → Prop} {groups : List (List Nat)}
    (h : BallQuery n1 n2 close groups) : (matchPairs groups).Nodup := by
  unfold matchPairs
  rw [List.nodup_flatMap]
  refine ⟨?_, ?_⟩
  · intro i hi
    refine List.Nodup.map (fun a b hab => by simpa using hab) ?_
    have hi : i < groups.length := by simpa using hi
    have : groups.getD i [] = groups[i] := by simp [hi]
    rw [this]
    exact h.nodup _ (List.getElem_mem hi)
  · refine List.Pairwise.imp ?_ (List.pairwise_lt_range)
    intro i j hij
    rw [Function.onFun, List.disjoint_left]
    intro p hp hq
    obtain ⟨a, _, rfl⟩ := List.mem_map.1 hp
    obtain ⟨b, _, e⟩ := List.mem_map.1 hq
    simp at e
    omega

/-- The filter: what is kept is a sublist of the pairs, no two kept pairs share an end, and every pair shares an end with
a kept pair that does not come after it. -/
theorem firstMentions_spec (n1 n2 : Nat) (pairs : List (Nat × Nat)) (hb : ∀ p ∈ pairs, p.1 < n1 ∧ p.2 < n2) :
    (firstMentions n1 n2 pairs).Sublist pairs ∧
    (firstMentions n1 n2 pairs).Pairwise (fun p q => ¬ Shares p q) ∧
    ∀ (pre : List (Nat × Nat)) (p : Nat × Nat) (post : List (Nat × Nat)), pairs = pre ++ p :: post →
      ∃ q ∈ firstMentions n1 n2 pairs, q ∈ pre ++ [p] ∧ Shares q p := by
  let step := fun (st : (List Bool × List Bool) × List (Nat × Nat)) (p : Nat × Nat) =>
    if st.1.1.getD p.1 false || st.1.2.getD p.2 false then st
    else ((st.1.1.set p.1 true, st.1.2.set p.2 true), st.2 ++ [p])
  let init : (List Bool × List Bool) × List (Nat × Nat) := ((List.replicate n1 false, List.replicate n2 false), [])
  -- invariant along the pairs seen so far
  have inv : ∀ seen : List (Nat × Nat), (∀ p ∈ seen, p.1 < n1 ∧ p.2 < n2) →
      let st := seen.foldl step init
      st.1.1.length = n1 ∧ st.1.2.length = n2 ∧
      (∀ i, st.1.1.getD i false = true ↔ ∃ q ∈ st.2, q.1 = i) ∧ (∀ i, st.1.2.getD i false = true ↔ ∃ q ∈ st.2, q.2 = i) ∧
      st.2.Sublist seen ∧ st.2.Pairwise (fun p q => ¬ Shares p q) ∧
      ∀ (pre : List (Nat × Nat)) (p : Nat × Nat) (post : List (Nat × Nat)), seen = pre ++ p :: post →
        ∃ q ∈ st.2, q ∈ pre ++ [p] ∧ Shares q p := by
    intro seen
    induction seen using List.reverseRecOn with
    | nil =>
      intro _
      refine ⟨by simp [init], by simp [init], ?_, ?_, by simp [init], by simp [init], ?_⟩
      · intro i; simp [init, List.getD_eq_getElem?_getD, List.getElem?_replicate]; split <;> simp
      · intro i; simp [init, List.getD_eq_getElem?_getD, List.getElem?_replicate]; split <;> simp
      · intro pre p post h; simp at h
    | append_singleton seen x ih =>
      intro hb
      obtain ⟨l1, l2, d1, d2, sub, pw, cov⟩ := ih fun p hp => hb p (by simp [hp])
      have hx := hb x (by simp)
      simp only [List.foldl_append, List.foldl_cons, List.foldl_nil]
      generalize seen.foldl step init = st at *
      have hsplit : ∀ (pre : List (Nat × Nat)) (p : Nat × Nat) (post : List (Nat × Nat)), seen ++ [x] = pre ++ p :: post →
          (post = [] ∧ pre = seen ∧ p = x) ∨ ∃ post', seen = pre ++ p :: post' := by
        intro pre p post h
        rcases List.eq_nil_or_concat post with rfl | ⟨post', y, rfl⟩
        · left
          have := List.append_inj' h rfl
          exact ⟨rfl, this.1.symm, by simpa using this.2.symm⟩
        · right
          rw [List.concat_eq_append] at h
          have h' : seen ++ [x] = (pre ++ p :: post') ++ [y] := by simpa using h
          exact ⟨post', (List.append_inj' h' rfl).1⟩
      by_cases hc : (st.1.1.getD x.1 false || st.1.2.getD x.2 false) = true
      · have e : step st x = st := if_pos hc
        rw [e]
        refine ⟨l1, l2, d1, d2, sub.trans (List.sublist_append_left _ _), pw, ?_⟩
        intro pre p post h
        rcases hsplit pre p post h with ⟨rfl, rfl, rfl⟩ | ⟨post', h'⟩
        · rw [Bool.or_eq_true] at hc
          rcases hc with hc | hc
          · obtain ⟨q, hq, e⟩ := (d1 _).1 hc
            exact ⟨q, hq, List.mem_append_left _ (sub.subset hq), Or.inl e⟩
          · obtain ⟨q, hq, e⟩ := (d2 _).1 hc
            exact ⟨q, hq, List.mem_append_left _ (sub.subset hq), Or.inr e⟩
        · exact cov pre p post' h'
      · have e : step st x = ((st.1.1.set x.1 true, st.1.2.set x.2 true), st.2 ++ [x]) := if_neg hc
        rw [e]
        rw [Bool.or_eq_true, not_or] at hc
        have upd : ∀ (l : List Bool) (k i : Nat), k < l.length →
            ((l.set k true).getD i false = true ↔ l.getD i false = true ∨ i = k) := by
          intro l k i hk
          simp only [List.getD_eq_getElem?_getD, List.getElem?_set]
          by_cases e : k = i
          · subst e; simp [hk]
          · simp [e, Ne.symm e]
        refine ⟨by simp [l1], by simp [l2], ?_, ?_, sub.append (List.Sublist.refl _), ?_, ?_⟩
        · intro i
          simp only
          rw [upd _ _ _ (by omega), d1]
          constructor
          · rintro (⟨q, hq, e⟩ | rfl)
            · exact ⟨q, by simp [hq], e⟩
            · exact ⟨x, by simp, rfl⟩
          · rintro ⟨q, hq, e⟩
            rcases List.mem_append.1 hq with hq | hq
            · exact Or.inl ⟨q, hq, e⟩
            · right; rw [← e, List.mem_singleton.1 hq]
        · intro i
          simp only
          rw [upd _ _ _ (by omega), d2]
          constructor
          · rintro (⟨q, hq, e⟩ | rfl)
            · exact ⟨q, by simp [hq], e⟩
            · exact ⟨x, by simp, rfl⟩
          · rintro ⟨q, hq, e⟩
            rcases List.mem_append.1 hq with hq | hq
            · exact Or.inl ⟨q, hq, e⟩
            · right; rw [← e, List.mem_singleton.1 hq]
        · rw [List.pairwise_append]
          refine ⟨pw, by simp, ?_⟩
          intro a ha b hb' hs
          rw [List.mem_singleton.1 hb'] at hs
          rcases hs with hs | hs
          · exact hc.1 ((d1 _).2 ⟨a, ha, hs⟩)
          · exact hc.2 ((d2 _).2 ⟨a, ha, hs⟩)
        · intro pre p post h
          rcases hsplit pre p post h with ⟨rfl, rfl, rfl⟩ | ⟨post', h'⟩
          · exact ⟨p, by simp, by simp, Or.inl rfl⟩
          · obtain ⟨q, hq, h1, h2⟩ := cov pre p post' h'
            exact ⟨q, by simp [hq], h1, h2⟩
  obtain ⟨_, _, _, _, h1, h2, h3⟩ := inv pairs hb
  exact ⟨h1, h2, h3⟩

/-- C39, mode "all": every close pair exactly once, nothing else. -/
theorem C39_all {n1 n2 : Nat} {close : Nat → Nat → Prop} {groups : List (List Nat)} (h : BallQuery n1 n2 close groups) :
    (crossmatchAll groups).Nodup ∧ ∀ p, p ∈ crossmatchAll groups ↔ p.1 < n1 ∧ p.2 < n2 ∧ close p.1 p.2 :=
  ⟨matchPairs_nodup h, mem_matchPairs h⟩

example : crossmatchAll [[1, 0], [], [1]] = [(0, 1), (0, 0), (2, 1)] := by decide

/-- C39, mode "closest", for any order `order` that sorts the distances (however ties are broken) and any order of the
points in the groups: every returned pair is within the radius, no point is used twice, and every pair within the
radius shares a point with a returned pair that is at least as close - so no unmatched close pair is left and no two
points would both rather be matched to each other. -/
theorem C39_closest {n1 n2 : Nat} {close : Nat → Nat → Prop} {groups : List (List Nat)} (h : BallQuery n1 n2 close groups)
    (d2 : Nat × Nat → ℚ) (order : List Nat) (ho : IsArgsort ((matchPairs groups).map d2) order) :
    (∀ p ∈ crossmatchClosest n1 n2 groups order, p.1 < n1 ∧ p.2 < n2 ∧ close p.1 p.2) ∧
    (crossmatchClosest n1 n2 groups order).Pairwise (fun p q => ¬ Shares p q) ∧
    ∀ i1 i2, i1 < n1 → i2 < n2 → close i1 i2 →
      ∃ q ∈ crossmatchClosest n1 n2 groups order, Shares q (i1, i2) ∧ d2 q ≤ d2 (i1, i2) := by
  obtain ⟨hp, hs⟩ := ho
  rw [List.length_map] at hp
  set pairs := order.map fun i => (matchPairs groups).getD i (0, 0) with hpairs
  have hget : ∀ i, i ∈ order → (matchPairs groups)[i]? = some ((matchPairs groups).getD i (0, 0)) := by
    intro i hi
    have : i < (matchPairs groups).length := by simpa using hp.mem_iff.1 hi
    simp [this]
  have hmem : ∀ p, p ∈ pairs ↔ p ∈ matchPairs groups := by
    intro p
    rw [hpairs, List.mem_map]
    constructor
    · rintro ⟨i, hi, rfl⟩
      exact List.mem_of_getElem? (hget i hi)
    · intro hpm
      obtain ⟨i, hi, e⟩ := List.mem_iff_getElem.1 hpm
      exact ⟨i, hp.mem_iff.2 (by simpa using hi), by simp [hi, e]⟩
  have hsorted : pairs.Pairwise fun p q => d2 p ≤ d2 q := by
    rw [hpairs, List.pairwise_map]
    refine List.Pairwise.imp_of_mem ?_ hs
    intro i j hi hj hij
    refine hij _ _ ?_ ?_
    · rw [List.getElem?_map, hget i hi]; rfl
    · rw [List.getElem?_map, hget j hj]; rfl
  obtain ⟨s1, s2, s3⟩ := firstMentions_spec n1 n2 pairs fun p hp => by
    have := (mem_matchPairs h p).1 ((hmem p).1 hp); exact ⟨this.1, this.2.1⟩
  refine ⟨fun p hp => (mem_matchPairs h p).1 ((hmem p).1 (s1.subset hp)), s2, ?_⟩
  intro i1 i2 h1 h2 hc
  have hpm : (i1, i2) ∈ pairs := (hmem _).2 ((mem_matchPairs h _).2 ⟨h1, h2, hc⟩)
  obtain ⟨pre, post, e⟩ := List.append_of_mem hpm
  obtain ⟨q, hq, hqm, hsh⟩ := s3 pre _ post e
  refine ⟨q, hq, hsh, ?_⟩
  rcases List.mem_append.1 hqm with hq' | hq'
  · rw [e, List.pairwise_append] at hsorted
    exact hsorted.2.2 q hq' _ (by simp)
  · rw [List.mem_singleton.1 hq']

example : crossmatchClosest 2 2 [[0, 1], [0]] [2, 1, 0] = [(1, 0), (0, 1)] := by decide

/-- C39, mode "first": returned pairs are within the radius, no point is used twice, and every pair within the radius
shares a point with a returned pair whose first point has no higher index. -/
theorem C39_first {n1 n2 : Nat} {close : Nat → Nat → Prop} {groups : List (List Nat)} (h : BallQuery n1 n2 close groups) :
    (∀ p ∈ crossmatchFirst n1 n2 groups, p.1 < n1 ∧ p.2 < n2 ∧ close p.1 p.2) ∧
    (crossmatchFirst n1 n2 groups).Pairwise (fun p q => ¬ Shares p q) ∧
    ∀ i1 i2, i1 < n1 → i2 < n2 → close i1 i2 →
      ∃ q ∈ crossmatchFirst n1 n2 groups, Shares q (i1, i2) ∧ q.1 ≤ i1 := by
  have hsorted : (matchPairs groups).Pairwise fun p q => p.1 ≤ q.1 := by
    unfold matchPairs
    rw [List.pairwise_flatMap]
    refine ⟨?_, ?_⟩
    · intro i _
      rw [List.pairwise_map]
      exact List.pairwise_of_forall (by intros; exact le_refl _)
    · refine List.Pairwise.imp ?_ (List.pairwise_lt_range)
      intro i j hij p hp q hq
      obtain ⟨_, _, rfl⟩ := List.mem_map.1 hp
      obtain ⟨_, _, rfl⟩ := List.mem_map.1 hq
      exact le_of_lt hij
  obtain ⟨s1, s2, s3⟩ := firstMentions_spec n1 n2 (matchPairs groups) fun p hp => by
    have := (mem_matchPairs h p).1 hp; exact ⟨this.1, this.2.1⟩
  refine ⟨fun p hp => (mem_matchPairs h p).1 (s1.subset hp), s2, ?_⟩
  intro i1 i2 h1 h2 hc
  obtain ⟨pre, post, e⟩ := List.append_of_mem ((mem_matchPairs h (i1, i2)).2 ⟨h1, h2, hc⟩)
  obtain ⟨q, hq, hqm, hsh⟩ := s3 pre _ post e
  refine ⟨q, hq, hsh, ?_⟩
  rcases List.mem_append.1 hqm with hq' | hq'
  · rw [e, List.pairwise_append] at hsorted
    exact hsorted.2.2 q hq' (i1, i2) (by simp)
  · rw [List.mem_singleton.1 hq']

example : crossmatchFirst 2 2 [[0, 1], [0]] = [(0, 0)] := by decide

/-- The pairs of mode "first" really depend on the order in which the ball query lists the points of a group, which
is not documented: the same catalogues with the groups listed differently give a different matching. -/
theorem C39_first_group_order :
    crossmatchFirst 2 2 [[0, 1], [0]] ≠ crossmatchFirst 2 2 [[1, 0], [0]] := by decide

end Pixell
