import Mathlib.Tactic.Linarith
import Mathlib.Tactic.Ring
import Mathlib.Data.List.Nodup
import Verif.Model.Store

/-
Properties C54 (repeatable reads), C57 (cache_get), C58 (spectrum caches), C59 (Bunch) and C68 (split_hdf_path).
-/
namespace Pixell

variable {κ : Type} [DecidableEq κ] {α : Type}

/-! ### dictionaries against histories -/

/-- An elementary event in the life of a dictionary. -/
inductive DictEvent (κ α : Type) where
  | set (k : κ) (v : α)
  | del (k : κ)

/-- The value of a key after a history (newest event first): the last assignment, unless deleted since. -/
def valueAfter (k : κ) : List (DictEvent κ α) → Option α
  | [] => none
  | .set k' v :: h => if k = k' then some v else valueAfter k h
  | .del k' :: h => if k = k' then none else valueAfter k h

/-- The time since which a key has been present without interruption. -/
def bornAt (k : κ) : List (DictEvent κ α) → Option Nat
  | [] => none
  | .set k' _ :: h => if k = k' then some ((bornAt k h).getD h.length) else bornAt k h
  | .del k' :: h => if k = k' then none else bornAt k h

/-- A list of key/value pairs represents the outcome of a history: no key twice, every key with its last value, keys in the
order in which they appeared. -/
structure Represents (d : List (κ × α)) (h : List (DictEvent κ α)) : Prop where
  value : ∀ k, dictGet d k = valueAfter k h
  keys : ∀ k, k ∈ d.map (·.1) ↔ (valueAfter k h).isSome
  born : ∀ k ∈ d.map (·.1), ∃ t, bornAt k h = some t ∧ t < h.length
  order : (d.map (·.1)).Pairwise fun a b => ∃ s t, bornAt a h = some s ∧ bornAt b h = some t ∧ s < t

theorem Represents.nodup {d : List (κ × α)} {h : List (DictEvent κ α)} (hr : Represents d h) : (d.map (·.1)).Nodup := by
  refine hr.order.imp ?_
  rintro a b ⟨s, t, h1, h2, h3⟩ rfl
  rw [h1] at h2
  cases h2
  omega

theorem dictGet_nil (k : κ) : dictGet ([] : List (κ × α)) k = none := rfl

theorem dictGet_cons (e : κ × α) (d : List (κ × α)) (k : κ) :
    dictGet (e :: d) k = if e.1 = k then some e.2 else dictGet d k := by
  unfold dictGet
  rw [List.find?_cons]
  by_cases h : e.1 = k <;> simp [h]

theorem dictGet_append (d e : List (κ × α)) (k : κ) :
    dictGet (d ++ e) k = if k ∈ d.map (·.1) then dictGet d k else dictGet e k := by
  induction d with
  | nil => simp
  | cons x d ih =>
    rw [List.cons_append, dictGet_cons, dictGet_cons, ih]
    by_cases h : x.1 = k
    · simp [h]
    · have : k ∈ (x :: d).map (·.1) ↔ k ∈ d.map (·.1) := by
        simp only [List.map_cons, List.mem_cons]
        constructor
        · rintro (h' | h')
          · exact absurd h'.symm h
          · exact h'
        · exact Or.inr
      simp only [h, if_false]
      simp only [this]

theorem dictGet_isSome (d : List (κ × α)) (k : κ) : (dictGet d k).isSome ↔ k ∈ d.map (·.1) := by
  induction d with
  | nil => simp [dictGet]
  | cons e d ih =>
    rw [dictGet_cons]
    by_cases h : e.1 = k
    · simp [h]
    · rw [if_neg h, ih, List.map_cons, List.mem_cons]
      constructor
      · exact Or.inr
      · rintro (h' | h')
        · exact absurd h'.symm h
        · exact h'

theorem dictSet_keys (d : List (κ × α)) (k : κ) (v : α) :
    (dictSet d k v).map (·.1) = if k ∈ d.map (·.1) then d.map (·.1) else d.map (·.1) ++ [k] := by
  unfold dictSet
  split_ifs with h
  · rw [List.map_map]
    apply List.map_congr_left
    intro e _
    simp only [Function.comp]
    split_ifs with h' <;> simp [h']
  · simp

theorem dictGet_set (d : List (κ × α)) (k : κ) (v : α) (k' : κ) :
    dictGet (dictSet d k v) k' = if k' = k then some v else dictGet d k' := by
  unfold dictSet
  split_ifs with h h2 h2
  · subst h2
    induction d with
    | nil => simp at h
    | cons e d ih =>
      rw [List.map_cons, dictGet_cons]
      by_cases he : e.1 = k'
      · simp [he]
      · simp only [he, if_false]
        apply ih
        rw [List.map_cons, List.mem_cons] at h
        rcases h with h | h
        · exact absurd h.symm he
        · exact h
  · clear h
    induction d with
    | nil => rfl
    | cons e d ih =>
      rw [List.map_cons, dictGet_cons, dictGet_cons, ih]
      by_cases he : e.1 = k
      · have : ¬ k = k' := fun x => h2 x.symm
        simp [he, this]
      · simp [he]
  · subst h2
    rw [dictGet_append, if_neg h, dictGet_cons]; simp
  · rw [dictGet_append]
    split_ifs with h3
    · rfl
    · rw [dictGet_cons, if_neg (fun x => h2 x.symm)]
      have := (dictGet_isSome d k').not.2 h3
      simp only [Option.not_isSome_iff_eq_none] at this
      rw [this]; rfl

theorem dictGet_del (d : List (κ × α)) (k k' : κ) :
    dictGet (dictDel d k) k' = if k' = k then none else dictGet d k' := by
  unfold dictDel
  induction d with
  | nil => simp [dictGet]
  | cons e d ih =>
    rw [List.filter_cons]
    by_cases h : e.1 = k
    · simp only [h, ne_eq, not_true_eq_false, decide_false, Bool.false_eq_true, if_false]
      rw [ih, dictGet_cons]
      by_cases h2 : k' = k
      · simp [h2]
      · rw [if_neg h2, if_neg h2, if_neg (by rw [h]; exact fun x => h2 x.symm)]
    · simp only [h, ne_eq, not_false_eq_true, decide_true, if_true]
      rw [dictGet_cons, dictGet_cons, ih]
      by_cases h2 : k' = k
      · subst h2; simp [h]
      · simp [h2]

/-- A key that was never born has no value, and conversely. -/
theorem bornAt_isSome (k : κ) (h : List (DictEvent κ α)) : (bornAt k h).isSome ↔ (valueAfter k h).isSome := by
  induction h with
  | nil => simp [bornAt, valueAfter]
  | cons e h ih => cases e <;> simp only [bornAt, valueAfter] <;> split_ifs <;> simp [ih]

theorem Represents.nil : Represents ([] : List (κ × α)) [] :=
  ⟨fun _ => rfl, fun _ => by simp [valueAfter], by simp, by simp⟩

theorem Represents.set {d : List (κ × α)} {h : List (DictEvent κ α)} (hr : Represents d h) (k : κ) (v : α) :
    Represents (dictSet d k v) (.set k v :: h) := by
  have hb : ∀ k' ∈ d.map (·.1), bornAt k' (.set k v :: h) = bornAt k' h := by
    intro k' hk'
    simp only [bornAt]
    split_ifs with e
    · obtain ⟨t, ht, _⟩ := hr.born k' hk'
      rw [ht]; rfl
    · rfl
  have hnew : k ∉ d.map (·.1) → bornAt k (.set k v :: h) = some h.length := by
    intro hk
    have : ¬ (bornAt k h).isSome := by rw [bornAt_isSome, ← hr.keys]; exact hk
    simp only [bornAt, if_true]
    rw [Option.not_isSome_iff_eq_none.1 this]; rfl
  refine ⟨?_, ?_, ?_, ?_⟩
  · intro k'
    rw [dictGet_set, hr.value]; rfl
  · intro k'
    rw [← dictGet_isSome, dictGet_set]
    simp only [valueAfter]
    rw [hr.value]
  · intro k' hk'
    rw [dictSet_keys] at hk'
    have : k' ∈ d.map (·.1) ∨ (k' = k ∧ k ∉ d.map (·.1)) := by
      split_ifs at hk' with hk
      · exact Or.inl hk'
      · rcases List.mem_append.1 hk' with hh | hh
        · exact Or.inl hh
        · exact Or.inr ⟨by simpa using hh, hk⟩
    rcases this with hh | ⟨rfl, hh⟩
    · obtain ⟨t, ht, hl⟩ := hr.born k' hh
      exact ⟨t, by rw [hb k' hh, ht], by simp; omega⟩
    · exact ⟨_, hnew hh, by simp⟩
  · rw [dictSet_keys]
    have old : (d.map (·.1)).Pairwise fun a b => ∃ s t, bornAt a (.set k v :: h) = some s ∧
        bornAt b (.set k v :: h) = some t ∧ s < t := by
      refine hr.order.imp_of_mem ?_
      intro a b ha hb' hab
      rw [hb a ha, hb b hb']; exact hab
    split_ifs with hk
    · exact old
    · rw [List.pairwise_append]
      refine ⟨old, by simp, ?_⟩
      intro a ha b hb'
      rw [List.mem_singleton.1 hb']
      obtain ⟨t, ht, hl⟩ := hr.born a ha
      exact ⟨t, _, by rw [hb a ha, ht], hnew hk, hl⟩

theorem Represents.del {d : List (κ × α)} {h : List (DictEvent κ α)} (hr : Represents d h) (k : κ) :
    Represents (dictDel d k) (.del k :: h) := by
  have hkeys : (dictDel d k).map (·.1) = (d.map (·.1)).filter fun a => decide (a ≠ k) := by
    unfold dictDel
    rw [List.filter_map]; rfl
  have hb : ∀ k' ≠ k, bornAt k' (.del k :: h) = bornAt k' h := by
    intro k' hk'
    simp [bornAt, hk']
  refine ⟨?_, ?_, ?_, ?_⟩
  · intro k'
    rw [dictGet_del, hr.value]; rfl
  · intro k'
    rw [← dictGet_isSome, dictGet_del]
    simp only [valueAfter]
    rw [hr.value]
  · intro k' hk'
    rw [hkeys, List.mem_filter] at hk'
    obtain ⟨t, ht, hl⟩ := hr.born k' hk'.1
    exact ⟨t, by rw [hb k' (by simpa using hk'.2), ht], by simp; omega⟩
  · rw [hkeys]
    refine (hr.order.filter _).imp_of_mem ?_
    intro a b ha hb' hab
    rw [List.mem_filter] at ha hb'
    rw [hb a (by simpa using ha.2), hb b (by simpa using hb'.2)]
    exact hab

/-! ### C59 -/

/-- The events a call stands for: assignments assign, and deletions delete if the key is there. -/
def eventsOf (h : List (DictEvent String α)) : BunchOp α → List (DictEvent String α)
  | .setItem k v => [.set k v]
  | .setAttr k v => [.set k v]
  | .delItem k => if (valueAfter k h).isSome then [.del k] else []
  | .delAttr k => if (valueAfter k h).isSome then [.del k] else []
  | .update kvs => (kvs.map fun e => DictEvent.set e.1 e.2).reverse

/-- The history (newest first) after a list of calls (in order). -/
def historyOf (h : List (DictEvent String α)) : List (BunchOp α) → List (DictEvent String α)
  | [] => h
  | op :: ops => historyOf (eventsOf h op ++ h) ops

/-- The call deletes the key `_dict` while there is none. -/
def BunchOp.breaks (h : List (DictEvent String α)) : BunchOp α → Prop
  | .delItem k => k = "_dict" ∧ valueAfter k h = none
  | .delAttr k => k = "_dict" ∧ valueAfter k h = none
  | _ => False

/-- None of the calls deletes the key `_dict` while there is none. -/
def NeverBreaks (h : List (DictEvent String α)) : List (BunchOp α) → Prop
  | [] => True
  | op :: ops => ¬ op.breaks h ∧ NeverBreaks (eventsOf h op ++ h) ops

theorem Represents.update {d : List (κ × α)} {h : List (DictEvent κ α)} (hr : Represents d h) (kvs : List (κ × α)) :
    Represents (kvs.foldl (fun d e => dictSet d e.1 e.2) d) ((kvs.map fun e => DictEvent.set e.1 e.2).reverse ++ h) := by
  induction kvs generalizing d h with
  | nil => exact hr
  | cons e kvs ih =>
    have := ih (hr.set e.1 e.2)
    simpa using this

theorem bunchStep_spec {d : List (String × α)} {h : List (DictEvent String α)} (hr : Represents d h) (op : BunchOp α)
    (hop : ¬ op.breaks h) : ∃ d', (bunchStep op (some d)).1 = some d' ∧ Represents d' (eventsOf h op ++ h) ∧
      ((bunchStep op (some d)).2 = true ↔ (∃ k, (op = .delItem k ∨ op = .delAttr k) ∧ valueAfter k h = none)) := by
  have hdel : ∀ k, ¬ (k = "_dict" ∧ valueAfter k h = none) →
      ∃ d', (if k ∈ d.map (·.1) then ((some (dictDel d k), false) : BunchState α × Bool) else if k = "_dict" then (none, false)
        else (some d, true)).1 = some d' ∧
        Represents d' ((if (valueAfter k h).isSome then [DictEvent.del k] else []) ++ h) ∧
        ((if k ∈ d.map (·.1) then ((some (dictDel d k), false) : BunchState α × Bool) else if k = "_dict" then (none, false)
        else (some d, true)).2 = true ↔ valueAfter k h = none) := by
    intro k hk
    by_cases hm : k ∈ d.map (·.1)
    · have hs := (hr.keys k).1 hm
      refine ⟨dictDel d k, by rw [if_pos hm], ?_, ?_⟩
      · rw [if_pos hs]; exact hr.del k
      · rw [if_pos hm]
        simp only [Bool.false_eq_true, false_iff]
        intro hn; rw [hn] at hs; simp at hs
    · have hs : valueAfter k h = none := by
        have := (hr.keys k).not.1 hm
        simpa using this
      have hne : k ≠ "_dict" := fun e => hk ⟨e, hs⟩
      refine ⟨d, by rw [if_neg hm, if_neg hne], ?_, ?_⟩
      · rw [hs]; simpa using hr
      · rw [if_neg hm, if_neg hne]; simp [hs]
  cases op with
  | setItem k v => exact ⟨_, rfl, hr.set k v, by simp [bunchStep]⟩
  | setAttr k v => exact ⟨_, rfl, hr.set k v, by simp [bunchStep]⟩
  | update kvs => exact ⟨_, rfl, hr.update kvs, by simp [bunchStep]⟩
  | delItem k =>
    obtain ⟨d', h1, h2, h3⟩ := hdel k hop
    refine ⟨d', h1, h2, ?_⟩
    simp only [bunchStep]
    rw [h3]
    simp
  | delAttr k =>
    obtain ⟨d', h1, h2, h3⟩ := hdel k hop
    refine ⟨d', h1, h2, ?_⟩
    simp only [bunchStep]
    rw [h3]
    simp

/-- C59: after any sequence of assignments, deletions and updates that never deletes the key "_dict" while it is absent,
the Bunch holds exactly the values a dictionary would hold, in the same order; deletions raise exactly when the key is
absent (first conjunct of the step); and attributes that are neither "_dict", a method name nor start with two underscores
read as items. -/
theorem C59_partial (ops : List (BunchOp α)) (hops : NeverBreaks ([] : List (DictEvent String α)) ops) :
    ∃ d, ops.foldl (fun b op => (bunchStep op b).1) (some []) = some d ∧ Represents d (historyOf [] ops) ∧
      ∀ k, k ≠ "_dict" → k ∉ bunchMethods → ¬ k.startsWith "__" →
        bunchGetAttr d k = (valueAfter k (historyOf [] ops)).elim .error .value := by
  have main : ∀ (ops : List (BunchOp α)) (d : List (String × α)) (h : List (DictEvent String α)), Represents d h →
      NeverBreaks h ops → ∃ d', ops.foldl (fun b op => (bunchStep op b).1) (some d) = some d' ∧
        Represents d' (historyOf h ops) := by
    intro ops
    induction ops with
    | nil => intro d h hr _; exact ⟨d, rfl, hr⟩
    | cons op ops ih =>
      intro d h hr hn
      obtain ⟨d', h1, h2, _⟩ := bunchStep_spec hr op hn.1
      rw [List.foldl_cons, h1]
      exact ih d' _ h2 hn.2
  obtain ⟨d, h1, h2⟩ := main ops [] [] Represents.nil hops
  refine ⟨d, h1, h2, ?_⟩
  intro k hk1 hk2 hk3
  unfold bunchGetAttr
  rw [if_neg hk1, if_neg hk2, if_neg hk3, h2.value]

/-- C59: a deletion raises exactly when the key is absent, and then changes nothing. -/
theorem C59_delete (ops : List (BunchOp α)) (hops : NeverBreaks ([] : List (DictEvent String α)) ops) (k : String)
    (hk : k ≠ "_dict") :
    let b := ops.foldl (fun b op => (bunchStep op b).1) (some [])
    ((bunchStep (.delItem k) b).2 = true ↔ valueAfter k (historyOf [] ops) = none) ∧
    ((bunchStep (.delItem k) b).2 = true → (bunchStep (.delItem k) b).1 = b) := by
  obtain ⟨d, h1, h2, _⟩ := C59_partial ops hops
  simp only [h1]
  obtain ⟨d', g1, g2, g3⟩ := bunchStep_spec h2 (.delItem k) (by rintro ⟨e, _⟩; exact hk e)
  refine ⟨by rw [g3]; simp, ?_⟩
  simp only [bunchStep]
  split_ifs <;> simp

/-- C59: a copy is equal, and later changes to either are not seen by the other (states are separate values). -/
theorem C59_copy (ops : List (BunchOp α)) (hops : NeverBreaks ([] : List (DictEvent String α)) ops) :
    bunchCopy (ops.foldl (fun b op => (bunchStep op b).1) (some [])) =
      ops.foldl (fun b op => (bunchStep op b).1) (some []) := by
  obtain ⟨d, h1, h2, _⟩ := C59_partial ops hops
  rw [h1]
  unfold bunchCopy bunchNew
  simp only [Option.bind_some, Option.some.injEq]
  have : ∀ (l acc : List (String × α)), ((acc ++ l).map (·.1)).Nodup →
      l.foldl (fun d e => dictSet d e.1 e.2) acc = acc ++ l := by
    intro l
    induction l with
    | nil => simp
    | cons e l ih =>
      intro acc hn
      rw [List.foldl_cons]
      have hnot : e.1 ∉ acc.map (·.1) := by
        rw [List.map_append, List.nodup_append] at hn
        intro hm
        exact hn.2.2 _ hm e.1 (by simp) rfl
      have : dictSet acc e.1 e.2 = acc ++ [e] := by
        unfold dictSet
        rw [if_neg hnot]
      rw [this, ih]
      · simp
      · simpa using hn
  simpa using this d [] (by simpa using h2.nodup)

/-- C59 fails for the key "_dict": deleting it from a Bunch that does not contain it raises nothing and destroys the
Bunch, losing all its contents. -/
theorem C59_refuted (d : List (String × α)) (h : "_dict" ∉ d.map (·.1)) :
    bunchStep (.delItem "_dict") (some d) = (none, false) := by
  simp only [bunchStep]
  rw [if_neg h]
  simp

/-- Reserved names can be assigned as attributes but do not read back. -/
theorem C59_reserved (d : List (String × α)) (k : String) (v : α) (hk : k ∈ bunchMethods) :
    (bunchStep (.setAttr k v) (some d)).1 = some (dictSet d k v) ∧ bunchGetAttr (dictSet d k v) k = .method := by
  refine ⟨rfl, ?_⟩
  unfold bunchGetAttr
  rw [if_neg, if_pos hk]
  rintro rfl
  revert hk
  decide

example : NeverBreaks ([] : List (DictEvent String Nat)) [.setItem "a" 1, .setAttr "b" 2, .delItem "a", .setItem "a" 3] := by
  simp [NeverBreaks, BunchOp.breaks]
example : [BunchOp.setItem "a" 1, .setAttr "b" 2, .delItem "a", .setItem "a" 3].foldl
    (fun b op => (bunchStep op b).1) (some []) = some [("b", 2), ("a", 3)] := by decide
example : "keys" ∈ bunchMethods := by decide

/-! ### C57 -/

/-- C57 for a cache that is not empty: in any history of calls each call returns the value found in the cache at the start,
or else `f key`; no key is computed twice, and no key that was in the cache is computed. -/
theorem C57_partial (f : κ → α) (cache : List (κ × α)) (hne : cache ≠ []) (ks : List κ) :
    (cacheRun f cache ks).1 = ks.map (fun k => (dictGet cache k).getD (f k)) ∧ (cacheRun f cache ks).2.1.Nodup ∧
    (∀ k ∈ (cacheRun f cache ks).2.1, k ∈ ks ∧ dictGet cache k = none) ∧
    ∀ k, dictGet (cacheRun f cache ks).2.2 k = if (dictGet cache k).isSome then dictGet cache k
      else if k ∈ ks then some (f k) else none := by
  induction ks generalizing cache with
  | nil =>
    refine ⟨rfl, List.nodup_nil, by simp [cacheRun], ?_⟩
    intro k
    simp only [cacheRun]
    cases dictGet cache k <;> simp
  | cons k ks ih =>
    have hne' : cache.isEmpty = false := by simpa using hne
    cases hg : dictGet cache k with
    | some v =>
      have hc : cacheGet cache k (f k) = (v, false, cache) := by
        unfold cacheGet
        rw [hne']
        simp [hg]
      obtain ⟨i1, i2, i3, i4⟩ := ih cache hne
      simp only [cacheRun, hc, Bool.false_eq_true, if_false]
      refine ⟨?_, i2, fun k' hk' => ⟨List.mem_cons_of_mem _ (i3 k' hk').1, (i3 k' hk').2⟩, ?_⟩
      · rw [i1, List.map_cons, hg]; rfl
      · intro k'
        rw [i4]
        split_ifs with h1 h2 h3 h3
        · rfl
        · rfl
        · exact absurd (List.mem_cons_of_mem _ h2) h3
        · rcases List.mem_cons.1 h3 with rfl | h3
          · rw [hg] at h1; simp at h1
          · exact absurd h3 h2
        · rfl
    | none =>
      have hc : cacheGet cache k (f k) = (f k, true, dictSet cache k (f k)) := by
        unfold cacheGet
        rw [hne']
        simp [hg]
      have hne2 : dictSet cache k (f k) ≠ [] := by
        have := (dictGet_isSome (dictSet cache k (f k)) k).1 (by rw [dictGet_set]; simp)
        intro h0; rw [h0] at this; simp at this
      obtain ⟨i1, i2, i3, i4⟩ := ih _ hne2
      simp only [cacheRun, hc, if_true]
      refine ⟨?_, ?_, ?_, ?_⟩
      · rw [i1, List.map_cons, hg]
        congr 1
        apply List.map_congr_left
        intro k' _
        rw [dictGet_set]
        split_ifs with e
        · subst e; rw [hg]; rfl
        · rfl
      · rw [List.nodup_cons]
        refine ⟨fun hm => ?_, i2⟩
        have := (i3 k hm).2
        rw [dictGet_set] at this
        simp at this
      · intro k' hk'
        rcases List.mem_cons.1 hk' with rfl | hk'
        · exact ⟨by simp, hg⟩
        · refine ⟨List.mem_cons_of_mem _ (i3 k' hk').1, ?_⟩
          have := (i3 k' hk').2
          rw [dictGet_set] at this
          split_ifs at this
          exact this
      · intro k'
        rw [i4, dictGet_set]
        by_cases e : k' = k
        · subst e; simp [hg]
        · simp [e]

/-- C57 fails for a dictionary that is empty at the start: it stays empty, and every call computes. -/
theorem C57_refuted (f : κ → α) (ks : List κ) : cacheRun f [] ks = (ks.map f, ks, []) := by
  induction ks with
  | nil => rfl
  | cons k ks ih => simp [cacheRun, cacheGet, ih]

example : cacheRun (fun k : Nat => k * k) [(7, 0)] [2, 3, 2, 7] = ([4, 9, 4, 0], [2, 3], [(7, 0), (2, 4), (3, 9)]) := by decide

/-! ### C58 -/

theorem crossSpec_comm (a b : List (ℚ × ℚ)) : crossSpec a b = crossSpec b a := by
  unfold crossSpec
  rw [List.zipWith_comm]
  congr 1
  funext p q
  ring

theorem sortedPair_eq {a b c d : Int} (h : sortedPair a b = sortedPair c d) : (a = c ∧ b = d) ∨ (a = d ∧ b = c) := by
  unfold sortedPair at h
  split_ifs at h <;> simp only [Prod.mk.injEq] at h <;> omega

/-- The cross spectrum of two arrays: twice the real part of `a conj b` is `|a+b|² - |a|² - |b|²`. -/
def realCross (a b : List (ℚ × ℚ)) : List ℚ :=
  (a.zip b).map fun p => ((p.1.1 + p.2.1) ^ 2 + (p.1.2 + p.2.2) ^ 2 - (p.1.1 ^ 2 + p.1.2 ^ 2)
    - (p.2.1 ^ 2 + p.2.2 ^ 2)) / 2

theorem crossSpec_eq (a b : List (ℚ × ℚ)) : crossSpec a b = realCross a b := by
  unfold crossSpec realCross
  rw [← List.map_uncurry_zip_eq_zipWith]
  refine List.map_congr_left fun p _ => ?_
  simp only [Function.uncurry]
  ring

/-- C58 when an address determines its contents: if any two of the views that start at the same address have the same
contents (for example because all views have the same strides), every output is the spectrum of its own inputs. -/
theorem C58_partial (mem : Int → ℚ × ℚ) (ny nx : Nat) (ps : List (View2 × View2))
    (h : ∀ v ∈ ps.map (·.1) ++ ps.map (·.2), ∀ w ∈ ps.map (·.1) ++ ps.map (·.2), v.addr = w.addr →
      v.read mem ny nx = w.read mem ny nx) :
    spectraLoop mem ny nx ps [] = ps.map fun p => realCross (p.1.read mem ny nx) (p.2.read mem ny nx) := by
  simp only [← crossSpec_eq]
  have main : ∀ (qs : List (View2 × View2)) (cache : List ((Int × Int) × List ℚ)), (∀ q ∈ qs, q ∈ ps) →
      (∀ key s, dictGet cache key = some s → ∃ p ∈ ps, key = sortedPair p.1.addr p.2.addr ∧
        s = crossSpec (p.1.read mem ny nx) (p.2.read mem ny nx)) →
      spectraLoop mem ny nx qs cache = qs.map fun p => crossSpec (p.1.read mem ny nx) (p.2.read mem ny nx) := by
    intro qs
    induction qs with
    | nil => intro cache _ _; rfl
    | cons q qs ih =>
      intro cache hsub hc
      have hq := hsub q (by simp)
      simp only [spectraLoop, List.map_cons]
      cases hg : dictGet cache (sortedPair q.1.addr q.2.addr) with
      | some s =>
        obtain ⟨p, hp, e1, e2⟩ := hc _ _ hg
        simp only
        rw [ih cache (fun x hx => hsub x (List.mem_cons_of_mem _ hx)) hc]
        congr 1
        rw [e2]
        have m1 : ∀ r ∈ ps, r.1 ∈ ps.map (·.1) ++ ps.map (·.2) := fun r hr =>
          List.mem_append_left _ (List.mem_map_of_mem (f := (·.1)) hr)
        have m2 : ∀ r ∈ ps, r.2 ∈ ps.map (·.1) ++ ps.map (·.2) := fun r hr =>
          List.mem_append_right _ (List.mem_map_of_mem (f := (·.2)) hr)
        rcases sortedPair_eq e1 with ⟨h1, h2⟩ | ⟨h1, h2⟩
        · rw [h _ (m1 q hq) _ (m1 p hp) h1, h _ (m2 q hq) _ (m2 p hp) h2]
        · rw [h _ (m1 q hq) _ (m2 p hp) h1, h _ (m2 q hq) _ (m1 p hp) h2, crossSpec_comm]
      | none =>
        simp only
        rw [ih _ (fun x hx => hsub x (List.mem_cons_of_mem _ hx))]
        intro key s hk
        rw [dictGet_set] at hk
        split_ifs at hk with e
        · exact ⟨q, hq, e, (Option.some.inj hk).symm⟩
        · exact hc key s hk
  exact main ps [] (fun q hq => hq) (by intro key s h; simp [dictGet] at h)

/-- C58: equal strides are enough. -/
theorem C58_strides (mem : Int → ℚ × ℚ) (ny nx : Nat) (ps : List (View2 × View2)) (sy sx : Int)
    (h : ∀ v ∈ ps.map (·.1) ++ ps.map (·.2), v.sy = sy ∧ v.sx = sx) :
    spectraLoop mem ny nx ps [] = ps.map fun p => realCross (p.1.read mem ny nx) (p.2.read mem ny nx) := by
  apply C58_partial
  intro v hv w hw e
  have a := h v hv
  have b := h w hw
  have : v = w := by
    cases v; cases w
    simp only at a b e
    simp [a.1, a.2, b.1, b.2, e]
  rw [this]

/-- C58 fails for a matrix and its transpose, which start at the same address: the second spectrum of ((M,M),(M,Mᵀ)) comes
out as the first. -/
theorem C58_refuted : ∃ (mem : Int → ℚ × ℚ) (ps : List (View2 × View2)),
    spectraLoop mem 2 2 ps [] ≠ ps.map fun p => realCross (p.1.read mem 2 2) (p.2.read mem 2 2) := by
  refine ⟨fun i => (i, 0), [(⟨0, 2, 1⟩, ⟨0, 2, 1⟩), (⟨0, 2, 1⟩, ⟨0, 1, 2⟩)], ?_⟩
  decide +kernel

example : spectraLoop (fun i => (i, 1)) 1 2 [(⟨0, 2, 1⟩, ⟨2, 2, 1⟩), (⟨2, 2, 1⟩, ⟨0, 2, 1⟩)] [] = [[1, 4], [1, 4]] := by
  decide +kernel

/-! ### C54 -/

variable {β : Type}

/-- C54: if reads work on copies (large maps read in sections, or HDF), or if nothing is flipped and the byte order is the
machine's, the data kept in memory never changes, so a selection reads the same before and after any other reads. -/
theorem C54_partial (swap neg : β → β) (foreign : Bool) (flip : Nat → Bool) (isView : Bool)
    (h : isView = false ∨ (foreign = false ∧ ∀ i, flip i = false)) (data : List β) (reads : List (List Nat)) (sel : List Nat) :
    (fitsRead β swap neg foreign flip isView (reads.foldl (fun d s => (fitsRead β swap neg foreign flip isView d s).2) data)
      sel).1 = (fitsRead β swap neg foreign flip isView data sel).1 := by
  have keep : ∀ (d : List β) (s : List Nat), (fitsRead β swap neg foreign flip isView d s).2 = d := by
    intro d s
    unfold fitsRead
    rcases h with h | ⟨h1, h2⟩
    · simp [h]
    · simp only [fitsPixel, h1, h2]
      have e : List.mapIdx (fun _ b => b) d = d := by
        apply List.ext_getElem? 
        intro i
        simp
      simp [e]
  have : reads.foldl (fun d s => (fitsRead β swap neg foreign flip isView d s).2) data = data := by
    induction reads with
    | nil => rfl
    | cons s reads ih => rw [List.foldl_cons, keep, ih]
  rw [this]

/-- C54: a first read of any selection gives, in the order selected, the stored pixels with their sign and byte order
put right. -/
theorem C54_first (swap neg : β → β) (foreign : Bool) (flip : Nat → Bool) (isView : Bool) (data : List β)
    (sel : List Nat) :
    (fitsRead β swap neg foreign flip isView data sel).1 = sel.filterMap fun i => data[i]?.map fun b =>
      match foreign, flip i with
      | false, false => b
      | false, true => neg b
      | true, false => swap b
      | true, true => swap (neg b) := by
  unfold fitsRead
  refine List.filterMap_congr fun i hi => ?_
  simp only [List.getElem?_mapIdx, if_pos hi]
  cases data[i]? with
  | none => rfl
  | some b => cases foreign <;> cases h : flip i <;> simp [fitsPixel, h]

/-- C54 fails when reads work on views of data kept in memory: the second read of a pixel applies the sign and the byte
order once more, so it differs from the first whenever this changes the pixel. -/
theorem C54_refuted (swap neg : β → β) (foreign : Bool) (flip : Nat → Bool) (data : List β) (i : Nat) (b : β)
    (hb : data[i]? = some b)
    (hne : fitsPixel β swap neg foreign (flip i) (fitsPixel β swap neg foreign (flip i) b) ≠
      fitsPixel β swap neg foreign (flip i) b) :
    (fitsRead β swap neg foreign flip true (fitsRead β swap neg foreign flip true data [i]).2 [i]).1 ≠
      (fitsRead β swap neg foreign flip true data [i]).1 := by
  unfold fitsRead
  simp only [List.mem_singleton, if_true, List.filterMap_cons, List.filterMap_nil, List.getElem?_mapIdx, hb, Option.map_some]
  simpa using hne

/-- For example two-byte integers, swapped, with no flips. -/
example : fitsPixel (Nat × Nat) Prod.swap id true false (fitsPixel (Nat × Nat) Prod.swap id true false (0, 1)) ≠
    fitsPixel (Nat × Nat) Prod.swap id true false (0, 1) := by decide
/-- And a flipped pixel in the machine's byte order. -/
example : (fitsRead ℤ id (fun x => -x) false (fun i => i = 1) true [5, 6] [0, 1]) = ([5, -6], [5, -6]) := by decide

/-! ### C68 -/

theorem pySplit_ne_nil (c : Char) (s : List Char) : pySplit c s ≠ [] := by
  cases s with
  | nil => simp [pySplit]
  | cons x xs =>
    simp only [pySplit]
    split_ifs
    · simp
    · split <;> simp

theorem pyJoin_cons (c : Char) (t : List Char) (ts : List (List Char)) (h : ts ≠ []) :
    pyJoin c (t :: ts) = t ++ c :: pyJoin c ts := by
  cases ts with
  | nil => exact absurd rfl h
  | cons u us => rfl

/-- Joining the parts of a split gives back the string. -/
theorem pyJoin_pySplit (c : Char) (s : List Char) : pyJoin c (pySplit c s) = s := by
  induction s with
  | nil => rfl
  | cons x xs ih =>
    simp only [pySplit]
    split_ifs with h
    · rw [pyJoin_cons c _ _ (pySplit_ne_nil c xs), ih, h]; rfl
    · cases hs : pySplit c xs with
      | nil => exact absurd hs (pySplit_ne_nil c xs)
      | cons t ts =>
        rw [hs] at ih
        simp only
        cases ts with
        | nil => simp only [pyJoin] at ih ⊢; rw [ih]
        | cons u us => simp only [pyJoin] at ih ⊢; rw [← ih]; rfl

/-- Splitting a joined list of parts without the separator gives back the parts. -/
theorem pySplit_pyJoin (c : Char) (ts : List (List Char)) (hne : ts ≠ []) (h : ∀ t ∈ ts, c ∉ t) :
    pySplit c (pyJoin c ts) = ts := by
  have one : ∀ t : List Char, c ∉ t → pySplit c t = [t] := by
    intro t
    induction t with
    | nil => intro _; rfl
    | cons x xs ih =>
      intro hx
      simp only [List.mem_cons, not_or] at hx
      simp only [pySplit]
      rw [if_neg (fun e => hx.1 e.symm), ih hx.2]
  have two : ∀ t s : List Char, c ∉ t → pySplit c (t ++ c :: s) = t :: pySplit c s := by
    intro t s
    induction t with
    | nil => intro _; simp [pySplit]
    | cons x xs ih =>
      intro hx
      simp only [List.mem_cons, not_or] at hx
      rw [List.cons_append]
      simp only [pySplit]
      rw [if_neg (fun e => hx.1 e.symm), ih hx.2]
  induction ts with
  | nil => exact absurd rfl hne
  | cons t ts ih =>
    cases ts with
    | nil => exact one t (h t (by simp))
    | cons u us =>
      rw [pyJoin_cons c t _ (by simp), two _ _ (h t (by simp)), ih (by simp) (fun x hx => h x (List.mem_cons_of_mem _ hx))]

/-- The last index whose element satisfies a test is what the reversed loop finds. -/
theorem find_last (p : Nat → Bool) (n k : Nat) (hk : k < n) (hp : p k = true) (hafter : ∀ j, k < j → j < n → p j = false) :
    (List.range n).reverse.find? p = some k := by
  induction n with
  | zero => omega
  | succ n ih =>
    rw [List.range_succ, List.reverse_append, List.reverse_singleton, List.singleton_append, List.find?_cons]
    rcases Nat.lt_or_ge k n with h | h
    · rw [hafter n h (by omega)]
      exact ih h (fun j h1 h2 => hafter j h1 (by omega))
    · obtain rfl : k = n := by omega
      rw [hp]

/-- C68: a path made of file components, the last of which contains a dot, and group components without dots, is split
exactly there; a subgroup is added to the group. -/
theorem C68_dot (ftoks gtoks : List (List Char)) (last : List Char) (sub : Option (List Char))
    (hs : ∀ t ∈ ftoks ++ last :: gtoks, '/' ∉ t) (hdot : '.' ∈ last) (hno : ∀ t ∈ gtoks, '.' ∉ t)
    (hsub : sub ≠ some []) :
    splitHdfPath .dot (pyJoin '/' (ftoks ++ last :: gtoks)) sub =
      some (pyJoin '/' (ftoks ++ [last]),
        if gtoks ++ sub.toList = [] then none else some (pyJoin '/' (gtoks ++ sub.toList))) := by
  unfold splitHdfPath
  simp only
  rw [pySplit_pyJoin '/' _ (by simp) hs]
  have hpos : splitPos .dot (ftoks ++ last :: gtoks) = some ftoks.length := by
    unfold splitPos
    simp only
    apply find_last
    · simp
    · simp [hdot]
    · intro j h1 h2
      rw [List.getElem?_append_right (by omega)]
      obtain ⟨i, hi⟩ : ∃ i, j - ftoks.length = i + 1 := ⟨j - ftoks.length - 1, by omega⟩
      rw [hi, List.getElem?_cons_succ]
      cases hg : gtoks[i]? with
      | none => rfl
      | some t =>
        have := hno t (List.mem_of_getElem? hg)
        simpa using this
  rw [hpos]
  have htake : (ftoks ++ last :: gtoks).take (ftoks.length + 1) = ftoks ++ [last] := by
    rw [List.take_append, List.take_of_length_le (by omega)]; simp
  have hdrop : (ftoks ++ last :: gtoks).drop (ftoks.length + 1) = gtoks := by
    rw [List.drop_append]; simp
  simp only [Option.map_some, htake, hdrop]
  cases sub with
  | none => cases gtoks <;> simp
  | some s =>
    have hs0 : s ≠ [] := fun e => hsub (by rw [e])
    simp [hs0]

/-- C68: a path without any dot is refused, and only then. -/
theorem C68_error (fname : List Char) (sub : Option (List Char)) :
    splitHdfPath .dot fname sub = none ↔ '.' ∉ fname := by
  have hmem : ('.' ∈ fname) ↔ ∃ t ∈ pySplit '/' fname, '.' ∈ t := by
    induction fname with
    | nil => simp [pySplit]
    | cons x xs ih =>
      simp only [pySplit]
      split_ifs with h
      · rw [List.mem_cons, ih, h]
        simp
      · cases hs : pySplit '/' xs with
        | nil => exact absurd hs (pySplit_ne_nil '/' xs)
        | cons t ts =>
          rw [hs] at ih
          rw [List.mem_cons, ih]
          simp [or_assoc]
  rw [hmem]
  unfold splitHdfPath
  simp only [Option.map_eq_none_iff, splitPos, List.find?_eq_none, List.mem_reverse, List.mem_range]
  constructor
  · rintro h ⟨t, ht, hd⟩
    obtain ⟨i, hi⟩ := List.getElem?_of_mem ht
    have hlt : i < (pySplit '/' fname).length := (List.getElem?_eq_some_iff.1 hi).1
    apply h i hlt
    rw [hi]; simp [hd]
  · intro h i hi hc
    rw [List.getElem?_eq_getElem hi] at hc
    exact h ⟨_, List.getElem_mem hi, by simpa using hc⟩

/-- C68: in every mode, without a subgroup, file and group joined with "/" give back the path; mode "none" returns the
whole path as the file. -/
theorem C68_join (mode : SplitMode) (fname : List Char) (file : List Char) (group : Option (List Char))
    (h : splitHdfPath mode fname none = some (file, group)) :
    (group.elim file fun g => file ++ '/' :: g) = fname := by
  unfold splitHdfPath at h
  simp only [Option.map_eq_some_iff, Prod.mk.injEq] at h
  obtain ⟨i, _, h1, h2⟩ := h
  have hj : ∀ a b : List (List Char), a ≠ [] → b ≠ [] → pyJoin '/' (a ++ b) = pyJoin '/' a ++ '/' :: pyJoin '/' b := by
    intro a b ha hb
    induction a with
    | nil => exact absurd rfl ha
    | cons t a ih =>
      cases a with
      | nil => rw [List.singleton_append, pyJoin_cons _ _ _ hb]; rfl
      | cons u a =>
        rw [List.cons_append, pyJoin_cons _ _ _ (by simp), ih (by simp), pyJoin_cons _ t (u :: a) (by simp)]
        simp
  have hfull := pyJoin_pySplit '/' fname
  rw [← List.take_append_drop (i + 1) (pySplit '/' fname)] at hfull
  by_cases hd : (pySplit '/' fname).drop (i + 1) = []
  · rw [hd] at h2 hfull
    simp at h2
    rw [← h2, ← h1]
    simpa using hfull
  · rw [if_pos (List.length_pos_of_ne_nil hd)] at h2
    rw [← h2, ← h1]
    simp only [Option.elim_some]
    rw [← hj _ _ _ hd]
    · exact hfull
    · have := pySplit_ne_nil '/' fname
      simp [this]

/-- C68: mode "none" does not split. -/
theorem C68_none (fname : List Char) : splitHdfPath .none fname none = some (fname, none) := by
  unfold splitHdfPath
  simp only [splitPos, Option.map_some]
  rw [List.take_of_length_le (by omega), List.drop_eq_nil_of_le (by omega), pyJoin_pySplit]
  simp

example : splitHdfPath .dot "a/b/c.d/e/f".toList none = some ("a/b/c.d".toList, some "e/f".toList) := by decide
example : splitHdfPath .dot "x.hdf".toList (some "g".toList) = some ("x.hdf".toList, some "g".toList) := by decide

end Pixell
