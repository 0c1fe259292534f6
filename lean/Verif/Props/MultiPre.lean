import Verif.Model.MultiPre
import Verif.Props.Multimap

/-
Property C177: multimaps as lists of maps with components.
-/
namespace Pixell

variable {α β : Type}

theorem offs_end (maps : List (Map2 α)) : (multimap maps).offs.length = maps.length + 1 := by
  unfold Multimap.offs multimap
  rw [(C73_cumsum _).1]; simp

theorem iterFrom_eq (maps : List (Map2 α)) (h : ∀ m ∈ maps, m.Ok) : ∀ (f i : ℕ), i ≤ maps.length → maps.length < f + i →
    (multimap maps).iterFrom f i = some (maps.drop i) := by
  intro f
  induction f with
  | zero => intro i h1 h2; omega
  | succ f ih =>
    intro i h1 h2
    unfold Multimap.iterFrom
    have e1 : ((i : ℤ) + 1) = ((i + 1 : ℕ) : ℤ) := by push_cast; rfl
    by_cases c : i < maps.length
    · have o1 := offs_get maps h i (by omega)
      have o2 := offs_get maps h (i + 1) (by omega)
      rw [e1, pyGet_natCast, pyGet_natCast, o1, o2]
      simp only [Option.isNone_some, Bool.false_eq_true, or_self, if_false]
      rw [C64_get maps h i c, ih (i + 1) (by omega) (by omega)]
      simp only [Option.bind_eq_bind, Option.bind_some, Option.pure_def]
      rw [← List.drop_eq_getElem_cons c]
    · have e2 : i = maps.length := by omega
      have o2 : (multimap maps).offs[i + 1]? = none := by
        rw [List.getElem?_eq_none]; rw [offs_end]; omega
      rw [e1, pyGet_natCast, pyGet_natCast, o2]
      simp [e2]

/-- C177: iterating over the maps of a multimap gives all of them once, in order, and then ends. -/
theorem C177_iter (maps : List (Map2 α)) (h : ∀ m ∈ maps, m.Ok) : (multimap maps).iter = some maps := by
  unfold Multimap.iter
  rw [iterFrom_eq maps h _ 0 (by omega) (by simp [multimap])]
  simp

/-- C177: mean, median, max, min, var and std give one value for each map, that of its own pixels. -/
theorem C177_reduce (maps : List (Map2 α)) (h : ∀ m ∈ maps, m.Ok) (op : List α → β) :
    (multimap maps).reduce op = some (maps.map fun m => op m.rows.flatten) := by
  unfold Multimap.reduce
  rw [C177_iter maps h]
  rfl

example : (multimap [⟨1, 2, [[1, 2]]⟩, ⟨2, 1, [[3], [4]]⟩]).reduce List.sum = some [3, 7] := by decide

/-- C177: a multimap without maps cannot be made. -/
theorem C177_empty_refuted : multimapNew ([] : List (Map2 α)) = none := by simp [multimapNew]

/-- C177: a negative position is not counted from the end. If all maps have the same shape, `maps[-k]` is for k ≥ 2 the map after the
one meant, for every number of maps: `maps[-2]` is the last one. -/
theorem C177_negative_refuted (maps : List (Map2 α)) (h : ∀ m ∈ maps, m.Ok) {ny nx : ℕ} (hs : ∀ m ∈ maps, m.ny = ny ∧ m.nx = nx)
    {k : ℕ} (h2 : 2 ≤ k) (hk : k ≤ maps.length) :
    (multimap maps).get (-(k : ℤ)) = some (maps[maps.length - k + 1]'(by omega)) := by
  have hj : maps.length - k + 1 < maps.length := by omega
  set j := maps.length - k + 1 with hjd
  have key := C64_get maps h j hj
  unfold Multimap.get at key ⊢
  have e1 : ((j : ℤ) + 1) = ((j + 1 : ℕ) : ℤ) := by push_cast; rfl
  have o1 : pyGet (multimap maps).offs (-(k : ℤ)) = pyGet (multimap maps).offs (j : ℤ) := by
    rw [pyGet_natCast]
    unfold pyGet
    rw [if_neg (by omega), offs_end, if_pos (by push_cast; omega)]
    congr 1
    push_cast
    omega
  have o2 : pyGet (multimap maps).offs (-(k : ℤ) + 1) = pyGet (multimap maps).offs ((j : ℤ) + 1) := by
    rw [e1, pyGet_natCast]
    unfold pyGet
    rw [if_neg (by omega), offs_end, if_pos (by push_cast; omega)]
    congr 1
    push_cast
    omega
  have gl : ∀ i : ℕ, i < maps.length → (multimap maps).geos[i]? = some (ny, nx) := by
    intro i hi
    have := hs maps[i] (List.getElem_mem hi)
    simp [multimap, hi, this.1, this.2]
  have g1 : pyGet (multimap maps).geos (-(k : ℤ)) = pyGet (multimap maps).geos (j : ℤ) := by
    rw [pyGet_natCast, gl j hj]
    unfold pyGet
    have gll : (multimap maps).geos.length = maps.length := by simp [multimap]
    rw [if_neg (by omega), gll, if_pos (by omega)]
    exact gl _ (by omega)
  rw [o1, o2, g1]
  exact key

example : (multimap [⟨1, 1, [[1]]⟩, ⟨1, 1, [[2]]⟩, ⟨1, 1, [[3]]⟩]).get (-3) = some ⟨1, 1, [[2]]⟩ ∧
    (multimap [⟨1, 1, [[1]]⟩, ⟨1, 1, [[2]]⟩, ⟨1, 1, [[3]]⟩]).get (-2) = some ⟨1, 1, [[3]]⟩ := by decide

/-! ### full with components -/

theorem mapM_some_of {γ δ : Type} (f : γ → Option δ) (g : γ → δ) (l : List γ) (h : ∀ a ∈ l, f a = some (g a)) :
    l.mapM f = some (l.map g) := by
  induction l with
  | nil => rfl
  | cons a l ih =>
    rw [List.mapM_cons, h a (by simp), ih (fun b hb => h b (by simp [hb]))]
    rfl

theorem mapM_none_of {γ δ : Type} (f : γ → Option δ) (l : List γ) {a : γ} (ha : a ∈ l) (h : f a = none) : l.mapM f = none := by
  induction l with
  | nil => simp at ha
  | cons b l ih =>
    rw [List.mapM_cons]
    rcases List.mem_cons.1 ha with rfl | ha
    · rw [h]; rfl
    · rw [ih ha]
      cases f b <;> rfl

/-- C177: with one component, full gives every pixel of every map the value for its map. -/
theorem C177_full_partial (geos : List (ℕ × ℕ)) (val : ℕ → ℕ → α) :
    ∃ r, multimapFullC 1 geos val = some r ∧ r.length = geos.length ∧
      ∀ i (h : i < r.length) (hg : i < geos.length) y x, x < geos[i].2 → r[i] 0 y x = val 0 i := by
  refine ⟨(List.range geos.length).map fun (i : ℕ) => if 1 = (geos.getD i (0, 0)).2 then (fun _ _ x => val x i) else fun _ _ _ => val 0 i, ?_,
    by simp, ?_⟩
  · unfold multimapFullC
    apply mapM_some_of
    intro i _
    unfold fillComponents
    by_cases c : 1 = (geos.getD i (0, 0)).2
    · rw [if_pos c, if_pos c]
    · rw [if_neg c, if_neg c]; simp
  · intro i h hg y x hx
    simp only [List.getElem_map, List.getElem_range]
    have e : geos.getD i (0, 0) = geos[i] := by simp [hg]
    rw [e]
    by_cases c : 1 = geos[i].2
    · rw [if_pos c]
      have : x = 0 := by omega
      rw [this]
    · rw [if_neg c]

/-- C177: with several components, full raises as soon as one map has another number of columns than there are components, for
every value, also a single number. -/
theorem C177_full_refuted {np : ℕ} (hnp : 2 ≤ np) (geos : List (ℕ × ℕ)) (val : ℕ → ℕ → α) {g : ℕ × ℕ} (hg : g ∈ geos) (hx : g.2 ≠ np) :
    multimapFullC np geos val = none := by
  obtain ⟨i, hi, rfl⟩ := List.mem_iff_getElem.1 hg
  unfold multimapFullC
  apply mapM_none_of _ _ (a := i) (by simpa using hi)
  have e : geos.getD i (0, 0) = geos[i] := by simp [hi]
  rw [e]
  unfold fillComponents
  rw [if_neg (fun c => hx c.symm), if_neg (by omega)]

/-- C177: and if the numbers agree, column x of every component gets the value that was given for component x. -/
theorem C177_full_columns_refuted {np : ℕ} (geos : List (ℕ × ℕ)) (val : ℕ → ℕ → α) (hx : ∀ g ∈ geos, g.2 = np) :
    ∃ r, multimapFullC np geos val = some r ∧ ∀ i (_ : i < r.length) c y x, r[i] c y x = val x i := by
  refine ⟨(List.range geos.length).map fun (i : ℕ) => fun _ _ x => val x i, ?_, ?_⟩
  · unfold multimapFullC
    apply mapM_some_of
    intro i hi
    have hi : i < geos.length := by simpa using hi
    have e : geos.getD i (0, 0) = geos[i] := by simp [hi]
    rw [e]
    unfold fillComponents
    rw [if_pos (hx _ (List.getElem_mem hi)).symm]
  · intro i h c y x
    simp

example : ∀ g ∈ [(5, 3), (2, 3)], g.2 = 3 := by decide
example : multimapFullC 3 [(5, 4)] (fun _ _ => 7) = none := by decide

/-! ### Methods -/

/-- C177: the methods lmap and modlmap of a multimap raise, whatever its maps; and so does pixmap if there are any. -/
theorem C177_methods_refuted {G P : Type} (f : G → P) (geos : List G) :
    ndmapsLmap f geos = none ∧ ndmapsModlmap f geos = none ∧ (geos ≠ [] → mmPixmap f geos = none) := by
  refine ⟨?_, ?_, ?_⟩
  · unfold ndmapsLmap mmLmap pyCall
    rw [if_neg (by decide)]
  · unfold ndmapsModlmap pyCall
    rw [if_neg (by decide)]
  · intro h
    obtain ⟨g, t, rfl⟩ := List.exists_cons_of_ne_nil h
    unfold mmPixmap
    apply mapM_none_of _ _ (a := g) (by simp)
    unfold pyCall
    rw [if_neg (by decide)]

/-- C177: posmap(safe=False) gives the safe positions, and modrmap(corner=True) the distances of the centres: for any two different
answers of the function for a single map, the multimap gives the wrong one. -/
theorem C177_arguments_refuted {G P : Type} (f : Bool → Bool → G → P) (g : G) (corner safe : Bool)
    (h : f false corner g ≠ f true corner g) (h' : f safe true g ≠ f safe false g) :
    ndmapsPosmap f [g] false corner ≠ [f false corner g] ∧ ndmapsModrmap f [g] safe true ≠ [f safe true g] := by
  constructor
  · simp only [ndmapsPosmap, List.map_cons, List.map_nil, ne_eq, List.cons.injEq, and_true]
    exact fun e => h e.symm
  · simp only [ndmapsModrmap, List.map_cons, List.map_nil, ne_eq, List.cons.injEq, and_true]
    exact fun e => h' e.symm

example : (fun (a b : Bool) (_ : Unit) => (a, b)) false true () ≠ (fun (a b : Bool) (_ : Unit) => (a, b)) true true () := by decide

end Pixell
