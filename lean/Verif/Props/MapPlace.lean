import Verif.Model.MapPlace
import Mathlib.Tactic.Linarith
import Mathlib.Tactic.Ring

/-
Property C126: padded slices and stamps contain the values of the map at their positions and the fill value elsewhere; tiled maps
contain their tiles; overlap is the common region; argmax is the position of the largest value.
-/
namespace Pixell

/-! ### Padded slices -/

/-- C126: padslice gives a map of the size of the box for all boxes, inside, outside or across the edges of the map. Each pixel is that
of the map at the same position, or filled where the map has none. -/
theorem C126_padslice (n : Nat) (b0 b1 : ℤ) (h : b0 ≤ b1) :
    ∃ f, padAxis n b0 b1 = some (b1 - b0, f) ∧
      ∀ i, 0 ≤ i → i < b1 - b0 → f i = if 0 ≤ b0 + i ∧ b0 + i < n then some (b0 + i) else none := by
  unfold padAxis
  simp only
  rw [if_neg (by omega)]
  have hs : ∀ i m : ℤ, sliceBound i m = if i < 0 then max (i + m) 0 else min i m := fun _ _ => rfl
  rw [if_neg (by rw [hs, hs]; split_ifs <;> omega)]
  refine ⟨_, rfl, fun i h0 h1 => ?_⟩
  simp only [hs]
  by_cases hin : 0 ≤ b0 + i ∧ b0 + i < n
  · rw [if_pos hin, if_pos (by split_ifs <;> omega)]
    congr 1
    split_ifs <;> omega
  · rw [if_neg hin, if_neg (by split_ifs <;> omega)]

/-- C126: a box that ends before it begins is an error. -/
theorem C126_padslice_error (n : Nat) (b0 b1 : ℤ) (h : b1 < b0) : padAxis n b0 b1 = none := by
  unfold padAxis
  simp only
  rw [if_pos (by omega)]

/-- C126: the pixels of a padded slice keep their coordinates. -/
theorem C126_padslice_wcs (w : Axis) (b0 : ℤ) (i : ℚ) : (padsliceWcs w b0).pix2sky i = w.pix2sky (b0 + i) := by
  unfold padsliceWcs Axis.pix2sky; simp only; ring

/-- C126: stamps with corners at whole pixels have the shape asked for; also at fractional positions that are not negative. -/
theorem C126_stamps (p : ℚ) (s : Nat) (h : 0 ≤ p ∨ ∃ k : ℤ, p = k) : (stampBox p s).2 - (stampBox p s).1 = s := by
  unfold stampBox intTrunc
  rcases h with h | ⟨k, rfl⟩
  · have hs : (0 : ℚ) ≤ p + s := by positivity
    simp only
    rw [if_pos hs, if_pos h]
    have : ⌊p + (s : ℚ)⌋ = ⌊p⌋ + s := by
      rw [show (s : ℚ) = ((s : ℤ) : ℚ) by push_cast; rfl, Int.floor_add_intCast]
    omega
  · have e : ((k : ℚ) + s) = ((k + s : ℤ) : ℚ) := by push_cast; rfl
    simp only [e]
    split_ifs <;> simp only [Int.floor_intCast, Int.ceil_intCast] <;> omega

/-- C126 refuted for stamps at fractional positions across the edge of the map: they are one pixel short, so that the stamps cannot
be joined in one array. -/
theorem C126_stamps_refuted : stampBox (-1 / 2) 10 = (0, 9) ∧ stampBox (1 / 2) 10 = (0, 10) := by decide +kernel

/-! ### Tiles -/

theorem concatX_spec {α : Type} : ∀ (row : List (List (List α))) (r : List (List α)), concatX row = some r →
    (∀ m ∈ row, m.length = r.length) ∧
    ∀ (c : Nat) (m : List (List α)), row[c]? = some m → ∀ (y x : Nat) (l : List α) (v : α), m[y]? = some l → l[x]? = some v →
      ∃ l', r[y]? = some l' ∧ l'[((row.take c).map fun t => (t.getD y []).length).sum + x]? = some v := by
  intro row
  induction row with
  | nil => intro r h; exact absurd h (by simp [concatX])
  | cons a rest ih =>
    intro r h
    cases rest with
    | nil =>
      have : a = r := Option.some.inj h
      subst this
      refine ⟨fun m hm => by rw [List.mem_singleton.mp hm], ?_⟩
      intro c m hm y x l v hl hv
      cases c with
      | zero =>
        have : a = m := by simpa using hm
        subst this
        exact ⟨l, hl, by simpa using hv⟩
      | succ c => simp at hm
    | cons b l0 =>
      simp only [concatX, Option.bind_eq_bind] at h
      cases hr : concatX (b :: l0) with
      | none => rw [hr] at h; exact absurd h (by simp)
      | some r0 =>
        rw [hr, Option.bind_some] at h
        by_cases hlen : a.length = r0.length
        · rw [if_neg (by simpa using hlen)] at h
          have hr' := Option.some.inj h
          subst hr'
          obtain ⟨h1, h2⟩ := ih r0 hr
          have hzl : (List.zipWith (· ++ ·) a r0).length = r0.length := by rw [List.length_zipWith, hlen, min_self]
          refine ⟨?_, ?_⟩
          · intro m hm
            rw [hzl]
            rcases List.mem_cons.mp hm with rfl | hm
            · exact hlen
            · exact h1 m hm
          · intro c m hm y x l v hl hv
            cases c with
            | zero =>
              have : a = m := by simpa using hm
              subst this
              have hy : y < a.length := (List.getElem?_eq_some_iff.mp hl).1
              have hx : x < l.length := (List.getElem?_eq_some_iff.mp hv).1
              obtain ⟨l2, hl2⟩ : ∃ l2, r0[y]? = some l2 := ⟨r0[y]'(hlen ▸ hy), List.getElem?_eq_getElem _⟩
              refine ⟨l ++ l2, ?_, ?_⟩
              · rw [List.getElem?_zipWith, hl, hl2]
              · simp only [List.take_zero, List.map_nil, List.sum_nil, zero_add]
                rw [List.getElem?_append_left hx]; exact hv
            | succ c =>
              rw [List.getElem?_cons_succ] at hm
              obtain ⟨l', e1, e2⟩ := h2 c m hm y x l v hl hv
              have hy : y < r0.length := (List.getElem?_eq_some_iff.mp e1).1
              have hya : a[y]? = some (a[y]'(hlen ▸ hy)) := List.getElem?_eq_getElem _
              refine ⟨a[y]'(hlen ▸ hy) ++ l', ?_, ?_⟩
              · rw [List.getElem?_zipWith, hya, e1]
              · rw [List.take_succ_cons, List.map_cons, List.sum_cons]
                have hg : a.getD y [] = a[y]'(hlen ▸ hy) := by rw [List.getD_eq_getElem?_getD, hya]; rfl
                rw [hg, Nat.add_assoc, List.getElem?_append_right (by omega), Nat.add_sub_cancel_left]
                exact e2
        · rw [if_pos hlen] at h
          exact absurd h (by simp)

theorem flatten_get {α : Type} : ∀ (rows : List (List α)) (k : Nat) (r : List α) (y : Nat) (v : α), rows[k]? = some r → r[y]? = some v →
    rows.flatten[((rows.take k).map List.length).sum + y]? = some v := by
  intro rows
  induction rows with
  | nil => intro k r y v h; simp at h
  | cons a l ih =>
    intro k r y v h1 h2
    cases k with
    | zero =>
      have : a = r := by simpa using h1
      subst this
      simp only [List.take_zero, List.map_nil, List.sum_nil, zero_add, List.flatten_cons]
      rw [List.getElem?_append_left (List.getElem?_eq_some_iff.mp h2).1]; exact h2
    | succ k =>
      rw [List.getElem?_cons_succ] at h1
      rw [List.take_succ_cons, List.map_cons, List.sum_cons, List.flatten_cons, Nat.add_assoc,
        List.getElem?_append_right (by omega), Nat.add_sub_cancel_left]
      exact ih k r y v h1 h2

theorem mapM_get {α β : Type} (f : α → Option β) : ∀ (l : List α) (r : List β), l.mapM f = some r →
    r.length = l.length ∧ ∀ (k : Nat) (a : α), l[k]? = some a → ∃ b, r[k]? = some b ∧ f a = some b := by
  intro l
  induction l with
  | nil => intro r h; have : ([] : List β) = r := by simpa using h
           subst this; simp
  | cons a l ih =>
    intro r h
    rw [List.mapM_cons] at h
    simp only [Option.bind_eq_bind, Option.pure_def, Option.bind_eq_some_iff, Option.some.injEq] at h
    obtain ⟨b, hb, r', hr', rfl⟩ := h
    obtain ⟨h1, h2⟩ := ih r' hr'
    refine ⟨by simp [h1], ?_⟩
    intro k x hx
    cases k with
    | zero =>
      have : a = x := by simpa using hx
      subst this
      exact ⟨b, by simp, hb⟩
    | succ k => simpa using h2 k x (by simpa using hx)

/-- C126: every pixel of every tile is in the joined map, above the rows of tiles before its own and to the right of the tiles before
it in its row. -/
theorem C126_tiles {α : Type} (maps : List (List (List (List α)))) (g : List (List α)) (h : tileMaps maps = some g)
    (w : Nat → Nat → Nat) (r c : Nat) (row : List (List (List α))) (m : List (List α)) (hr : maps[r]? = some row) (hc : row[c]? = some m)
    (hw : ∀ c t, row[c]? = some t → RowsOf (w r c) t) (y x : Nat) (l : List α) (v : α) (hy : m[y]? = some l) (hx : l[x]? = some v) :
    ∃ l', g[((maps.take r).map fun row => (row.headD []).length).sum + y]? = some l' ∧
      l'[((List.range c).map (w r)).sum + x]? = some v := by
  unfold tileMaps at h
  simp only [Option.bind_eq_bind, Option.bind_eq_some_iff] at h
  obtain ⟨rows, hrows, h⟩ := h
  obtain ⟨hlen, hget⟩ := mapM_get concatX maps rows hrows
  have hg : rows.flatten = g := by
    cases rows with
    | nil => exact absurd h (by simp)
    | cons a rs =>
      simp only at h
      split_ifs at h
      exact Option.some.inj h
  obtain ⟨j, hj, hcat⟩ := hget r row hr
  obtain ⟨h1, h2⟩ := concatX_spec row j hcat
  obtain ⟨l', e1, e2⟩ := h2 c m hc y x l v hy hx
  refine ⟨l', ?_, ?_⟩
  · rw [← hg]
    have hs : ((rows.take r).map List.length) = (maps.take r).map fun row => (row.headD []).length := by
      apply List.ext_getElem?
      intro k
      rw [List.getElem?_map, List.getElem?_map]
      by_cases hk : k < r
      · rw [List.getElem?_take_of_lt hk, List.getElem?_take_of_lt hk]
        cases hm : maps[k]? with
        | none =>
          have : rows[k]? = none := by
            rw [List.getElem?_eq_none_iff, hlen]; exact List.getElem?_eq_none_iff.mp hm
          rw [this]; rfl
        | some rk =>
          obtain ⟨b, hb, hcb⟩ := hget k rk hm
          rw [hb]
          simp only [Option.map_some, Option.some.injEq]
          cases rk with
          | nil => exact absurd hcb (by simp [concatX])
          | cons t ts => exact ((concatX_spec _ _ hcb).1 t (List.mem_cons_self)).symm
      · rw [List.getElem?_eq_none (by rw [List.length_take]; omega), List.getElem?_eq_none (by rw [List.length_take]; omega)]; rfl
    rw [← hs]
    exact flatten_get rows r j y l' hj e1
  · have hs : ((row.take c).map fun t => (t.getD y []).length) = (List.range c).map (w r) := by
      have hcl : c < row.length := (List.getElem?_eq_some_iff.mp hc).1
      have hyl : y < m.length := (List.getElem?_eq_some_iff.mp hy).1
      have hmj := h1 m (List.mem_of_getElem? hc)
      apply List.ext_getElem?
      intro k
      rw [List.getElem?_map, List.getElem?_map]
      by_cases hk : k < c
      · rw [List.getElem?_take_of_lt hk, List.getElem?_range hk, List.getElem?_eq_getElem (by omega : k < row.length)]
        simp only [Option.map_some, Option.some.injEq]
        have ht := hw k row[k] (List.getElem?_eq_getElem (by omega))
        have htl := h1 row[k] (List.getElem_mem _)
        rw [List.getD_eq_getElem?_getD, List.getElem?_eq_getElem (by omega : y < row[k].length)]
        exact ht _ (List.getElem_mem _)
      · rw [List.getElem?_eq_none (by rw [List.length_take]; omega), List.getElem?_eq_none (by rw [List.length_range]; omega)]; rfl
    rw [← hs]
    exact e2

/-! ### Overlap -/

/-- C126: without wrapping the overlap is the common part of the map and the box. -/
theorem C126_overlap (n b0 b1 i : ℤ) :
    ((overlapAxis n 0 b0 b1).1 ≤ i ∧ i < (overlapAxis n 0 b0 b1).2) ↔ ((0 ≤ i ∧ i < n) ∧ (b0 ≤ i ∧ i < b1)) := by
  unfold overlapAxis
  simp only [true_or, and_true]
  split_ifs <;> omega

/-- C126: with wrapping nothing of the common part is lost. -/
theorem C126_overlap_wrap_partial (n wrap b0 b1 i k : ℤ) (hw : 0 < wrap) (hn : n ≤ wrap) (h0 : b0 ≤ i) (h1 : i < b1)
    (hi : 0 ≤ i + k * wrap) (hi' : i + k * wrap < n) :
    (overlapAxis n wrap b0 b1).1 ≤ i ∧ i < (overlapAxis n wrap b0 b1).2 := by
  unfold overlapAxis
  simp only
  have hk : ∀ z : ℤ, z < 0 → n ≤ b0 + wrap → b0 ≤ z → z = i → False := by
    intro z hz hb hbz hzi
    subst hzi
    rcases le_or_gt k 0 with h | h
    · nlinarith
    · nlinarith
  have hk' : ∀ z : ℤ, n ≤ z → b1 - wrap ≤ 0 → z < b1 → z = i → False := by
    intro z hz hb hbz hzi
    subst hzi
    rcases le_or_gt 0 k with h | h
    · nlinarith
    · nlinarith
  have a1 : (if b0 < 0 ∧ (wrap = 0 ∨ n ≤ b0 + wrap) then 0 else b0) ≤ i := by
    split_ifs with h
    · by_contra hlt
      rcases h.2 with h' | h'
      · omega
      · exact hk i (by omega) h' h0 rfl
    · exact h0
  have a2 : i < (if n < b1 ∧ (wrap = 0 ∨ b1 - wrap ≤ 0) then n else b1) := by
    split_ifs with h
    · by_contra hlt
      rcases h.2 with h' | h'
      · omega
      · exact hk' i (by omega) h' h1 rfl
    · exact h1
  exact ⟨a1, lt_max_of_lt_left a2⟩

/-- C126: for a map all the way around any box is kept. -/
theorem C126_overlap_full (n b0 b1 : ℤ) (hn : 0 < n) (h : b0 ≤ b1) : overlapAxis n n b0 b1 = (b0, b1) := by
  unfold overlapAxis
  simp only
  rw [if_neg (by omega), if_neg (by omega), max_eq_left h]

/-- C126 refuted for maps that do not go around: a box that reaches the far end of the map by wrapping is kept with everything in
between. -/
theorem C126_overlap_refuted : overlapAxis 100 360 (-270) 5 = (-270, 5) ∧ ¬ ∃ k : ℤ, 0 ≤ (-200 : ℤ) + k * 360 ∧ (-200 : ℤ) + k * 360 < 100 := by
  refine ⟨by decide, ?_⟩
  rintro ⟨k, h1, h2⟩
  omega

/-- C126 refuted: a box given as an array is changed by the call. -/
theorem C126_overlap_argument_refuted : overlapAxis 100 0 (-5) 10 ≠ (-5, 10) := by decide

/-- C126: the wrapping length is a whole number of turns and at least the width of the map. -/
theorem C126_wrap (n : Nat) (cdelt : ℚ) (h : 0 < rint (360 / |cdelt|)) :
    (∃ k : ℤ, overlapWrap n cdelt = k * rint (360 / |cdelt|)) ∧ (n : ℤ) ≤ overlapWrap n cdelt := by
  unfold overlapWrap
  simp only
  set p := rint (360 / |cdelt|)
  refine ⟨⟨_, mul_comm _ _⟩, ?_⟩
  rw [Int.fdiv_eq_ediv_of_nonneg _ h.le]
  have h1 := Int.emod_lt_of_pos (p + n - 1) h
  have h2 := Int.mul_ediv_add_emod (p + n - 1) p
  omega

/-! ### The largest value -/

theorem argmaxTo_spec (f : Nat → ℚ) : ∀ n, 0 < n → argmaxTo f n < n ∧ (∀ i, i < n → f i ≤ f (argmaxTo f n)) ∧
    ∀ i, i < argmaxTo f n → f i < f (argmaxTo f n) := by
  intro n
  induction n with
  | zero => intro h; omega
  | succ n ih =>
    intro _
    by_cases hn : n = 0
    · subst hn
      simp only [argmaxTo]
      refine ⟨by simp, fun i hi => ?_, fun i hi => ?_⟩
      · have : i = 0 := by omega
        subst this; simp
      · simp at hi
    · obtain ⟨h1, h2, h3⟩ := ih (by omega)
      simp only [argmaxTo]
      split_ifs with h
      · refine ⟨by omega, fun i hi => ?_, fun i hi => ?_⟩
        · by_cases e : i = n
          · rw [e]
          · exact (h2 i (by omega)).trans h.2.le
        · exact (h2 i hi).trans_lt h.2
      · have hle : f n ≤ f (argmaxTo f n) := by
          by_contra hlt
          exact h ⟨hn, not_le.mp hlt⟩
        refine ⟨by omega, fun i hi => ?_, h3⟩
        by_cases e : i = n
        · rw [e]; exact hle
        · exact h2 i (by omega)

/-- C126: argmax is a pixel of the map with the largest value, and the first one of them in the order of the rows. -/
theorem C126_argmax (ny nx : Nat) (m : Nat → Nat → ℚ) (hy : 0 < ny) (hx : 0 < nx) :
    (argmaxMap ny nx m).1 < ny ∧ (argmaxMap ny nx m).2 < nx ∧
    ∀ y x, y < ny → x < nx → m y x ≤ m (argmaxMap ny nx m).1 (argmaxMap ny nx m).2 ∧
      (m y x = m (argmaxMap ny nx m).1 (argmaxMap ny nx m).2 →
        (argmaxMap ny nx m).1 < y ∨ ((argmaxMap ny nx m).1 = y ∧ (argmaxMap ny nx m).2 ≤ x)) := by
  obtain ⟨h1, h2, h3⟩ := argmaxTo_spec (fun i => m (i / nx) (i % nx)) (ny * nx) (Nat.mul_pos hy hx)
  unfold argmaxMap
  simp only
  set r := argmaxTo (fun i => m (i / nx) (i % nx)) (ny * nx)
  refine ⟨?_, Nat.mod_lt _ hx, fun y x hy' hx' => ?_⟩
  · rw [Nat.div_lt_iff_lt_mul hx]; exact h1
  · have hi : y * nx + x < ny * nx := by
      calc y * nx + x < y * nx + nx := by omega
        _ = (y + 1) * nx := by ring
        _ ≤ ny * nx := Nat.mul_le_mul_right _ hy'
    have e1 : (y * nx + x) / nx = y := by
      rw [Nat.mul_comm, Nat.mul_add_div hx, Nat.div_eq_of_lt hx', Nat.add_zero]
    have e2 : (y * nx + x) % nx = x := by rw [Nat.mul_comm, Nat.mul_add_mod, Nat.mod_eq_of_lt hx']
    have h2' := h2 _ hi
    simp only [e1, e2] at h2'
    refine ⟨h2', fun heq => ?_⟩
    have hle : r ≤ y * nx + x := by
      by_contra hlt
      have := h3 _ (not_le.mp hlt)
      simp only [e1, e2] at this
      exact absurd heq this.ne
    have hd : r / nx ≤ y := by
      rw [← e1]; exact Nat.div_le_div_right hle
    rcases lt_or_eq_of_le hd with h | h
    · exact Or.inl h
    · refine Or.inr ⟨h, ?_⟩
      have := Nat.div_add_mod r nx
      rw [h, Nat.mul_comm] at this
      omega

example : (padAxis 4 (-2) 3).map (fun r => (r.1, (List.range 5).map fun i => r.2 (i : ℤ))) =
    some (5, [none, none, some 0, some 1, some 2]) := by decide
example : tileMaps [[[[1, 2]], [[3]]], [[[4], [7]], [[5, 6], [8, 9]]]] = some [[1, 2, 3], [4, 5, 6], [7, 8, 9]] := by decide
example : argmaxMap 2 3 (fun y x => if y = 1 ∧ 1 ≤ x then 5 else y + x) = (1, 1) := by decide +kernel

end Pixell
