import Mathlib.Tactic.Linarith
import Mathlib.Data.List.GetD
import Verif.Model.Multimap
import Verif.Lemmas.Sht
import Verif.Props.Index

/-
Property C64: multimaps.
-/
namespace Pixell

variable {α : Type}

theorem pyGet_natCast {β : Type} (b : List β) (i : Nat) : pyGet b i = b[i]? := by
  unfold pyGet
  simp

theorem flatten_rows_length (rows : List (List α)) (nx : Nat) (h : ∀ r ∈ rows, r.length = nx) :
    rows.flatten.length = rows.length * nx := by
  induction rows with
  | nil => simp
  | cons r rows ih =>
    rw [List.flatten_cons, List.length_append, h r (by simp), ih (fun x hx => h x (List.mem_cons_of_mem _ hx))]
    simp; ring

theorem flatten_rows_get (rows : List (List α)) (nx : Nat) (h : ∀ r ∈ rows, r.length = nx) (y : Nat) (hy : y < rows.length) :
    (rows.flatten.drop (y * nx)).take nx = rows[y] := by
  induction rows generalizing y with
  | nil => simp at hy
  | cons r rows ih =>
    have hr := h r (by simp)
    cases y with
    | zero => simp [← hr]
    | succ y =>
      have : (y + 1) * nx = r.length + y * nx := by rw [hr]; ring
      rw [List.flatten_cons, this, List.drop_append, List.drop_eq_nil_of_le (by omega), List.nil_append,
        Nat.add_sub_cancel_left]
      exact ih (fun x hx => h x (List.mem_cons_of_mem _ hx)) y (by simpa using hy)

/-- Flattening a map and reshaping it back. -/
theorem reshape2_flatten (m : Map2 α) (hm : m.Ok) : reshape2 m.ny m.nx m.rows.flatten = some m := by
  unfold reshape2
  rw [if_pos (by rw [flatten_rows_length m.rows m.nx hm.2, hm.1])]
  congr 1
  have : (List.range m.ny).map (fun y => (m.rows.flatten.drop (y * m.nx)).take m.nx) = m.rows := by
    apply List.ext_getElem
    · simp [hm.1]
    · intro y h1 h2
      rw [List.getElem_map, List.getElem_range]
      exact flatten_rows_get m.rows m.nx hm.2 y h2
  rw [this]

theorem offs_get (maps : List (Map2 α)) (h : ∀ m ∈ maps, m.Ok) (i : Nat) (hi : i ≤ maps.length) :
    (multimap maps).offs[i]? = some ((maps.take i).map fun m => m.rows.flatten.length).sum := by
  unfold Multimap.offs multimap
  rw [(C73_cumsum _).1, List.map_map, List.getElem?_map, List.getElem?_range (by simp; omega)]
  simp only [Option.map_some]
  congr 1
  rw [← List.map_take]
  congr 1
  apply List.map_congr_left
  intro m hm
  have := h m (List.mem_of_mem_take hm)
  simp only [Function.comp]
  rw [flatten_rows_length m.rows m.nx this.2, this.1]

theorem take_drop_flatten {β : Type} (bs : List (List β)) (i : Nat) (hi : i < bs.length) :
    (bs.flatten.take ((bs.take (i + 1)).map List.length).sum).drop ((bs.take i).map List.length).sum = bs[i] ∧
    bs.flatten.take ((bs.take i).map List.length).sum = (bs.take i).flatten ∧
    bs.flatten.drop ((bs.take (i + 1)).map List.length).sum = (bs.drop (i + 1)).flatten := by
  have e : bs = bs.take i ++ bs[i] :: bs.drop (i + 1) := by
    rw [List.cons_getElem_drop_succ, List.take_append_drop]
  have h1 : ((bs.take (i + 1)).map List.length).sum = ((bs.take i).map List.length).sum + bs[i].length := by
    rw [List.take_succ_eq_append_getElem hi, List.map_append, List.sum_append]; simp
  have hl : ((bs.take i).flatten).length = ((bs.take i).map List.length).sum := by rw [List.length_flatten]
  have hf : bs.flatten = (bs.take i).flatten ++ (bs[i] ++ (bs.drop (i + 1)).flatten) := by
    conv_lhs => rw [e]
    rw [List.flatten_append, List.flatten_cons]
  rw [h1, hf, ← hl]
  refine ⟨?_, ?_, ?_⟩
  · simp [List.take_append, List.drop_append]
  · simp [List.take_append]
  · simp [List.drop_append]

/-- C64: each map of a multimap reads back. -/
theorem C64_get (maps : List (Map2 α)) (h : ∀ m ∈ maps, m.Ok) (i : Nat) (hi : i < maps.length) :
    (multimap maps).get i = some maps[i] := by
  unfold Multimap.get
  have e1 : ((i : Int) + 1) = ((i + 1 : Nat) : Int) := by push_cast; rfl
  rw [e1, pyGet_natCast, pyGet_natCast, pyGet_natCast, offs_get maps h i (by omega), offs_get maps h (i + 1) (by omega)]
  have hg : (multimap maps).geos[i]? = some (maps[i].ny, maps[i].nx) := by
    simp [multimap, hi]
  rw [hg]
  simp only [Option.bind_eq_bind, Option.bind_some]
  have := (take_drop_flatten (maps.map fun m => m.rows.flatten) i (by simpa using hi)).1
  rw [← List.map_take, List.map_map, ← List.map_take, List.map_map, List.getElem_map] at this
  simp only [Function.comp_def] at this
  have hflat : (multimap maps).flat = (maps.map fun m => m.rows.flatten).flatten := rfl
  rw [hflat, this, reshape2_flatten _ (h _ (List.getElem_mem hi))]

/-- C64: assigning map `i` of a multimap gives the multimap of the list with this map replaced, so the others are
unchanged. -/
theorem C64_set (maps : List (Map2 α)) (h : ∀ m ∈ maps, m.Ok) (i : Nat) (hi : i < maps.length) (m : Map2 α) (hm : m.Ok)
    (hs : m.ny = maps[i].ny ∧ m.nx = maps[i].nx) :
    (multimap maps).set i m = some (multimap (maps.set i m)) ∧
    ∃ mm, (multimap maps).set i m = some mm ∧ mm.get i = some m ∧
      ∀ j (hj : j < maps.length), j ≠ i → mm.get j = some maps[j] := by
  have main : (multimap maps).set i m = some (multimap (maps.set i m)) := by
    unfold Multimap.set
    have e1 : ((i : Int) + 1) = ((i + 1 : Nat) : Int) := by push_cast; rfl
    rw [e1, pyGet_natCast, pyGet_natCast, pyGet_natCast, offs_get maps h i (by omega), offs_get maps h (i + 1) (by omega)]
    have hg : (multimap maps).geos[i]? = some (maps[i].ny, maps[i].nx) := by
      simp [multimap, hi]
    rw [hg]
    simp only [Option.bind_eq_bind, Option.bind_some]
    obtain ⟨t1, t2, t3⟩ := take_drop_flatten (maps.map fun m => m.rows.flatten) i (by simpa using hi)
    rw [← List.map_take, List.map_map, ← List.map_take, List.map_map, List.getElem_map] at t1
    rw [← List.map_take, List.map_map] at t2
    rw [← List.map_take, List.map_map] at t3
    simp only [Function.comp_def] at t1 t2 t3
    have hflat : (multimap maps).flat = (maps.map fun m => m.rows.flatten).flatten := rfl
    rw [hflat, t1, reshape2_flatten _ (h _ (List.getElem_mem hi)), Option.bind_some, if_pos hs, t2, t3]
    congr 1
    unfold multimap
    congr 1
    · rw [List.set_eq_take_append_cons_drop, if_pos hi]
      simp [List.map_drop]
    · rw [List.map_set]
      rw [hs.1, hs.2]
      symm
      apply List.ext_getElem
      · simp
      · intro j h1 h2
        rw [List.getElem_set]
        split_ifs with hc
        · subst hc; simp
        · rfl
  have hok : ∀ x ∈ maps.set i m, x.Ok := by
    intro x hx
    rcases List.mem_or_eq_of_mem_set hx with hx | hx
    · exact h x hx
    · rw [hx]; exact hm
  refine ⟨main, _, main, ?_, ?_⟩
  · rw [C64_get _ hok i (by simpa using hi)]; simp
  · intro j hj hne
    rw [C64_get _ hok j (by simpa using hj), List.getElem_set_ne (fun e => hne e.symm)]

/-- C64: the maps fill the flat array: every position belongs to exactly one map, and the length is the sum of the
sizes. -/
theorem C64_partition (maps : List (Map2 α)) (h : ∀ m ∈ maps, m.Ok) :
    (multimap maps).flat.length = (maps.map fun m => m.ny * m.nx).sum ∧
    ∀ p, p < (multimap maps).flat.length → ∃! i, i < maps.length ∧
      (multimap maps).offs.getD i 0 ≤ p ∧ p < (multimap maps).offs.getD (i + 1) 0 := by
  have hsz : maps.map (fun m => m.rows.flatten.length) = maps.map (fun m => m.ny * m.nx) := by
    apply List.map_congr_left
    intro m hm
    rw [flatten_rows_length m.rows m.nx (h m hm).2, (h m hm).1]
  have hlen : (multimap maps).flat.length = (maps.map fun m => m.ny * m.nx).sum := by
    unfold multimap
    simp only
    rw [List.length_flatten, List.map_map, ← hsz]
    rfl
  refine ⟨hlen, fun p hp => ?_⟩
  rw [hlen, ← hsz] at hp
  obtain ⟨i, ⟨h1, h2, h3⟩, hu⟩ := exists_unique_segment _ p hp
  rw [List.length_map] at h1
  have ho : ∀ j, j ≤ maps.length → (multimap maps).offs.getD j 0 =
      ((maps.map fun m => m.rows.flatten.length).take j).sum := by
    intro j hj
    rw [List.getD_eq_getElem?_getD, offs_get maps h j hj, List.map_take]
    rfl
  refine ⟨i, ⟨h1, by rw [ho i (by omega)]; exact h2, by rw [ho (i + 1) (by omega)]; exact h3⟩, ?_⟩
  rintro j ⟨j1, j2, j3⟩
  rw [ho j (by omega)] at j2
  rw [ho (j + 1) (by omega)] at j3
  exact hu j ⟨by simpa using j1, j2, j3⟩

/-- C64: assigning one pixel of one map is the same as replacing that map by the map with this pixel changed. -/
theorem C64_pixel (maps : List (Map2 α)) (h : ∀ m ∈ maps, m.Ok) (i : Nat) (hi : i < maps.length) (y x : Nat)
    (hy : y < maps[i].ny) (hx : x < maps[i].nx) (v : α) :
    ∃ mm, (multimap maps).setPix i y x v = some mm ∧
      mm.get i = some { maps[i] with rows := maps[i].rows.modify y (fun r => r.set x v) } ∧
      ∀ j (hj : j < maps.length), j ≠ i → mm.get j = some maps[j] := by
  set m := maps[i] with hmdef
  have hmok : m.Ok := h _ (List.getElem_mem hi)
  set m' : Map2 α := { m with rows := m.rows.modify y (fun r => r.set x v) } with hm'
  have hm'ok : m'.Ok := by
    refine ⟨by simp [hm', hmok.1], ?_⟩
    intro r hr
    obtain ⟨k, hk⟩ := List.getElem?_of_mem hr
    rw [List.getElem?_modify] at hk
    rw [Option.map_eq_map, Option.map_eq_some_iff] at hk
    obtain ⟨r0, h0, rfl⟩ := hk
    have := hmok.2 r0 (List.mem_of_getElem? h0)
    split_ifs <;> simp [this, hm']
  obtain ⟨s1, mm, s2, s3, s4⟩ := C64_set maps h i hi m' hm'ok ⟨rfl, rfl⟩
  refine ⟨mm, ?_, s3, s4⟩
  rw [← s2]
  unfold Multimap.set Multimap.setPix
  have e1 : ((i : Int) + 1) = ((i + 1 : Nat) : Int) := by push_cast; rfl
  rw [e1, pyGet_natCast, pyGet_natCast, pyGet_natCast, offs_get maps h i (by omega), offs_get maps h (i + 1) (by omega)]
  have hg : (multimap maps).geos[i]? = some (m.ny, m.nx) := by
    simp [multimap, hi, hmdef]
  rw [hg]
  simp only [Option.bind_eq_bind, Option.bind_some]
  obtain ⟨t1, t2, t3⟩ := take_drop_flatten (maps.map fun m => m.rows.flatten) i (by simpa using hi)
  rw [← List.map_take, List.map_map, ← List.map_take, List.map_map, List.getElem_map] at t1
  rw [← List.map_take, List.map_map] at t2
  rw [← List.map_take, List.map_map] at t3
  simp only [Function.comp_def] at t1 t2 t3
  have hflat : (multimap maps).flat = (maps.map fun m => m.rows.flatten).flatten := rfl
  rw [hflat, t1, reshape2_flatten _ hmok, Option.bind_some, if_pos ⟨hy, hx⟩, Option.bind_some,
    if_pos (show m'.ny = m.ny ∧ m'.nx = m.nx from ⟨rfl, rfl⟩), t2, t3]
  congr 2
  -- the flat arrays agree
  have hsplit : (maps.map fun m => m.rows.flatten).flatten = ((maps.map fun m => m.rows.flatten).take i).flatten ++
      (m.rows.flatten ++ ((maps.map fun m => m.rows.flatten).drop (i + 1)).flatten) := by
    have e : maps.map (fun m => m.rows.flatten) = (maps.map fun m => m.rows.flatten).take i ++
        m.rows.flatten :: (maps.map fun m => m.rows.flatten).drop (i + 1) := by
      have : m.rows.flatten = (maps.map fun m => m.rows.flatten)[i]'(by simpa using hi) := by simp [hmdef]
      rw [this, List.cons_getElem_drop_succ, List.take_append_drop]
    conv_lhs => rw [e]
    simp
  have hl : (((maps.map fun m => m.rows.flatten).take i).flatten).length = ((maps.take i).map fun m => m.rows.flatten.length).sum := by
    rw [List.length_flatten, ← List.map_take, List.map_map]; rfl
  rw [hsplit, ← hl, Nat.add_assoc, List.set_append_right _ _ (by omega), Nat.add_sub_cancel_left]
  have hlen : y * m.nx + x < m.rows.flatten.length := by
    rw [flatten_rows_length m.rows m.nx hmok.2, hmok.1]
    calc y * m.nx + x < y * m.nx + m.nx := by omega
      _ = (y + 1) * m.nx := by ring
      _ ≤ m.ny * m.nx := Nat.mul_le_mul_right _ hy
  rw [List.set_append_left _ _ hlen, ← List.append_assoc]
  rw [List.map_take]
  congr 2
  -- setting one entry of the flattened rows
  have gen : ∀ (rows : List (List α)) (nx y : Nat), (∀ r ∈ rows, r.length = nx) → y < rows.length → x < nx →
      rows.flatten.set (y * nx + x) v = (rows.modify y (fun r => r.set x v)).flatten := by
    intro rows nx
    induction rows with
    | nil => intro y _ hy; simp at hy
    | cons r rows ih =>
      intro y hr hy hx
      have hrl := hr r (by simp)
      cases y with
      | zero =>
        simp only [List.flatten_cons, List.modify_zero_cons, Nat.zero_mul, Nat.zero_add]
        rw [List.set_append_left _ _ (by omega)]
      | succ y =>
        simp only [List.flatten_cons, List.modify_succ_cons]
        rw [List.set_append_right _ _ (by rw [hrl]; nlinarith)]
        congr 1
        rw [← ih y (fun x hx => hr x (List.mem_cons_of_mem _ hx)) (by simpa using hy) hx]
        congr 1
        rw [hrl, Nat.succ_mul]; omega
  exact gen m.rows m.nx y hmok.2 (by rw [hmok.1]; exact hy) hx

/-- C64: multimap.full gives each map its own constant. -/
theorem C64_full (geos : List (Nat × Nat)) (vals : List α) (hl : geos.length = vals.length) :
    ∃ mm, multimapFull geos vals = some mm ∧ ∀ i (hi : i < geos.length), mm.get i = some ⟨geos[i].1, geos[i].2,
      List.replicate geos[i].1 (List.replicate geos[i].2 (vals[i]'(by omega)))⟩ := by
  unfold multimapFull
  rw [if_pos hl]
  refine ⟨_, rfl, fun i hi => ?_⟩
  rw [C64_get _ _ i (by simp; omega)]
  · simp
  · intro m hm
    rw [List.mem_iff_getElem] at hm
    obtain ⟨k, hk, rfl⟩ := hm
    simp only [List.getElem_zipWith]
    refine ⟨by simp, ?_⟩
    intro r hr
    rw [List.eq_of_mem_replicate hr]; simp

/-- Negative positions, which lists accept, fail: the last map (if it has any pixels) cannot be read as `maps[-1]`. -/
theorem C64_negative_refuted (maps : List (Map2 α)) (h : ∀ m ∈ maps, m.Ok) (hne : maps ≠ [])
    (hpos : (maps.getLast hne).ny * (maps.getLast hne).nx ≠ 0) : (multimap maps).get (-1) = none := by
  unfold Multimap.get
  have hlen : 0 < maps.length := List.length_pos_of_ne_nil hne
  have holen : (multimap maps).offs.length = maps.length + 1 := by
    unfold Multimap.offs multimap
    rw [(C73_cumsum _).1]; simp
  have h0 : pyGet (multimap maps).offs (-1 + 1) = some 0 := by
    have := offs_get maps h 0 (by omega)
    simpa [pyGet] using this
  have h1 : pyGet (multimap maps).offs (-1) = some ((maps.map fun m => m.rows.flatten.length).sum) := by
    have := offs_get maps h maps.length (by omega)
    rw [List.take_length] at this
    unfold pyGet
    rw [holen]
    simpa using this
  have hg : pyGet (multimap maps).geos (-1) = some ((maps.getLast hne).ny, (maps.getLast hne).nx) := by
    unfold pyGet multimap
    simp only [List.length_map]
    have : (-1 : Int) + (maps.length : Int) = ((maps.length - 1 : Nat) : Int) := by omega
    simp only [this]
    have hl2 : maps.length - 1 < maps.length := by omega
    simp [List.getLast_eq_getElem, List.getElem?_eq_getElem hl2]
  rw [h0, h1, hg]
  simp only [Option.bind_eq_bind, Option.bind_some, List.take_zero, List.drop_nil]
  unfold reshape2
  rw [if_neg]
  rw [List.length_nil]
  exact fun e => hpos e.symm

example : (multimap [⟨1, 2, [[1, 2]]⟩, ⟨2, 1, [[3], [4]]⟩]).get 1 = some ⟨2, 1, [[3], [4]]⟩ := by decide
example : (⟨2, 1, [[3], [4]]⟩ : Map2 Nat).Ok := ⟨rfl, by decide⟩

end Pixell
