/-
C20 tile geometry, C21 tile views, C22 tiled arithmetic, C23 redistribution, C79 with_tiles.
-/
import Verif.Lemmas.TilesDense
import Mathlib.Algebra.Order.Ring.Rat
import Mathlib.Algebra.BigOperators.Ring.List

namespace Pixell

/-! ## C20 -/

/-- Pixel (y,x) belongs to tile number `i`, read off the tile's pixel box. -/
def InTile (ny nx th tw i y x : Nat) : Prop :=
  let g := ind2grid (gridLen nx tw) i
  (tileSpan ny th g.1).1 ≤ y ∧ y < (tileSpan ny th g.1).2 ∧ (tileSpan nx tw g.2).1 ≤ x ∧ x < (tileSpan nx tw g.2).2

/-- Each pixel lies in exactly one of the tiles. -/
theorem C20_partition {ny nx th tw y x : Nat} (hth : 0 < th) (htw : 0 < tw) (hy : y < ny) (hx : x < nx) :
    ∃! i, i < (tileNpix ny nx th tw).length ∧ InTile ny nx th tw i y x := by
  obtain ⟨h1, h2⟩ := pixTile_lt hth htw hy hx
  refine ⟨pixTile nx th tw y x, ⟨?_, ?_⟩, ?_⟩
  · rw [length_tileNpix, pixTile, grid2ind]
    have := Nat.mul_le_mul_right (gridLen nx tw) (show y / th + 1 ≤ gridLen ny th from h1)
    rw [Nat.add_mul] at this
    omega
  · unfold InTile pixTile
    rw [ind2grid_grid2ind _ h2]
    have a := (span_iff (t := y / th) hth hy).2 rfl
    have b := (span_iff (t := x / tw) htw hx).2 rfl
    exact ⟨a.1, a.2, b.1, b.2⟩
  · rintro i ⟨-, h⟩
    unfold InTile at h
    have a := (span_iff hth hy).1 ⟨h.1, h.2.1⟩
    have b := (span_iff htw hx).1 ⟨h.2.2.1, h.2.2.2⟩
    rw [pixTile, ← a, ← b, grid2ind_ind2grid]

example : InTile 5 7 2 3 5 3 6 ∧ ¬ InTile 5 7 2 3 4 3 6 := by unfold InTile; decide

/-- The stored pixel count of each tile is the number of pixels in its box, and is positive. -/
theorem C20_sizes {ny nx th tw i : Nat} (hth : 0 < th) (htw : 0 < tw)
    (hi : i < (tileNpix ny nx th tw).length) :
    let g := ind2grid (gridLen nx tw) i
    let ys := tileSpan ny th g.1
    let xs := tileSpan nx tw g.2
    (tileNpix ny nx th tw).getD i 0 = (ys.2 - ys.1) * (xs.2 - xs.1) ∧
    ys.1 < ys.2 ∧ ys.2 ≤ ny ∧ ys.2 - ys.1 ≤ th ∧ xs.1 < xs.2 ∧ xs.2 ≤ nx ∧ xs.2 - xs.1 ≤ tw := by
  intro g ys xs
  rw [length_tileNpix] at hi
  obtain ⟨h1, h2⟩ := ind2grid_lt hi
  have h := tileNpix_getD hth htw h1 h2
  rw [grid2ind_ind2grid] at h
  refine ⟨h, ?_⟩
  have a := (lt_gridLen hth).1 h1
  have b := (lt_gridLen htw).1 h2
  have e1 : ys = (g.1 * th, min (g.1 * th + th) ny) := rfl
  have e2 : xs = (g.2 * tw, min (g.2 * tw + tw) nx) := rfl
  have e3 : g.1 = (ind2grid (gridLen nx tw) i).1 := rfl
  have e4 : g.2 = (ind2grid (gridLen nx tw) i).2 := rfl
  rw [← e3] at a; rw [← e4] at b
  rw [e1, e2]
  simp only
  omega

example : tileNpix 5 7 2 3 = [6, 6, 2, 6, 6, 2, 3, 3, 1] := by decide

/-- The tile sizes add up to the size of the map. -/
theorem C20_total {ny nx th tw : Nat} (hth : 0 < th) (htw : 0 < tw) :
    (tileNpix ny nx th tw).sum = ny * nx := by
  unfold tileNpix
  have key : ∀ l : List Nat, (l.flatMap fun h => (tileLens nx tw).map fun w => h * w).sum = l.sum * nx := by
    intro l
    induction l with
    | nil => simp
    | cons h l ih =>
      rw [List.flatMap_cons, List.sum_append, ih, List.sum_map_mul_left, List.sum_cons, Nat.add_mul]
      simp [sum_tileLens htw]
  rw [key, sum_tileLens hth]

/-- Tile numbers and grid positions correspond one to one. -/
theorem C20_grid (gy gx : Nat) :
    (∀ i, i < gy * gx → (ind2grid gx i).1 < gy ∧ (ind2grid gx i).2 < gx ∧
      grid2ind gx (ind2grid gx i).1 (ind2grid gx i).2 = i) ∧
    (∀ ty tx, ty < gy → tx < gx → grid2ind gx ty tx < gy * gx ∧ ind2grid gx (grid2ind gx ty tx) = (ty, tx)) := by
  refine ⟨fun i h => ⟨(ind2grid_lt h).1, (ind2grid_lt h).2, grid2ind_ind2grid _ _⟩, fun ty tx h1 h2 => ⟨?_, ind2grid_grid2ind _ h2⟩⟩
  have := Nat.mul_le_mul_right gx (show ty + 1 ≤ gy from h1)
  rw [Nat.add_mul] at this
  unfold grid2ind
  omega

/-! ## C21 -/

variable {α : Type}

/-- One write attempt by a caller that carries on after an exception. -/
def tryWrite (m : TileMap α) (w : Nat × List α) : TileMap α := (m.set w.1 w.2).getD m

/-- After any history of write attempts, tile `gj` holds the data of the last attempt on that tile that
had the right size, or its original data if there was none; no other write affects it. -/
theorem C21_history {m : TileMap α} (w : m.WF) (ws : List (Nat × List α)) (gj : Nat) :
    (ws.foldl tryWrite m).get gj =
      ws.foldl (fun cur e => if e.1 = gj ∧ gj ∈ m.active ∧ e.2.length = m.npix.getD gj 0 then some e.2 else cur)
        (m.get gj) := by
  induction ws generalizing m with
  | nil => rfl
  | cons e ws ih =>
    simp only [List.foldl_cons]
    by_cases hm : e.1 ∈ m.active
    · by_cases hl : e.2.length = m.npix.getD e.1 0
      · obtain ⟨m1, h1, w1, a1, n1, g1, o1⟩ := w.set_ok hm hl
        have : tryWrite m e = m1 := by simp [tryWrite, h1]
        rw [this, ih w1, a1, n1]
        congr 1
        by_cases he : e.1 = gj
        · subst he; rw [if_pos ⟨rfl, hm, hl⟩, g1]
        · simp [he, o1 gj (fun h => he h.symm)]
      · have hs : m.set e.1 e.2 = none := by
          obtain ⟨ai, hai⟩ := lookupOf_some hm
          have := m.off_succ (lookupOf_mem hai)
          simp only [TileMap.set, hai, this]
          rw [if_neg hl]
        have : tryWrite m e = m := by simp [tryWrite, hs]
        rw [this, ih w]
        congr 1
        by_cases he : e.1 = gj
        · subst he; rw [if_neg (fun h => hl h.2.2)]
        · simp [he]
    · have : tryWrite m e = m := by simp [tryWrite, TileMap.set_inactive hm]
      rw [this, ih w]
      congr 1
      by_cases he : e.1 = gj
      · subst he; simp [hm]
      · simp [he]

/-- Writing then reading: the write succeeds, reads back, and leaves every other tile alone. -/
theorem C21_set_get {m : TileMap α} (w : m.WF) {gi : Nat} {v : List α} (hm : gi ∈ m.active)
    (hv : v.length = m.npix.getD gi 0) :
    ∃ m', m.set gi v = some m' ∧ m'.get gi = some v ∧ (∀ gj, gj ≠ gi → m'.get gj = m.get gj) ∧
      m'.active = m.active ∧ m'.buf.length = m.buf.length := by
  obtain ⟨m', h, w', a, n, g, o⟩ := w.set_ok hm hv
  refine ⟨m', h, g, o, a, ?_⟩
  rw [w'.size, w.size]
  simp [TileMap.sizes, a, n]

/-- Inactive tiles read as `None` and cannot be written; active ones read as a tile of the right size. -/
theorem C21_inactive {m : TileMap α} (w : m.WF) (gi : Nat) :
    (gi ∉ m.active → m.get gi = none ∧ ∀ v, m.set gi v = none) ∧
    (gi ∈ m.active → ∃ t, m.get gi = some t ∧ t.length = m.npix.getD gi 0) := by
  refine ⟨fun h => ⟨TileMap.get_eq_none.2 h, fun v => TileMap.set_inactive h⟩, fun h => ?_⟩
  obtain ⟨t, ht⟩ := TileMap.WF.get_some h
  exact ⟨t, ht, w.get_length ht⟩

/-- Reading in the order of the active list walks through the whole buffer: no element is outside all
tiles, and none is shared. -/
theorem C21_buffer {m : TileMap α} (w : m.WF) :
    m.active.flatMap (fun gi => (m.get gi).getD []) = m.buf := by
  have hact : m.active = (List.range m.active.length).map fun i => m.active.getD i 0 := by
    apply List.ext_getElem
    · simp
    · intro i h1 h2; simp [h1]
  have h1 : m.active.flatMap (fun gi => (m.get gi).getD []) = (List.range m.active.length).flatMap m.sub := by
    conv => lhs; rw [hact]
    rw [List.flatMap_map]
    apply List.flatMap_congr
    intro ai hai
    have hlt := List.mem_range.1 hai
    rw [List.getD_eq_getElem?_getD, List.getElem?_eq_getElem hlt, Option.getD_some, TileMap.get,
      lookupOf_getElem w.nodup hlt]
    rfl
  rw [h1]
  have key : ∀ k, k ≤ m.active.length → (List.range k).flatMap m.sub = m.buf.take (m.off k) := by
    intro k
    induction k with
    | zero => intro _; simp [TileMap.off]
    | succ k ih =>
      intro hk
      rw [List.range_succ, List.flatMap_append, ih (by omega)]
      have h2 : m.off k ≤ m.off (k + 1) := m.off_mono (by omega)
      have h3 : m.off (k + 1) = m.off k + (m.off (k + 1) - m.off k) := by omega
      conv => rhs; rw [h3, List.take_add]
      simp [TileMap.sub]
  rw [key _ (Nat.le_refl _)]
  have : m.off m.active.length = m.sizes.sum := by
    have hl : m.active.length = m.sizes.length := by simp [TileMap.sizes]
    simp only [TileMap.off]; rw [hl, List.take_length]
  rw [this, ← w.size, List.take_length]

example : ∃ m', (⟨[2, 1, 3], [2, 0], [1, 2, 3, 4, 5]⟩ : TileMap Int).set 2 [7, 8, 9] = some m' ∧
    m'.get 2 = some [7, 8, 9] ∧ m'.get 0 = some [4, 5] ∧ m'.get 1 = none := by
  refine ⟨⟨[2, 1, 3], [2, 0], [7, 8, 9, 4, 5]⟩, ?_⟩
  decide

/-! ## C22 -/

/-- For operations with `op x 0 = x` (+, -, |, ^, <<, >>), expanding the combined map equals combining
the expanded maps, whatever tiles are active in either. -/
theorem C22_binop_partial [Zero α] {op : α → α → α} (h0 : ∀ x, op x 0 = x) {a b : TileMap α} (wa : a.WF) (wb : b.WF)
    {ny nx th tw : Nat} (hth : 0 < th) (htw : 0 < tw)
    (ha : a.npix = tileNpix ny nx th tw) (hb : b.npix = tileNpix ny nx th tw) :
    ∃ out, a.binop op b = some out ∧ (∀ gi, gi ∈ out.active ↔ gi ∈ a.active ∨ gi ∈ b.active) ∧
      ∀ y x, y < ny → x < nx →
        out.toEnmap ny nx th tw y x = op (a.toEnmap ny nx th tw y x) (b.toEnmap ny nx th tw y x) := by
  obtain ⟨out, h1, w, hn, hact, hg⟩ := binop_ok op wa wb (ha.trans hb.symm)
  refine ⟨out, h1, hact, fun y x hy hx => ?_⟩
  rw [toEnmap_eq w hth htw hy hx, toEnmap_eq wa hth htw hy hx, toEnmap_eq wb hth htw hy hx, hg]
  refine combine_getD h0 ?_ (fun t ht => wa.get_length ht) (fun t ht => ?_)
  · rw [ha]; exact pixIdx_lt hth htw hy hx
  · rw [ha, ← hb]; exact wb.get_length ht

/-- The in-place versions: they fail exactly when the right-hand side has a tile the left-hand side lacks. -/
theorem C22_inplace_partial [Zero α] {op : α → α → α} (h0 : ∀ x, op x 0 = x) {a b : TileMap α} (wa : a.WF) (wb : b.WF)
    {ny nx th tw : Nat} (hth : 0 < th) (htw : 0 < tw)
    (ha : a.npix = tileNpix ny nx th tw) (hb : b.npix = tileNpix ny nx th tw) :
    ((∃ gi ∈ b.active, gi ∉ a.active) → a.ibinop op b = none) ∧
    ((∀ gi ∈ b.active, gi ∈ a.active) → ∃ out, a.ibinop op b = some out ∧ out.active = a.active ∧
      ∀ y x, y < ny → x < nx →
        out.toEnmap ny nx th tw y x = op (a.toEnmap ny nx th tw y x) (b.toEnmap ny nx th tw y x)) := by
  refine ⟨fun ⟨gi, h1, h2⟩ => ibinop_fail op h1 h2, fun hsub => ?_⟩
  obtain ⟨out, h1, w, hn, hact, hg⟩ := ibinop_ok op wa wb (ha.trans hb.symm) hsub
  refine ⟨out, h1, hact, fun y x hy hx => ?_⟩
  rw [toEnmap_eq w hth htw hy hx, toEnmap_eq wa hth htw hy hx, toEnmap_eq wb hth htw hy hx, hg]
  refine combine_getD h0 ?_ (fun t ht => wa.get_length ht) (fun t ht => ?_)
  · rw [ha]; exact pixIdx_lt hth htw hy hx
  · rw [ha, ← hb]; exact wb.get_length ht

/-- Addition and subtraction meet the condition. -/
theorem C22_add_sub {a b : TileMap Int} (wa : a.WF) (wb : b.WF)
    {ny nx th tw : Nat} (hth : 0 < th) (htw : 0 < tw)
    (ha : a.npix = tileNpix ny nx th tw) (hb : b.npix = tileNpix ny nx th tw) :
    (∃ out, a.binop (· + ·) b = some out ∧ ∀ y x, y < ny → x < nx →
        out.toEnmap ny nx th tw y x = a.toEnmap ny nx th tw y x + b.toEnmap ny nx th tw y x) ∧
    (∃ out, a.binop (· - ·) b = some out ∧ ∀ y x, y < ny → x < nx →
        out.toEnmap ny nx th tw y x = a.toEnmap ny nx th tw y x - b.toEnmap ny nx th tw y x) := by
  constructor
  · obtain ⟨o, h, -, h2⟩ := C22_binop_partial (op := (· + ·)) (by simp) wa wb hth htw ha hb
    exact ⟨o, h, h2⟩
  · obtain ⟨o, h, -, h2⟩ := C22_binop_partial (op := (· - ·)) (by simp) wa wb hth htw ha hb
    exact ⟨o, h, h2⟩

/-- With equal active lists any operation with `op 0 0 = 0` is the dense operation. -/
theorem C22_same_tiles [Zero α] {op : α → α → α} (h0 : op 0 0 = 0) {a b : TileMap α} (wa : a.WF) (wb : b.WF)
    {ny nx th tw : Nat} (hth : 0 < th) (htw : 0 < tw)
    (ha : a.npix = tileNpix ny nx th tw) (hb : b.npix = tileNpix ny nx th tw) (hab : a.active = b.active) :
    ∃ out, a.binop op b = some out ∧ ∀ y x, y < ny → x < nx →
        out.toEnmap ny nx th tw y x = op (a.toEnmap ny nx th tw y x) (b.toEnmap ny nx th tw y x) := by
  obtain ⟨buf, h1, h2, h3⟩ := fast_path op wa wb (ha.trans hb.symm) hab
  refine ⟨{ a with buf := buf }, by simp [TileMap.binop, hab, h1], fun y x hy hx => ?_⟩
  rw [toEnmap_eq h2 hth htw hy hx, toEnmap_eq wa hth htw hy hx, toEnmap_eq wb hth htw hy hx, h3]
  by_cases hg : pixTile nx th tw y x ∈ a.active
  · obtain ⟨ta, hta⟩ := TileMap.WF.get_some hg
    obtain ⟨tb, htb⟩ := TileMap.WF.get_some (hab ▸ hg)
    have l1 := wa.get_length hta
    have l2 := wb.get_length htb
    have l3 := pixIdx_lt (ny := ny) hth htw hy hx
    rw [ha] at l1; rw [hb] at l2
    rw [← l1] at l3
    have l4 : pixIdx nx th tw y x < tb.length := by omega
    simp [hta, htb, List.getD_eq_getElem?_getD, l3, l4]
  · rw [TileMap.get_eq_none.2 hg, TileMap.get_eq_none.2 (hab ▸ hg)]; simp [h0]

/-- The general claim fails: a product keeps the left factor in tiles the right factor lacks, where the
dense product is zero. -/
theorem C22_mul_refuted :
    let a : TileMap Int := ⟨tileNpix 1 2 1 1, [0, 1], [5, 7]⟩
    let b : TileMap Int := ⟨tileNpix 1 2 1 1, [0], [3]⟩
    ∃ out, a.binop (· * ·) b = some out ∧ out.toEnmap 1 2 1 1 0 1 = 7 ∧
      a.toEnmap 1 2 1 1 0 1 * b.toEnmap 1 2 1 1 0 1 = 0 := by
  refine ⟨⟨tileNpix 1 2 1 1, [0, 1], [15, 7]⟩, ?_⟩
  decide

/-- A witness for the hypotheses of the positive theorems, with partially overlapping tiles. -/
example : ((⟨tileNpix 2 3 1 2, [3, 0], [9, 1, 2]⟩ : TileMap Int).binop (· - ·)
      ⟨tileNpix 2 3 1 2, [1, 3], [4, 5]⟩).map (fun o => (o.active, o.buf)) =
    some ([0, 1, 3], [1, 2, -4, 4]) := by decide

/-! ## C79 -/

/-- with_tiles: the requested tiles, old data where there was any, zeros elsewhere.  Conditions: the two
lists can be compared at all (see `npAllEq`), and not exactly one tile against none. -/
theorem C79_with_tiles_partial [Zero α] {legacy : Bool} {m : TileMap α} (w : m.WF) {active : List Nat}
    (hn : active.Nodup) (hv : ∀ gi ∈ active, gi < m.npix.length) (strict : Bool)
    (hcmp : legacy = true ∨ active.length = m.active.length ∨ active.length = 1 ∨ m.active.length = 1)
    (hne : (active = [] ↔ m.active = [])) :
    ∃ out, m.withTiles legacy active strict = some out ∧
      (∀ gi, gi ∈ out.active ↔ (gi ∈ active ∨ (strict = false ∧ gi ∈ m.active))) ∧
      (strict = true → out.active = active) ∧
      ∀ gi ∈ out.active, out.get gi = some ((m.get gi).getD (List.replicate (m.npix.getD gi 0) 0)) := by
  have hcase : npAllEq legacy active m.active = some (decide (active = m.active)) := by
    unfold npAllEq
    by_cases h1 : active.length = m.active.length
    · rw [if_pos h1]
    · rw [if_neg h1]
      have hd : ¬ active = m.active := fun h => h1 (by rw [h])
      by_cases h2 : active.length = 1 ∨ m.active.length = 1
      · rw [if_pos h2]
        simp only [hd, decide_false, Option.some_inj]
        rw [Bool.eq_false_iff]
        intro hall
        rw [List.all_eq_true] at hall
        have hall' : ∀ x ∈ active, ∀ z ∈ m.active, x = z := by
          intro x hx z hz
          have := hall x hx
          rw [List.all_eq_true] at this
          simpa using this z hz
        rcases h2 with h2 | h2
        · obtain ⟨a, rfl⟩ := List.length_eq_one_iff.1 h2
          cases hm : m.active with
          | nil => exact absurd (hne.2 hm) (by simp)
          | cons b rest =>
            cases rest with
            | nil => rw [hm] at h1; simp at h1
            | cons c rest =>
              have n := w.nodup
              rw [hm] at n hall'
              have e1 := hall' a (by simp) b (by simp)
              have e2 := hall' a (by simp) c (by simp)
              rw [List.nodup_cons] at n
              exact n.1 (by rw [← e1, e2]; simp)
        · obtain ⟨b, hb⟩ := List.length_eq_one_iff.1 h2
          rw [hb] at hall'
          cases ha : active with
          | nil => rw [hne.1 ha] at hb; simp at hb
          | cons a rest =>
            cases rest with
            | nil => rw [ha, hb] at h1; simp at h1
            | cons c rest =>
              rw [ha] at hn hall'
              have e1 := hall' a (by simp) b (by simp)
              have e2 := hall' c (by simp) b (by simp)
              rw [List.nodup_cons] at hn
              exact hn.1 (by rw [e1, ← e2]; simp)
      · rw [if_neg h2]
        rw [not_or] at h2
        rcases hcmp with h | h | h | h
        · simp [h, hd]
        · exact absurd h h1
        · exact absurd h h2.1
        · exact absurd h h2.2
  by_cases heq : active = m.active
  · refine ⟨m, ?_, ?_, fun _ => heq.symm, ?_⟩
    · simp only [TileMap.withTiles, hcase]
      simp [heq]
    · intro gi; rw [heq]; tauto
    · intro gi h
      obtain ⟨t, ht⟩ := TileMap.WF.get_some h
      simp [ht]
  · let act := if strict then active
      else m.active ++ active.filter fun gi => (lookupOf m.active gi).isNone
    have hiso : ∀ gi, (lookupOf m.active gi).isNone = true ↔ gi ∉ m.active := by
      intro gi
      constructor
      · intro h hm; obtain ⟨k, hk⟩ := lookupOf_some hm; simp [hk] at h
      · intro h; simp [lookupOf_none h]
    have hmem : ∀ gi, gi ∈ act ↔ (gi ∈ active ∨ (strict = false ∧ gi ∈ m.active)) := by
      intro gi
      simp only [act]
      cases strict with
      | true => simp
      | false =>
        simp only [Bool.false_eq_true, if_false, List.mem_append, List.mem_filter, true_and, hiso]
        tauto
    have hnd : act.Nodup := by
      simp only [act]
      cases strict with
      | true => simpa using hn
      | false =>
        simp only [Bool.false_eq_true, if_false]
        refine List.Nodup.append w.nodup (hn.filter _) ?_
        intro gi h1 h2
        exact (hiso gi).1 (List.mem_filter.1 h2).2 h1
    have hval : ∀ gi ∈ act, gi < m.npix.length := by
      intro gi h
      rcases (hmem gi).1 h with h | h
      · exact hv gi h
      · exact w.valid gi h.2
    have w0 := TileMap.zeros_WF (α := α) hnd hval
    obtain ⟨o, h1, w1, a1, n1, -, g1⟩ := TileMap.update_ok (f := fun gi t => some ((m.get gi).getD t)) (inds := act) w0
      hnd (fun gi h => h)
      (fun gi h t ht => by
        refine ⟨_, rfl, ?_⟩
        cases hg : m.get gi with
        | none => exact w0.get_length ht
        | some s => exact w.get_length hg)
    have a1' : o.active = act := a1
    refine ⟨o, ?_, ?_, ?_, ?_⟩
    · simp only [TileMap.withTiles, hcase, heq]
      exact h1
    · intro gi; rw [a1']; exact hmem gi
    · intro hs; rw [a1']; simp [act, hs]
    · intro gi h
      rw [a1'] at h
      rw [g1 gi h, TileMap.zeros_get hnd hval h]
      rfl

example : ((⟨[1, 2, 1], [2, 0], [7, 5]⟩ : TileMap Int).withTiles false [1, 0] false).map
    (fun o => (o.active, o.buf)) = some ([2, 0, 1], [7, 5, 0, 0]) := by decide

/-- An empty map asked for one tile stays empty (numpy broadcasting of the comparison). -/
theorem C79_empty_refuted :
    ∃ out, (⟨[1, 1], [], []⟩ : TileMap Int).withTiles false [1] false = some out ∧ 1 ∉ out.active := by
  exact ⟨⟨[1, 1], [], []⟩, by decide⟩

/-- Current numpy cannot compare the lists at all when their lengths differ (and neither is one). -/
theorem C79_modern_refuted :
    (⟨[1, 1, 1], [0, 1], [1, 2]⟩ : TileMap Int).withTiles false [0, 1, 2] false = none := by decide

/-! ## C23 -/

/-- With active lists in increasing order on all ranks, every tile active at the receiving rank ends up
as the sum over all ranks of that tile's data (ranks without the tile count as zero). -/
theorem C23_redistribute_partial [AddMonoid α] (npix oact : List Nat) (imaps : List (TileMap α))
    (hi : ∀ m ∈ imaps, m.WF ∧ m.npix = npix ∧ m.active.Pairwise (· < ·))
    (ho : oact.Pairwise (· < ·)) (hv : ∀ gi ∈ oact, gi < npix.length) :
    ∃ out, redistribute imaps npix oact = some out ∧ out.active = oact ∧
      ∀ gi ∈ oact, ∃ t, out.get gi = some t ∧ t.length = npix.getD gi 0 ∧
        ∀ k < npix.getD gi 0, t.getD k 0 = (imaps.map fun m => ((m.get gi).getD []).getD k 0).sum := by
  have hnd : oact.Nodup := ho.imp (fun h => Nat.ne_of_lt h)
  obtain ⟨o, e, w, a, n, g⟩ := redist_loop npix oact imaps hi ho (TileMap.zeros_WF (α := α) hnd hv) rfl rfl
  refine ⟨o, ?_, a, fun gi h => ?_⟩
  · simp [redistribute, e]
  · obtain ⟨t, ht⟩ := TileMap.WF.get_some (show gi ∈ o.active by rw [a]; exact h)
    refine ⟨t, ht, by rw [w.get_length ht, n], fun k hk => ?_⟩
    have := g gi h k hk
    rw [ht, TileMap.zeros_get hnd hv h] at this
    have hz : (List.replicate (npix.getD gi 0) (0 : α)).getD k 0 = 0 := by
      rw [List.getD_eq_getElem?_getD, List.getElem?_replicate, if_pos hk]; rfl
    rw [Option.getD_some, Option.getD_some, hz, zero_add] at this
    exact this

example : (redistribute [(⟨[1, 2], [0, 1], [10, 20, 21]⟩ : TileMap Int), ⟨[1, 2], [1], [5, 6]⟩] [1, 2] [0, 1]).map
    (fun o => o.buf) = some [10, 25, 27] := by decide

/-- Without the order condition the data of different tiles is mixed up: a single rank with tiles listed
as 1, 0 gets tile 1's data in tile 0. -/
theorem C23_order_refuted :
    let m : TileMap Int := ⟨[1, 1], [1, 0], [10, 20]⟩
    ∃ out, redistribute [m] [1, 1] [0, 1] = some out ∧ m.get 0 = some [20] ∧ out.get 0 = some [10] := by
  refine ⟨⟨[1, 1], [0, 1], [10, 20]⟩, ?_⟩
  decide

theorem arraySplit_flatten {β : Type} (l : List β) {size : Nat} (h : 0 < size) :
    (List.range size).flatMap (arraySplit l size) = l := by
  have hq := Nat.div_add_mod l.length size
  have hr := Nat.mod_lt l.length h
  have key : ∀ k, k ≤ size → (List.range k).flatMap (arraySplit l size) =
      l.take (k * (l.length / size) + min k (l.length % size)) := by
    intro k
    induction k with
    | zero => intro _; simp
    | succ k ih =>
      intro hk
      rw [List.range_succ, List.flatMap_append, ih (by omega)]
      have h3 : (k + 1) * (l.length / size) + min (k + 1) (l.length % size) =
          (k * (l.length / size) + min k (l.length % size)) +
          (l.length / size + if k < l.length % size then 1 else 0) := by
        rw [Nat.add_mul]
        split <;> omega
      rw [h3, List.take_add (i := k * (l.length / size) + min k (l.length % size))]
      simp only [List.flatMap_cons, List.flatMap_nil, List.append_nil, arraySplit]
  rw [key _ (Nat.le_refl _)]
  have : size * (l.length / size) + min size (l.length % size) = l.length := by omega
  rw [this, List.take_length]

/-- The default assignment: every tile active on some rank before is active on exactly one rank after
(listed once), no other tile is, and each rank's list is increasing as required above. -/
theorem C23_default (imaps : List (TileMap α)) (ntile : Nat) (h : imaps ≠ []) (hv : ∀ m ∈ imaps, ∀ gi ∈ m.active, gi < ntile) :
    (∀ gi, gi ∈ (List.range imaps.length).flatMap (defaultActive imaps ntile) ↔ ∃ m ∈ imaps, gi ∈ m.active) ∧
    ((List.range imaps.length).flatMap (defaultActive imaps ntile)).Nodup ∧
    ∀ rank, (defaultActive imaps ntile rank).Pairwise (· < ·) := by
  have hl : 0 < imaps.length := List.length_pos_of_ne_nil h
  have hsplit := arraySplit_flatten ((List.range ntile).filter fun gi => imaps.any fun m => gi ∈ m.active) hl
  have hd : (List.range imaps.length).flatMap (defaultActive imaps ntile) =
      (List.range ntile).filter fun gi => imaps.any fun m => gi ∈ m.active := hsplit
  rw [hd]
  refine ⟨fun gi => ?_, List.nodup_range.filter _, fun rank => ?_⟩
  · simp only [List.mem_filter, List.mem_range, List.any_eq_true, decide_eq_true_eq]
    constructor
    · exact fun h => h.2
    · rintro ⟨m, hm, hg⟩; exact ⟨hv m hm gi hg, m, hm, hg⟩
  · unfold defaultActive arraySplit
    refine List.Pairwise.sublist ((List.take_sublist _ _).trans (List.drop_sublist _ _)) ?_
    exact List.pairwise_lt_range.filter _

end Pixell
