import Verif.Model.TileViews
import Verif.Lemmas.TilesDense
import Verif.Props.Slicing
import Verif.Props.Tiles
import Mathlib.Tactic.Linarith

/-! C152: views, insertion and products of tiled maps. -/

namespace Pixell

variable {α : Type}

/-! ### Geometry -/

theorem tileAxis_nat {n ts t : ℕ} (hts : 0 < ts) (ht : t < gridLen n ts) (w : Axis) :
    (tileAxis n ts w t).1 = ((tileSpan n ts t).2 : ℤ) - (tileSpan n ts t).1 ∧
    ∀ q : ℚ, (tileAxis n ts w t).2.pix2sky q = w.pix2sky ((tileSpan n ts t).1 + q) := by
  have h0 := (lt_gridLen hts).1 ht
  have e : expandSlice ⟨some ((t : ℤ) * ts), some (min ((t : ℤ) * ts + ts) n), none⟩ n false = ((t : ℤ) * ts, min ((t : ℤ) * ts + ts) n, 1) := by
    have a : (0 : ℤ) ≤ (t : ℤ) * ts := by positivity
    have b : (t : ℤ) * ts < n := by exact_mod_cast h0
    simp only [expandSlice, effStep, cycle, Option.getD_some]
    simp only [Bool.false_eq_true, if_false]
    rw [if_pos (by norm_num), if_pos a, if_pos (by omega), min_eq_left (by omega), min_eq_left (min_le_right _ _)]
  unfold tileAxis sliceGeometry
  rw [e]
  dsimp only
  constructor
  · simp only [tileSpan, Int.sign_one, Int.fdiv_one]
    push_cast
    ring
  · intro q
    rw [sliceWcs_pix2sky _ _ _ (by norm_num)]
    simp only [tileSpan, Int.sign_one]
    congr 1
    push_cast
    ring

/-- C152: the geometry of every tile has the shape of the tile's box, as many pixels as are stored for it, and puts each of its pixels where the full map does. -/
theorem C152_geometry {ny nx th tw i : ℕ} (hth : 0 < th) (htw : 0 < tw) (wy wx : Axis) (hi : i < (tileNpix ny nx th tw).length) :
    let G := tileGeom ny nx th tw wy wx i
    let g := ind2grid (gridLen nx tw) i
    G.1.1 * G.2.1 = ((tileNpix ny nx th tw).getD i 0 : ℕ) ∧ 0 < G.1.1 ∧ 0 < G.2.1 ∧
    ∀ r c : ℕ, ((r : ℤ) < G.1.1 ∧ (c : ℤ) < G.2.1 ↔ InTile ny nx th tw i (g.1 * th + r) (g.2 * tw + c)) ∧
      G.1.2.pix2sky r = wy.pix2sky (g.1 * th + r : ℕ) ∧ G.2.2.pix2sky c = wx.pix2sky (g.2 * tw + c : ℕ) := by
  intro G g
  have hs := C20_sizes hth htw hi
  rw [length_tileNpix] at hi
  obtain ⟨h1, h2⟩ := ind2grid_lt hi
  have e : ind2gridZ (gridLen nx tw) i = ((g.1 : ℤ), (g.2 : ℤ)) := by
    simp only [ind2gridZ, g, ind2grid]
    refine Prod.ext ?_ ?_ <;> dsimp only
    · rw [Int.fdiv_eq_ediv_of_nonneg _ (by positivity)]; norm_cast
    · rw [Int.fmod_eq_emod_of_nonneg _ (by positivity)]; norm_cast
  have hy := tileAxis_nat hth h1 wy
  have hx := tileAxis_nat htw h2 wx
  have eG : G = (tileAxis ny th wy g.1, tileAxis nx tw wx g.2) := by
    simp only [G, tileGeom]; rw [e]
  rw [eG]
  dsimp only at hs ⊢
  change _ ∧ _ at hs
  obtain ⟨s1, s2, s3, s4, s5, s6, s7⟩ := hs
  have ey : (tileSpan ny th g.1).1 = g.1 * th := rfl
  have ex : (tileSpan nx tw g.2).1 = g.2 * tw := rfl
  change (tileNpix ny nx th tw).getD i 0 = ((tileSpan ny th g.1).2 - (tileSpan ny th g.1).1) * ((tileSpan nx tw g.2).2 - (tileSpan nx tw g.2).1) at s1
  change (tileSpan ny th g.1).1 < (tileSpan ny th g.1).2 at s2
  change (tileSpan nx tw g.2).1 < (tileSpan nx tw g.2).2 at s5
  refine ⟨?_, ?_, ?_, ?_⟩
  · rw [hy.1, hx.1, s1]
    push_cast [Nat.cast_sub s2.le, Nat.cast_sub s5.le]
    rfl
  · rw [hy.1]; exact sub_pos.2 (by exact_mod_cast s2)
  · rw [hx.1]; exact sub_pos.2 (by exact_mod_cast s5)
  · intro r c
    refine ⟨?_, ?_, ?_⟩
    · rw [hy.1, hx.1]
      unfold InTile
      change _ ↔ (tileSpan ny th g.1).1 ≤ _ ∧ _ < (tileSpan ny th g.1).2 ∧ (tileSpan nx tw g.2).1 ≤ _ ∧ _ < (tileSpan nx tw g.2).2
      rw [ey, ex]
      generalize (tileSpan ny th g.1).2 = Y
      generalize (tileSpan nx tw g.2).2 = X
      generalize g.1 * th = y1
      generalize g.2 * tw = x1
      omega
    · rw [hy.2, ey]; push_cast; rfl
    · rw [hx.2, ex]; push_cast; rfl

/-- A tile at the edge. -/
example : (tileGeom 5 7 2 3 ⟨0, 1, 1⟩ ⟨0, -1, 4⟩ 8) = ((1, ⟨0, 1, -3⟩), (1, ⟨0, -1, -2⟩)) := by decide +kernel

/-- **C152 refuted (negative indices).** `tile_geom.tiles[-1]` is not the geometry of the last tile: whenever the map is at least one tile high, it has no rows or
a negative number of them. -/
theorem C152_negative_refuted (ny nx th tw : ℕ) (hth : 0 < th) (hle : th ≤ ny) (hnx : 0 < gridLen nx tw) (wy wx : Axis) :
    (tileGeom ny nx th tw wy wx (-1)).1.1 = (th : ℤ) - ny ∧ (tileGeom ny nx th tw wy wx (-1)).1.1 ≤ 0 := by
  have e : (ind2gridZ (gridLen nx tw) (-1)).1 = -1 := by
    unfold ind2gridZ
    dsimp only
    rw [Int.fdiv_eq_ediv_of_nonneg _ (by positivity)]
    exact Int.ediv_eq_neg_one_of_neg_of_le (by norm_num) (by omega)
  have k : (tileGeom ny nx th tw wy wx (-1)).1.1 = (th : ℤ) - ny := by
    unfold tileGeom tileAxis sliceGeometry expandSlice
    dsimp only
    rw [e]
    simp only [effStep, cycle, Option.getD_some, Bool.false_eq_true, if_false]
    rw [if_pos (by norm_num)]
    dsimp only
    have m1 : min (-1 * (th : ℤ) + th) ny = 0 := by
      rw [show -1 * (th : ℤ) + th = 0 by ring]; exact min_eq_left (by omega)
    have n0 : (0 : ℤ) < th := by exact_mod_cast hth
    rw [m1, if_pos (le_refl _), min_eq_left (by omega), if_neg (by linarith)]
    simp only [Int.sign_one, Int.fdiv_one]
    ring
  exact ⟨k, by rw [k]; omega⟩

/-! ### Views -/

theorem TileMap.WF.sub_length {m : TileMap α} (w : m.WF) {ai gi : ℕ} (h : m.active[ai]? = some gi) :
    (m.sub ai).length = m.npix.getD gi 0 := by
  have hl : ai < m.active.length := (List.getElem?_eq_some_iff.1 h).1
  have he : m.active[ai] = gi := (List.getElem?_eq_some_iff.1 h).2
  apply w.get_length (gi := gi)
  unfold TileMap.get
  rw [← he, lookupOf_getElem w.nodup hl]
  rfl

/-- C152: for every map, iterating over the tiles gives every tile in order, with None for the inactive ones, and over the active tiles those in the order of the active
list; nothing fails. Indexing gives the same. The active tiles laid end to end are the array itself. -/
theorem C152_iter {m : TileMap α} (w : m.WF) :
    m.tilesIter = (List.range m.npix.length).map (fun gi => some (m.get gi)) ∧
    (∀ gi < m.npix.length, m.tilesGet gi = some (m.get gi)) ∧
    m.activeIter = m.active.map m.get ∧
    (∀ ai < m.active.length, m.activeGet ai = m.get (m.active.getD ai 0)) ∧
    m.activeIter.flatMap (fun t => t.getD []) = m.buf := by
  have hres : ∀ ai gi, m.active[ai]? = some gi → m.reshaped ai gi = some (m.sub ai) := by
    intro ai gi h
    unfold TileMap.reshaped
    rw [if_pos (w.sub_length h)]
  have hget : ∀ ai gi, m.active[ai]? = some gi → m.get gi = some (m.sub ai) := by
    intro ai gi h
    obtain ⟨hl, rfl⟩ := List.getElem?_eq_some_iff.1 h
    unfold TileMap.get
    rw [lookupOf_getElem w.nodup hl]; rfl
  have hact : m.activeIter = m.active.map m.get := by
    unfold TileMap.activeIter
    apply List.ext_getElem
    · simp
    · intro i h1 h2
      have hl : i < m.active.length := by simpa using h2
      have hi : m.active[i]? = some m.active[i] := List.getElem?_eq_getElem hl
      simp only [List.getElem_map, List.getElem_range]
      rw [hi, Option.bind_some, hres _ _ hi, hget _ _ hi]
  refine ⟨?_, ?_, hact, ?_, ?_⟩
  · unfold TileMap.tilesIter
    apply List.map_congr_left
    intro gi _
    cases hl : lookupOf m.active gi with
    | none => simp [TileMap.get, hl]
    | some ai =>
      have h := lookupOf_mem hl
      simp only [h, Option.bind_some, hres _ _ h, hget _ _ h, Option.map_some]
  · intro gi hgi
    unfold TileMap.tilesGet
    rw [if_neg (by omega)]
    cases hl : lookupOf m.active gi with
    | none => simp [TileMap.get, hl]
    | some ai =>
      have h := lookupOf_mem hl
      simp only [hres _ _ h, hget _ _ h, Option.map_some]
  · intro ai hl
    have hi : m.active[ai]? = some m.active[ai] := List.getElem?_eq_getElem hl
    unfold TileMap.activeGet pyGet
    rw [if_pos (by omega), Int.toNat_natCast, hi, Option.bind_some, if_neg (by omega), hres _ _ hi,
      List.getD_eq_getElem?_getD, hi, Option.getD_some, hget _ _ hi]
  · rw [hact, List.flatMap_map]
    exact C21_buffer w

example : (⟨[2, 1, 3], [2, 0], [1, 2, 3, 4, 5]⟩ : TileMap ℤ).tilesIter = [some (some [4, 5]), some none, some (some [1, 2, 3])] ∧
    (⟨[2, 1, 3], [2, 0], [1, 2, 3, 4, 5]⟩ : TileMap ℤ).activeIter = [some [1, 2, 3], some [4, 5]] := by decide

/-- **C152 refuted (negative indices of active tiles).** `active_tiles[-1]` is not the last active tile: negative indices fail, for every map. -/
theorem C152_active_refuted (m : TileMap α) (i : ℤ) (hi : i < 0) : m.activeGet i = none := by
  unfold TileMap.activeGet
  cases pyGet m.active i with
  | none => rfl
  | some gi => rw [Option.bind_some, if_pos (Or.inl hi)]

/-- **C152 refuted (slices of the pixel axis).** A slice of the last axis is not a plain array: it still has tiles, which are not those of the map. If the first two active tiles
have as many pixels, then the map without the first of them gives the data of the second under the number of the first. -/
theorem C152_slice_refuted (npix : List ℕ) (g0 g1 : ℕ) (rest : List ℕ) (buf : List α)
    (w : (⟨npix, g0 :: g1 :: rest, buf⟩ : TileMap α).WF) (hsame : npix.getD g0 0 = npix.getD g1 0) :
    let m : TileMap α := ⟨npix, g0 :: g1 :: rest, buf⟩
    (m.selPix (npix.getD g0 0) buf.length).tilesGet g0 = m.tilesGet g1 := by
  intro m
  have hl0 : lookupOf m.active g0 = some 0 := lookupOf_getElem w.nodup (ai := 0) (by simp)
  have hl1 : lookupOf m.active g1 = some 1 := lookupOf_getElem w.nodup (ai := 1) (by simp)
  have hv0 : g0 < npix.length := w.valid g0 (by simp)
  have hv1 : g1 < npix.length := w.valid g1 (by simp)
  have hsub : (m.selPix (npix.getD g0 0) buf.length).sub 0 = m.sub 1 := by
    simp only [TileMap.sub, TileMap.off, TileMap.sizes, TileMap.selPix, m]
    simp only [List.map_cons, List.take_zero, List.sum_nil, List.take_succ_cons, List.sum_cons, List.drop_zero, Nat.add_zero, Nat.sub_zero, Nat.zero_add,
      Nat.add_sub_cancel_left]
    rw [hsame, List.take_of_length_le (l := List.drop _ _) (i := buf.length - _) (by simp)]
  have hr : (m.selPix (npix.getD g0 0) buf.length).reshaped 0 g0 = m.reshaped 1 g1 := by
    unfold TileMap.reshaped
    rw [hsub]
    change (if _ = npix.getD g0 0 then _ else _) = if _ = npix.getD g1 0 then _ else _
    rw [hsame]
  unfold TileMap.tilesGet
  change (if npix.length ≤ g0 then none else match lookupOf m.active g0 with | none => _ | some ai => _) =
    if npix.length ≤ g1 then none else _
  rw [if_neg (by omega), if_neg (by omega), hl0, hl1]
  dsimp only
  rw [hr]

example : ((⟨[2, 2, 2], [2, 0], [1, 2, 3, 4]⟩ : TileMap ℤ).selPix 2 4).tilesGet 2 = some (some [3, 4]) ∧
    (⟨[2, 2, 2], [2, 0], [1, 2, 3, 4]⟩ : TileMap ℤ).tilesGet 2 = some (some [1, 2]) := by decide

/-- C152: taking one component, counted from either end, or a range of components, and taking a tile can be done in either order. -/
theorem C152_components (m : PreTileMap α) (gi : ℕ) :
    (∀ i : ℤ, (m.comp i).bind (fun c => c.get gi) = (m.tile gi).bind fun t => pyGet t i) ∧
    ∀ a b : ℕ, (m.comps a b).tile gi = (m.tile gi).map fun t => (t.drop a).take (b - a) := by
  have hp : ∀ (i : ℤ) (f : List α → List α), pyGet (m.rows.map f) i = (pyGet m.rows i).map f := by
    intro i f
    unfold pyGet
    split_ifs <;> simp
    · simp_all
    · simp_all
  constructor
  · intro i
    unfold PreTileMap.comp PreTileMap.tile TileMap.get
    cases hl : lookupOf m.active gi with
    | none =>
      rw [Option.map_none, Option.bind_none]
      cases pyGet m.rows i with
      | none => rfl
      | some r => simp [PreTileMap.row, hl]
    | some ai =>
      rw [Option.map_some, Option.bind_some, hp]
      cases pyGet m.rows i with
      | none => rfl
      | some r => simp [PreTileMap.row, hl]
  · intro a b
    unfold PreTileMap.tile PreTileMap.comps
    dsimp only
    cases lookupOf m.active gi with
    | none => rfl
    | some ai => simp [PreTileMap.row, List.map_take, List.map_drop]

example : ((⟨[2, 1], [1, 0], [[1, 2, 3], [4, 5, 6]]⟩ : PreTileMap ℤ).comp (-1)).bind (fun c => c.get 0) = some [5, 6] := by decide

theorem TileMap.full_WF {npix active : List ℕ} (hn : active.Nodup) (hv : ∀ gi ∈ active, gi < npix.length) (v : α) :
    (TileMap.full npix active v).WF := ⟨hn, hv, by simp [TileMap.full, TileMap.sizes]⟩

/-- C152: a full map has the value in all pixels of its active tiles and, when expanded, zero elsewhere. -/
theorem C152_full [Zero α] {ny nx th tw : ℕ} (hth : 0 < th) (htw : 0 < tw) (active : List ℕ) (hn : active.Nodup)
    (hv : ∀ gi ∈ active, gi < (tileNpix ny nx th tw).length) (v : α) (y x : ℕ) (hy : y < ny) (hx : x < nx) :
    ((∃ gi ∈ active, InTile ny nx th tw gi y x) → (TileMap.full (tileNpix ny nx th tw) active v).toEnmap ny nx th tw y x = v) ∧
    ((¬ ∃ gi ∈ active, InTile ny nx th tw gi y x) → (TileMap.full (tileNpix ny nx th tw) active v).toEnmap ny nx th tw y x = 0) := by
  have w := TileMap.full_WF hn hv v
  rw [toEnmap_eq w hth htw hy hx]
  obtain ⟨h1, h2⟩ := pixTile_lt hth htw hy hx
  have hin : InTile ny nx th tw (pixTile nx th tw y x) y x := by
    unfold InTile pixTile
    rw [ind2grid_grid2ind _ h2]
    have a := (span_iff (t := y / th) hth hy).2 rfl
    have b := (span_iff (t := x / tw) htw hx).2 rfl
    exact ⟨a.1, a.2, b.1, b.2⟩
  have huniq : ∀ gi, InTile ny nx th tw gi y x → gi = pixTile nx th tw y x := by
    intro i h
    unfold InTile at h
    have a := (span_iff hth hy).1 ⟨h.1, h.2.1⟩
    have b := (span_iff htw hx).1 ⟨h.2.2.1, h.2.2.2⟩
    rw [pixTile, ← a, ← b, grid2ind_ind2grid]
  constructor
  · rintro ⟨gi, hgi, hti⟩
    have := huniq gi hti
    subst this
    obtain ⟨t, ht⟩ := TileMap.WF.get_some (m := TileMap.full (tileNpix ny nx th tw) active v) hgi
    have hl := w.get_length ht
    rw [ht, Option.getD_some]
    have hlt := pixIdx_lt hth htw hy hx
    have hlt' : pixIdx nx th tw y x < t.length := by rw [hl]; exact hlt
    rw [List.getD_eq_getElem?_getD, List.getElem?_eq_getElem hlt', Option.getD_some]
    have hmem : t[pixIdx nx th tw y x] ∈ (TileMap.full (tileNpix ny nx th tw) active v).buf := by
      unfold TileMap.get at ht
      rw [Option.map_eq_some_iff] at ht
      obtain ⟨ai, _, rfl⟩ := ht
      exact List.mem_of_mem_drop (List.mem_of_mem_take (List.getElem_mem hlt'))
    exact List.eq_of_mem_replicate hmem
  · intro h
    have : pixTile nx th tw y x ∉ active := fun hm => h ⟨_, hm, hin⟩
    rw [TileMap.get_eq_none.2 this]
    simp

/-! ### Insertion -/

/-- Every tile of the result is imap's where imap has it, and omap's where only omap has it. -/
def Inserted (o i r : TileMap α) : Prop :=
  (∀ gi, gi ∈ r.active ↔ gi ∈ o.active ∨ gi ∈ i.active) ∧ ∀ gi, r.get gi = if gi ∈ i.active then i.get gi else o.get gi

/-- C152: insert gives the tiles of imap where it has them and those of omap elsewhere, and changes neither map. If the active tiles of the two are not the same, then the
result is a map of its own: no write through it changes either. Missing: the same active tiles, see C152_alias_refuted. -/
theorem C152_insert_partial [Zero α] (h : TileHeap α) (o i : ℕ) (wo : (h.at_ o).WF) (wi : (h.at_ i).WF)
    (hn : (h.at_ o).npix = (h.at_ i).npix) :
    ∃ h' r, h.insert o i = some (h', r) ∧ Inserted (h.at_ o) (h.at_ i) (h'.at_ r) ∧ (∀ p < h.next, h'.at_ p = h.at_ p) ∧
      ((h.at_ o).active ≠ (h.at_ i).active → ∀ gi val, ∀ p < h.next, (h'.write r gi val).at_ p = h.at_ p) := by
  by_cases hab : (h.at_ o).active = (h.at_ i).active
  · refine ⟨h, i, by simp [TileHeap.insert, hab], ⟨?_, ?_⟩, fun _ _ => rfl, fun hne => absurd hab hne⟩
    · intro gi; rw [hab]; simp
    · intro gi
      by_cases hg : gi ∈ (h.at_ i).active
      · rw [if_pos hg]
      · rw [if_neg hg, TileMap.get_eq_none.2 hg, TileMap.get_eq_none.2 (hab ▸ hg)]
  · obtain ⟨out, h1, w, hn', hact, hg⟩ := binop_ok (fun _ b => b) wo wi hn
    refine ⟨⟨Function.update h.at_ h.next out, h.next + 1⟩, h.next, by simp [TileHeap.insert, hab, h1], ?_, ?_, ?_⟩
    · dsimp only
      rw [Function.update_self]
      refine ⟨hact, fun gi => ?_⟩
      rw [hg]
      have hz : ∀ a b : List α, a.length = b.length → List.zipWith (fun _ b => b) a b = b := by
        intro a b hab
        apply List.ext_getElem
        · simp [hab]
        · intro k _ _; simp
      by_cases hi' : gi ∈ (h.at_ i).active
      · rw [if_pos hi']
        obtain ⟨tb, htb⟩ := TileMap.WF.get_some hi'
        have lb := wi.get_length htb
        rw [htb]
        cases hta : (h.at_ o).get gi with
        | none => simp only [tileCombine]; rw [hz _ _ (by rw [List.length_replicate, lb, hn])]
        | some ta => simp only [tileCombine]; rw [hz _ _ (by rw [wo.get_length hta, lb, hn])]
      · rw [if_neg hi', TileMap.get_eq_none.2 hi']
        cases hta : (h.at_ o).get gi with
        | none => rfl
        | some ta => rfl
    · intro p hp
      dsimp only
      rw [Function.update_of_ne (by omega)]
    · intro _ gi val p hp
      unfold TileHeap.write
      split
      · dsimp only; rw [Function.update_of_ne (by omega)]
      · dsimp only; rw [Function.update_of_ne (by omega), Function.update_of_ne (by omega)]

/-- **C152 refuted (the result is the inserted map).** If both maps have the same active tiles, writing to the result of insert writes to imap, for all maps and values. -/
theorem C152_alias_refuted [Zero α] (h : TileHeap α) (o i : ℕ) (wi : (h.at_ i).WF) (hab : (h.at_ o).active = (h.at_ i).active)
    (gi : ℕ) (hg : gi ∈ (h.at_ i).active) (val : List α) (hv : val.length = (h.at_ i).npix.getD gi 0) :
    ∃ h' r, h.insert o i = some (h', r) ∧ ((h'.write r gi val).at_ i).get gi = some val := by
  obtain ⟨m', h1, _, _, _, g1, _⟩ := wi.set_ok hg hv
  refine ⟨h, i, by simp [TileHeap.insert, hab], ?_⟩
  unfold TileHeap.write
  rw [h1]
  dsimp only
  rw [Function.update_self]
  exact g1

example : let h : TileHeap ℤ := ⟨fun p => if p = 0 then ⟨[1, 1], [0], [5]⟩ else ⟨[1, 1], [1], [7]⟩, 2⟩
    (h.insert 0 1).map (fun r => (r.1.at_ r.2).buf) = some [5, 7] := by decide

/-! ### Compatibility -/

/-- C152: 2 means that shapes, tile shapes and active tiles agree, 1 that the active tiles differ, 0 that one of the shapes does. Missing: the wcs, see
C152_compatible_refuted. -/
theorem C152_compatible_partial (a b : TileGeo) :
    (a.compatible b = 2 ↔ a.ny = b.ny ∧ a.nx = b.nx ∧ a.th = b.th ∧ a.tw = b.tw ∧ a.active = b.active) ∧
    (a.compatible b = 1 ↔ a.ny = b.ny ∧ a.nx = b.nx ∧ a.th = b.th ∧ a.tw = b.tw ∧ a.active ≠ b.active) ∧
    (a.compatible b = 0 ↔ ¬ (a.ny = b.ny ∧ a.nx = b.nx ∧ a.th = b.th ∧ a.tw = b.tw)) := by
  unfold TileGeo.compatible
  have hl : a.active = b.active → a.active.length = b.active.length := fun h => by rw [h]
  simp only [ne_eq, Prod.mk.injEq]
  split_ifs with h1 h2 h3 <;> tauto

/-- **C152 refuted (compatible maps of different places).** Geometries whose pixels are at different places are reported as strictly compatible. -/
theorem C152_compatible_refuted : ∃ a b : TileGeo, a.compatible b = 2 ∧ ∃ p : ℕ, p < a.ny ∧ a.wy.pix2sky p ≠ b.wy.pix2sky p :=
  ⟨⟨4, 4, 2, 2, [0], ⟨0, 1, 1⟩, ⟨0, 1, 1⟩⟩, ⟨4, 4, 2, 2, [0], ⟨10, 1, 1⟩, ⟨0, 1, 1⟩⟩, by decide +kernel, 0, by decide +kernel⟩

/-! ### Products -/

theorem sub_map_range (npix active : List ℕ) (tot : ℕ) (f : ℕ → ℚ) (ai p : ℕ) (h : (⟨npix, active, []⟩ : TileMap ℚ).off ai + p < tot)
    (hp : p < (⟨npix, active, []⟩ : TileMap ℚ).off (ai + 1) - (⟨npix, active, []⟩ : TileMap ℚ).off ai) :
    ((⟨npix, active, (List.range tot).map f⟩ : TileMap ℚ).sub ai).getD p 0 = f ((⟨npix, active, []⟩ : TileMap ℚ).off ai + p) := by
  change (List.take ((⟨npix, active, []⟩ : TileMap ℚ).off (ai + 1) - (⟨npix, active, []⟩ : TileMap ℚ).off ai)
    (List.drop ((⟨npix, active, []⟩ : TileMap ℚ).off ai) ((List.range tot).map f))).getD p 0 = _
  rw [List.getD_eq_getElem?_getD, List.getElem?_take_of_lt hp, List.getElem?_drop, List.getElem?_map, List.getElem?_range h]
  rfl

theorem sub_getD (npix active : List ℕ) (buf : List ℚ) (ai p : ℕ)
    (hp : p < (⟨npix, active, []⟩ : TileMap ℚ).off (ai + 1) - (⟨npix, active, []⟩ : TileMap ℚ).off ai) :
    ((⟨npix, active, buf⟩ : TileMap ℚ).sub ai).getD p 0 = buf.getD ((⟨npix, active, []⟩ : TileMap ℚ).off ai + p) 0 := by
  change (List.take ((⟨npix, active, []⟩ : TileMap ℚ).off (ai + 1) - (⟨npix, active, []⟩ : TileMap ℚ).off ai)
    (List.drop ((⟨npix, active, []⟩ : TileMap ℚ).off ai) buf)).getD p 0 = _
  rw [List.getD_eq_getElem?_getD, List.getElem?_take_of_lt hp, List.getElem?_drop, List.getD_eq_getElem?_getD]

/-- What einsum on the flat arrays does to the tiles: tile number `ai` of the product is made of tile number `ai` of the active list of both, whichever tiles these are. -/
theorem mapMul_tiles {n : ℕ} (m : TileMat n) (v : TileVec n) (hs : m.active.map (fun g => m.npix.getD g 0) = v.active.map fun g => v.npix.getD g 0)
    (wm : ∀ a b, (m.comp a b).WF) (wv : ∀ b, (v.comp b).WF) (hmn : m.active.Nodup) (hvn : v.active.Nodup) :
    ∃ r, mapMul m v (m.active.map fun g => m.npix.getD g 0).sum = some r ∧ r.active = m.active ∧ r.npix = m.npix ∧
      ∀ (ai : ℕ) (h1 : ai < m.active.length) (h2 : ai < v.active.length) (a : Fin n) (p : ℕ), p < m.npix.getD m.active[ai] 0 →
        (((r.comp a).get m.active[ai]).getD []).getD p 0 =
          ∑ b, (((m.comp a b).get m.active[ai]).getD []).getD p 0 * (((v.comp b).get v.active[ai]).getD []).getD p 0 := by
  have l1 : ∀ a b, (m.dat a b).length = (m.active.map fun g => m.npix.getD g 0).sum := fun a b => (wm a b).size
  have l2 : ∀ b, (v.dat b).length = (m.active.map fun g => m.npix.getD g 0).sum := fun b => by rw [hs]; exact (wv b).size
  refine ⟨_, if_pos ⟨l1, l2⟩, rfl, rfl, ?_⟩
  intro ai h1 h2 a p hp
  have g1 : ∀ buf : List ℚ, (⟨m.npix, m.active, buf⟩ : TileMap ℚ).get m.active[ai] = some ((⟨m.npix, m.active, buf⟩ : TileMap ℚ).sub ai) := by
    intro buf
    unfold TileMap.get
    rw [lookupOf_getElem hmn h1]; rfl
  have g2 : ∀ buf : List ℚ, (⟨v.npix, v.active, buf⟩ : TileMap ℚ).get v.active[ai] = some ((⟨v.npix, v.active, buf⟩ : TileMap ℚ).sub ai) := by
    intro buf
    unfold TileMap.get
    rw [lookupOf_getElem hvn h2]; rfl
  have ho : ∀ k, (⟨v.npix, v.active, []⟩ : TileMap ℚ).off k = (⟨m.npix, m.active, []⟩ : TileMap ℚ).off k := by
    intro k
    unfold TileMap.off TileMap.sizes
    dsimp only
    rw [hs]
  have hsucc := (⟨m.npix, m.active, []⟩ : TileMap ℚ).off_succ (i := ai) (gi := m.active[ai]) (List.getElem?_eq_getElem h1)
  have hle := (⟨m.npix, m.active, []⟩ : TileMap ℚ).off_le (ai + 1)
  change _ ≤ (m.active.map fun g => m.npix.getD g 0).sum at hle
  change _ = m.npix.getD m.active[ai] 0 at hsucc
  unfold TileVec.comp TileMat.comp
  dsimp only
  rw [g1, Option.getD_some, sub_map_range _ _ _ _ _ _ (by omega) (by omega)]
  refine Finset.sum_congr rfl fun b _ => ?_
  rw [g1, g2, Option.getD_some, Option.getD_some, sub_getD _ _ _ _ _ (by omega), sub_getD _ _ _ _ _ (by rw [ho, ho]; omega), ho]

/-- C152: with the same active tiles in the same order, map_mul multiplies the matrix and the vector in every pixel of every tile. Missing: other active tiles, see
C152_mul_refuted. -/
theorem C152_mul_partial {n : ℕ} (m : TileMat n) (v : TileVec n) (hnp : m.npix = v.npix) (hact : m.active = v.active)
    (wm : ∀ a b, (m.comp a b).WF) (wv : ∀ b, (v.comp b).WF) (hmn : m.active.Nodup) :
    ∃ r, mapMul m v (m.active.map fun g => m.npix.getD g 0).sum = some r ∧ r.active = m.active ∧ r.npix = m.npix ∧
      ∀ gi ∈ m.active, ∀ a p, p < m.npix.getD gi 0 →
        (((r.comp a).get gi).getD []).getD p 0 =
          ∑ b, (((m.comp a b).get gi).getD []).getD p 0 * (((v.comp b).get gi).getD []).getD p 0 := by
  obtain ⟨r, h1, h2, h3, h4⟩ := mapMul_tiles m v (by rw [hnp, hact]) wm wv hmn (hact ▸ hmn)
  refine ⟨r, h1, h2, h3, ?_⟩
  intro gi hgi a p hp
  obtain ⟨ai, hai, rfl⟩ := List.getElem_of_mem hgi
  have := h4 ai hai (hact ▸ hai) a p hp
  rw [this]
  have e : v.active[ai]'(hact ▸ hai) = m.active[ai] := by simp only [hact]
  rw [e]

/-- **C152 refuted (product of different tiles).** With different active tiles map_mul neither fails nor multiplies tile by tile: for a matrix that has tile 0 and a vector that has tile 1
the product has tile 0, made of tile 0 of the matrix and tile 1 of the vector. -/
theorem C152_mul_refuted : ∃ (m : TileMat 1) (v : TileVec 1), m.npix = v.npix ∧ (∀ a b, (m.comp a b).get 0 = some [2]) ∧ (∀ b, (v.comp b).get 0 = none ∧ (v.comp b).get 1 = some [3]) ∧
    ∃ r, mapMul m v 1 = some r ∧ ∀ a, (r.comp a).get 0 = some [6] := by
  refine ⟨⟨[1, 1], [0], fun _ _ => [2]⟩, ⟨[1, 1], [1], fun _ => [3]⟩, rfl, ?_, ?_, ⟨[1, 1], [0], fun _ => [6]⟩, ?_, ?_⟩
  · unfold TileMat.comp; intro _ _; dsimp only; decide +kernel
  · unfold TileVec.comp; intro _; dsimp only; constructor <;> decide +kernel
  · unfold mapMul
    rw [if_pos ⟨fun _ _ => rfl, fun _ => rfl⟩]
    congr 2
    funext a
    simp
    norm_num
  · unfold TileVec.comp; intro _; dsimp only; decide +kernel

end Pixell
