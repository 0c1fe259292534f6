import Verif.Lemmas.Tiles
import Mathlib.Order.Lattice
import Mathlib.Data.List.Sort

namespace Pixell

variable {α : Type}

/-! ### Dense expansion -/

theorem foldl_pointwise {β ι : Type} (P : ι → Nat → Nat → Prop) [∀ i y x, Decidable (P i y x)]
    (V : ι → Nat → Nat → β) (l : List ι) (o : Nat → Nat → β) (y x : Nat) :
    l.foldl (fun o i y x => if P i y x then V i y x else o y x) o y x =
      l.foldl (fun v i => if P i y x then V i y x else v) (o y x) := by
  induction l generalizing o with
  | nil => rfl
  | cons i l ih => simp only [List.foldl_cons]; rw [ih]

theorem foldl_hit {β ι : Type} [DecidableEq ι] (P : ι → Prop) [DecidablePred P] (V : ι → β) (k : ι)
    (l : List ι) (h : ∀ i ∈ l, P i ↔ i = k) (v : β) :
    l.foldl (fun v i => if P i then V i else v) v = if k ∈ l then V k else v := by
  induction l generalizing v with
  | nil => simp
  | cons i l ih =>
    rw [List.foldl_cons, ih (fun j hj => h j (by simp [hj]))]
    have hi := h i (by simp)
    by_cases hk : k ∈ l
    · simp [hk]
    · by_cases hik : i = k
      · subst hik; simp [hi.2 rfl]
      · have : ¬ P i := fun hp => hik (hi.1 hp)
        have hki : ¬ k = i := fun e => hik e.symm
        simp [hk, this, hki]

theorem foldl_miss {β ι : Type} (P : ι → Prop) [DecidablePred P] (V : ι → β) (l : List ι)
    (h : ∀ i ∈ l, ¬ P i) (v : β) : l.foldl (fun v i => if P i then V i else v) v = v := by
  induction l generalizing v with
  | nil => rfl
  | cons i l ih =>
    rw [List.foldl_cons, if_neg (h i (by simp)), ih (fun j hj => h j (by simp [hj]))]

theorem getElem?_flatMap_map {β γ δ : Type} (f : β → γ → δ) (k : List γ) (l : List β) (i j : Nat)
    (hj : j < k.length) :
    (l.flatMap fun h => k.map (f h))[i * k.length + j]? = (l[i]?).bind fun h => (k[j]?).map (f h) := by
  induction l generalizing i with
  | nil => simp
  | cons h l ih =>
    rw [List.flatMap_cons]
    cases i with
    | zero => rw [List.getElem?_append_left (by simpa using hj)]; simp
    | succ i =>
      rw [List.getElem?_append_right (by simp [Nat.add_mul]; omega)]
      have : (i + 1) * k.length + j - (k.map (f h)).length = i * k.length + j := by
        simp [Nat.add_mul]; omega
      rw [this, ih i]; simp

theorem length_tileNpix (ny nx th tw : Nat) :
    (tileNpix ny nx th tw).length = gridLen ny th * gridLen nx tw := by
  simp [tileNpix, length_tileLens, List.length_flatMap]

theorem tileNpix_getD {ny nx th tw ty tx : Nat} (hth : 0 < th) (htw : 0 < tw)
    (hy : ty < gridLen ny th) (hx : tx < gridLen nx tw) :
    (tileNpix ny nx th tw).getD (grid2ind (gridLen nx tw) ty tx) 0 =
      ((tileSpan ny th ty).2 - (tileSpan ny th ty).1) * ((tileSpan nx tw tx).2 - (tileSpan nx tw tx).1) := by
  rw [← tileLens_getD hth hy, ← tileLens_getD htw hx]
  have := getElem?_flatMap_map (fun h w => h * w) (tileLens nx tw) (tileLens ny th) ty tx
    (by rw [length_tileLens]; exact hx)
  rw [length_tileLens] at this
  rw [List.getD_eq_getElem?_getD, tileNpix, grid2ind, this]
  rw [List.getD_eq_getElem?_getD, List.getD_eq_getElem?_getD]
  rw [List.getElem?_eq_getElem (by rw [length_tileLens]; exact hy),
    List.getElem?_eq_getElem (by rw [length_tileLens]; exact hx)]
  simp

theorem span_iff {s ts t y : Nat} (hts : 0 < ts) (hy : y < s) :
    ((tileSpan s ts t).1 ≤ y ∧ y < (tileSpan s ts t).2) ↔ t = y / ts := by
  simp only [tileSpan]
  have h1 := Nat.div_add_mod y ts
  have h2 := Nat.mod_lt y hts
  rw [Nat.mul_comm] at h1
  constructor
  · rintro ⟨ha, hb⟩
    have : y < (t + 1) * ts := by rw [Nat.add_mul]; omega
    exact ((Nat.div_eq_iff hts).2 ⟨by omega, by omega⟩).symm
  · rintro rfl; omega

theorem ind2grid_lt {gy gx i : Nat} (h : i < gy * gx) : (ind2grid gx i).1 < gy ∧ (ind2grid gx i).2 < gx := by
  have hgx : 0 < gx := by
    rcases Nat.eq_zero_or_pos gx with rfl | h'
    · simp at h
    · exact h'
  exact ⟨by simp only [ind2grid]; rw [Nat.div_lt_iff_lt_mul hgx]; exact h, Nat.mod_lt _ hgx⟩

theorem grid2ind_ind2grid (gx i : Nat) : grid2ind gx (ind2grid gx i).1 (ind2grid gx i).2 = i := by
  simp only [grid2ind, ind2grid]
  rw [Nat.mul_comm]; exact Nat.div_add_mod i gx

theorem ind2grid_grid2ind {gx tx : Nat} (ty : Nat) (h : tx < gx) : ind2grid gx (grid2ind gx ty tx) = (ty, tx) := by
  simp only [grid2ind, ind2grid, Prod.mk.injEq]
  have hgx : 0 < gx := by omega
  constructor
  · rw [Nat.add_comm, Nat.add_mul_div_right _ _ hgx, Nat.div_eq_of_lt h]; omega
  · rw [Nat.add_comm, Nat.add_mul_mod_self_right, Nat.mod_eq_of_lt h]

/-- Index of the tile a pixel lies in. -/
def pixTile (nx th tw y x : Nat) : Nat := grid2ind (gridLen nx tw) (y / th) (x / tw)

/-- Position of a pixel in its tile's row-major buffer. -/
def pixIdx (nx th tw y x : Nat) : Nat :=
  (y - (y / th) * th) * ((tileSpan nx tw (x / tw)).2 - (tileSpan nx tw (x / tw)).1) + (x - (x / tw) * tw)

theorem pixTile_lt {ny nx th tw y x : Nat} (hth : 0 < th) (htw : 0 < tw) (hy : y < ny) (hx : x < nx) :
    y / th < gridLen ny th ∧ x / tw < gridLen nx tw := by
  constructor
  · rw [lt_gridLen hth]; have := Nat.div_mul_le_self y th; omega
  · rw [lt_gridLen htw]; have := Nat.div_mul_le_self x tw; omega

theorem pixIdx_lt {ny nx th tw y x : Nat} (hth : 0 < th) (htw : 0 < tw) (hy : y < ny) (hx : x < nx) :
    pixIdx nx th tw y x < (tileNpix ny nx th tw).getD (pixTile nx th tw y x) 0 := by
  obtain ⟨h1, h2⟩ := pixTile_lt hth htw hy hx
  rw [pixTile, tileNpix_getD hth htw h1 h2]
  have a := (span_iff (t := y / th) hth hy).2 rfl
  have b := (span_iff (t := x / tw) htw hx).2 rfl
  unfold pixIdx
  have hh : y - y / th * th + 1 ≤ (tileSpan ny th (y / th)).2 - (tileSpan ny th (y / th)).1 := by
    have : (tileSpan ny th (y / th)).1 = y / th * th := rfl
    omega
  have hw : x - x / tw * tw < (tileSpan nx tw (x / tw)).2 - (tileSpan nx tw (x / tw)).1 := by
    have : (tileSpan nx tw (x / tw)).1 = x / tw * tw := rfl
    omega
  have h3 := Nat.mul_le_mul_right ((tileSpan nx tw (x / tw)).2 - (tileSpan nx tw (x / tw)).1) hh
  rw [Nat.add_mul] at h3
  omega

/-- Value of the dense map at a pixel: the entry of its tile, or zero if the tile is not active. -/
theorem toEnmap_eq [Zero α] {m : TileMap α} (w : m.WF) {ny nx th tw y x : Nat} (hth : 0 < th) (htw : 0 < tw)
    (hy : y < ny) (hx : x < nx) :
    m.toEnmap ny nx th tw y x =
      ((m.get (pixTile nx th tw y x)).getD []).getD (pixIdx nx th tw y x) 0 := by
  unfold TileMap.toEnmap
  obtain ⟨hy', hx'⟩ := pixTile_lt hth htw hy hx
  rw [foldl_pointwise (P := fun ai y x =>
      (tileSpan ny th (ind2grid (gridLen nx tw) (m.active.getD ai 0)).1).1 ≤ y ∧
      y < (tileSpan ny th (ind2grid (gridLen nx tw) (m.active.getD ai 0)).1).2 ∧
      (tileSpan nx tw (ind2grid (gridLen nx tw) (m.active.getD ai 0)).2).1 ≤ x ∧
      x < (tileSpan nx tw (ind2grid (gridLen nx tw) (m.active.getD ai 0)).2).2)
    (V := fun ai y x => (m.sub ai).getD
      ((y - (tileSpan ny th (ind2grid (gridLen nx tw) (m.active.getD ai 0)).1).1) *
        ((tileSpan nx tw (ind2grid (gridLen nx tw) (m.active.getD ai 0)).2).2 -
         (tileSpan nx tw (ind2grid (gridLen nx tw) (m.active.getD ai 0)).2).1) +
        (x - (tileSpan nx tw (ind2grid (gridLen nx tw) (m.active.getD ai 0)).2).1)) 0)]
  have hP : ∀ ai ∈ List.range m.active.length,
      ((tileSpan ny th (ind2grid (gridLen nx tw) (m.active.getD ai 0)).1).1 ≤ y ∧
      y < (tileSpan ny th (ind2grid (gridLen nx tw) (m.active.getD ai 0)).1).2 ∧
      (tileSpan nx tw (ind2grid (gridLen nx tw) (m.active.getD ai 0)).2).1 ≤ x ∧
      x < (tileSpan nx tw (ind2grid (gridLen nx tw) (m.active.getD ai 0)).2).2) ↔
      m.active.getD ai 0 = pixTile nx th tw y x := by
    intro ai _
    have e1 := span_iff (t := (ind2grid (gridLen nx tw) (m.active.getD ai 0)).1) hth hy
    have e2 := span_iff (t := (ind2grid (gridLen nx tw) (m.active.getD ai 0)).2) htw hx
    rw [← and_assoc, e1, e2, pixTile]
    constructor
    · rintro ⟨h1, h2⟩
      rw [← h1, ← h2, grid2ind_ind2grid]
    · intro h
      rw [h, ind2grid_grid2ind _ hx']
      exact ⟨rfl, rfl⟩
  by_cases hm : pixTile nx th tw y x ∈ m.active
  · obtain ⟨k, hk, hke⟩ := List.getElem_of_mem hm
    rw [foldl_hit _ _ k]
    · rw [if_pos (List.mem_range.2 hk)]
      have hkD : m.active.getD k 0 = pixTile nx th tw y x := by
        rw [List.getD_eq_getElem?_getD, List.getElem?_eq_getElem hk]; exact hke
      have hg : m.get (pixTile nx th tw y x) = some (m.sub k) := by
        rw [← hke, TileMap.get, lookupOf_getElem w.nodup hk]; rfl
      rw [hg, hkD, pixTile, ind2grid_grid2ind _ hx']
      rfl
    · intro ai hai
      rw [hP ai hai]
      have hai' := List.mem_range.1 hai
      rw [List.getD_eq_getElem?_getD, List.getElem?_eq_getElem hai', Option.getD_some, ← hke]
      exact List.Nodup.getElem_inj_iff w.nodup
  · rw [foldl_miss]
    · rw [TileMap.get_eq_none.2 hm]; rfl
    · intro ai hai h
      have := (hP ai hai).1 h
      have hai' := List.mem_range.1 hai
      rw [List.getD_eq_getElem?_getD, List.getElem?_eq_getElem hai', Option.getD_some] at this
      exact hm (this ▸ List.getElem_mem hai')

/-! ### Binary operations -/

theorem TileMap.WF.get_some {m : TileMap α} {gi : Nat} (h : gi ∈ m.active) : ∃ t, m.get gi = some t := by
  cases ht : m.get gi with
  | none => exact absurd h (TileMap.get_eq_none.1 ht)
  | some t => exact ⟨t, rfl⟩

/-- What a tile of the combined map should be. -/
def tileCombine [Zero α] (op : α → α → α) (n : Nat) : Option (List α) → Option (List α) → Option (List α)
  | none, none => none
  | some a, none => some a
  | none, some b => some (List.zipWith op (List.replicate n 0) b)
  | some a, some b => some (List.zipWith op a b)

theorem mem_uniqueInds {n : Nat} {a b : List Nat} (ha : ∀ i ∈ a, i < n) (hb : ∀ i ∈ b, i < n) (i : Nat) :
    i ∈ uniqueInds n a b ↔ i ∈ a ∨ i ∈ b := by
  simp only [uniqueInds, List.mem_filter, List.mem_range, decide_eq_true_eq]
  constructor
  · exact fun h => h.2
  · intro h; refine ⟨?_, h⟩; rcases h with h | h
    · exact ha i h
    · exact hb i h

theorem fast_path (op : α → α → α) {a b : TileMap α} (wa : a.WF) (wb : b.WF) (hn : a.npix = b.npix)
    (hab : a.active = b.active) :
    ∃ buf, tileOp op a.buf b.buf = some buf ∧ ({ a with buf := buf } : TileMap α).WF ∧
      ∀ gi, ({ a with buf := buf } : TileMap α).get gi =
        (a.get gi).bind fun ta => (b.get gi).map fun tb => List.zipWith op ta tb := by
  have hs : a.sizes = b.sizes := by simp [TileMap.sizes, hn, hab]
  have hl : a.buf.length = b.buf.length := by rw [wa.size, wb.size, hs]
  refine ⟨List.zipWith op a.buf b.buf, by simp [tileOp, hl], ⟨wa.nodup, wa.valid, ?_⟩, ?_⟩
  · rw [List.length_zipWith]
    have := wa.size
    change _ = a.sizes.sum
    omega
  · intro gi
    have hoff : ∀ i, b.off i = a.off i := fun i => by simp [TileMap.off, hs]
    simp only [TileMap.get, ← hab]
    cases lookupOf a.active gi with
    | none => rfl
    | some ai =>
      simp only [Option.map_some, Option.bind_some, TileMap.sub, hoff]
      congr 1
      rw [← List.take_zipWith, ← List.drop_zipWith]
      rfl

theorem binop_ok [Zero α] (op : α → α → α) {a b : TileMap α} (wa : a.WF) (wb : b.WF) (hn : a.npix = b.npix) :
    ∃ out, a.binop op b = some out ∧ out.WF ∧ out.npix = a.npix ∧
      (∀ gi, gi ∈ out.active ↔ gi ∈ a.active ∨ gi ∈ b.active) ∧
      ∀ gi, out.get gi = tileCombine op (a.npix.getD gi 0) (a.get gi) (b.get gi) := by
  by_cases hab : a.active = b.active
  · obtain ⟨buf, h1, h2, h3⟩ := fast_path op wa wb hn hab
    refine ⟨{ a with buf := buf }, ?_, h2, rfl, ?_, ?_⟩
    · simp [TileMap.binop, hab, h1]
    · intro gi; rw [← hab]; simp
    · intro gi
      rw [h3]
      by_cases hg : gi ∈ a.active
      · obtain ⟨ta, hta⟩ := TileMap.WF.get_some hg
        obtain ⟨tb, htb⟩ := TileMap.WF.get_some (hab ▸ hg)
        simp [hta, htb, tileCombine]
      · rw [TileMap.get_eq_none.2 hg, TileMap.get_eq_none.2 (hab ▸ hg)]; rfl
  · have hvb : ∀ gi ∈ b.active, gi < a.npix.length := by rw [hn]; exact wb.valid
    have hmem := mem_uniqueInds wa.valid hvb
    have hnd : (uniqueInds a.npix.length a.active b.active).Nodup := List.nodup_range.filter _
    have hval : ∀ gi ∈ uniqueInds a.npix.length a.active b.active, gi < a.npix.length := by
      intro gi h; rcases (hmem gi).1 h with h | h
      · exact wa.valid gi h
      · exact hvb gi h
    have w0 := TileMap.zeros_WF (α := α) hnd hval
    obtain ⟨m1, h1, w1, a1, n1, o1, g1⟩ := TileMap.update_ok (f := fun gi _ => a.get gi) (inds := a.active) w0
      wa.nodup (fun gi h => (hmem gi).2 (Or.inl h))
      (fun gi h t _ => by
        obtain ⟨ta, hta⟩ := TileMap.WF.get_some h
        exact ⟨ta, hta, wa.get_length hta⟩)
    have hm1 : ∀ gi, gi ∈ b.active → m1.get gi =
        some ((a.get gi).getD (List.replicate (a.npix.getD gi 0) 0)) := by
      intro gi h
      have hz := TileMap.zeros_get (α := α) hnd hval ((hmem gi).2 (Or.inr h))
      by_cases hg : gi ∈ a.active
      · obtain ⟨ta, hta⟩ := TileMap.WF.get_some hg
        rw [g1 gi hg, hz]; simp [hta]
      · rw [o1 gi hg, hz, TileMap.get_eq_none.2 hg]; rfl
    obtain ⟨m2, h2, w2, a2, n2, o2, g2⟩ := TileMap.update_ok
      (f := fun gi t => (b.get gi).bind fun tb => tileOp op t tb) (inds := b.active) w1
      wb.nodup (fun gi h => by rw [a1]; exact (hmem gi).2 (Or.inr h))
      (fun gi h t ht => by
        obtain ⟨tb, htb⟩ := TileMap.WF.get_some h
        have l1 := w1.get_length ht
        have l2 := wb.get_length htb
        have hnn : m1.npix = b.npix := n1.trans hn
        rw [hnn] at l1 ⊢
        refine ⟨List.zipWith op t tb, by simp [htb, tileOp, l1, l2], by simp [l1, l2]⟩)
    refine ⟨m2, ?_, w2, n2.trans n1, ?_, ?_⟩
    · simp only [TileMap.binop, if_neg hab]
      simp only [h1, Option.bind_eq_bind, Option.bind_some, h2]
    · intro gi; rw [a2, a1]; exact hmem gi
    · intro gi
      by_cases hb : gi ∈ b.active
      · obtain ⟨tb, htb⟩ := TileMap.WF.get_some hb
        have hl := wb.get_length htb
        rw [g2 gi hb, hm1 gi hb, htb]
        rw [← hn] at hl
        by_cases ha : gi ∈ a.active
        · obtain ⟨ta, hta⟩ := TileMap.WF.get_some ha
          simp [hta, tileOp, wa.get_length hta, hl, tileCombine]
        · rw [TileMap.get_eq_none.2 ha]
          simp [tileOp, hl, tileCombine]
      · rw [o2 gi hb, TileMap.get_eq_none.2 hb]
        by_cases ha : gi ∈ a.active
        · obtain ⟨ta, hta⟩ := TileMap.WF.get_some ha
          rw [g1 gi ha, TileMap.zeros_get hnd hval ((hmem gi).2 (Or.inl ha)), hta]; rfl
        · rw [o1 gi ha, TileMap.get_eq_none.2 ha]
          have : ¬ gi ∈ uniqueInds a.npix.length a.active b.active := by
            rw [hmem]; tauto
          rw [TileMap.get_eq_none.2 this]; rfl

theorem ibinop_ok [Zero α] (op : α → α → α) {a b : TileMap α} (wa : a.WF) (wb : b.WF) (hn : a.npix = b.npix)
    (hsub : ∀ gi ∈ b.active, gi ∈ a.active) :
    ∃ out, a.ibinop op b = some out ∧ out.WF ∧ out.npix = a.npix ∧ out.active = a.active ∧
      ∀ gi, out.get gi = tileCombine op (a.npix.getD gi 0) (a.get gi) (b.get gi) := by
  by_cases hab : a.active = b.active
  · obtain ⟨buf, h1, h2, h3⟩ := fast_path op wa wb hn hab
    refine ⟨{ a with buf := buf }, ?_, h2, rfl, rfl, ?_⟩
    · simp [TileMap.ibinop, hab, h1]
    · intro gi
      rw [h3]
      by_cases hg : gi ∈ a.active
      · obtain ⟨ta, hta⟩ := TileMap.WF.get_some hg
        obtain ⟨tb, htb⟩ := TileMap.WF.get_some (hab ▸ hg)
        simp [hta, htb, tileCombine]
      · rw [TileMap.get_eq_none.2 hg, TileMap.get_eq_none.2 (hab ▸ hg)]; rfl
  · obtain ⟨m2, h2, w2, a2, n2, o2, g2⟩ := TileMap.update_ok
      (f := fun gi t => (b.get gi).bind fun tb => tileOp op t tb) (inds := b.active) wa
      wb.nodup hsub
      (fun gi h t ht => by
        obtain ⟨tb, htb⟩ := TileMap.WF.get_some h
        have l1 := wa.get_length ht
        have l2 := wb.get_length htb
        rw [hn] at l1 ⊢
        refine ⟨List.zipWith op t tb, by simp [htb, tileOp, l1, l2], by simp [l1, l2]⟩)
    have hall : ¬ (b.active.any fun gi => (lookupOf a.active gi).isNone) = true := by
      rw [List.any_eq_true]
      rintro ⟨gi, h1, h2⟩
      obtain ⟨k, hk⟩ := lookupOf_some (hsub gi h1)
      simp [hk] at h2
    refine ⟨m2, ?_, w2, n2, a2, ?_⟩
    · simp only [TileMap.ibinop, if_neg hab, if_neg hall]
      exact h2
    · intro gi
      by_cases hb : gi ∈ b.active
      · obtain ⟨tb, htb⟩ := TileMap.WF.get_some hb
        obtain ⟨ta, hta⟩ := TileMap.WF.get_some (hsub gi hb)
        have hl := wb.get_length htb
        rw [← hn] at hl
        rw [g2 gi hb, hta, htb]
        simp [tileOp, wa.get_length hta, hl, tileCombine]
      · rw [o2 gi hb, TileMap.get_eq_none.2 hb]
        cases a.get gi <;> rfl

theorem ibinop_fail (op : α → α → α) {a b : TileMap α} {gi : Nat} (hb : gi ∈ b.active) (ha : gi ∉ a.active) :
    a.ibinop op b = none := by
  have hab : ¬ a.active = b.active := fun h => ha (h ▸ hb)
  have : (b.active.any fun gi => (lookupOf a.active gi).isNone) = true := by
    rw [List.any_eq_true]; exact ⟨gi, hb, by simp [lookupOf_none ha]⟩
  simp [TileMap.ibinop, hab, this]

theorem combine_getD [Zero α] {op : α → α → α} (h0 : ∀ x, op x 0 = x) {n i : Nat} (hi : i < n)
    {ta tb : Option (List α)} (la : ∀ t, ta = some t → t.length = n) (lb : ∀ t, tb = some t → t.length = n) :
    ((tileCombine op n ta tb).getD []).getD i 0 = op ((ta.getD []).getD i 0) ((tb.getD []).getD i 0) := by
  have hz : ∀ a b : List α, a.length = n → b.length = n →
      (List.zipWith op a b).getD i 0 = op (a.getD i 0) (b.getD i 0) := by
    intro a b ha hb
    simp [List.getD_eq_getElem?_getD, List.getElem?_zipWith, List.getElem?_eq_getElem (ha.symm ▸ hi : i < a.length),
      List.getElem?_eq_getElem (hb.symm ▸ hi : i < b.length)]
  cases ta with
  | none => cases tb with
    | none => simp [tileCombine, h0]
    | some b =>
      simp only [tileCombine, Option.getD_some, Option.getD_none]
      rw [hz _ _ (by simp) (lb b rfl)]
      simp [hi]
  | some a => cases tb with
    | none => simp [tileCombine, h0]
    | some b => exact hz a b (la a rfl) (lb b rfl)

/-! ### Redistribution -/

theorem sendSeg_eq {m : TileMap α} (w : m.WF) (oact : List Nat) :
    sendSeg m oact = (m.active.filter (· ∈ oact)).flatMap fun gi => (m.get gi).getD [] := by
  have hact : m.active = (List.range m.active.length).map fun i => m.active.getD i 0 := by
    apply List.ext_getElem
    · simp
    · intro i h1 h2; simp [h1]
  conv => rhs; rw [hact]
  rw [List.filter_map, List.flatMap_map, sendSeg]
  apply List.flatMap_congr
  intro ai hai
  have hlt := List.mem_range.1 (List.mem_filter.1 hai).1
  rw [List.getD_eq_getElem?_getD, List.getElem?_eq_getElem hlt, Option.getD_some, TileMap.get,
    lookupOf_getElem w.nodup hlt]
  rfl

theorem filter_comm_sorted {a b : List Nat} (ha : a.Pairwise (· < ·)) (hb : b.Pairwise (· < ·)) :
    a.filter (· ∈ b) = b.filter (· ∈ a) := by
  apply List.Perm.eq_of_pairwise (le := (· < ·))
  · intro x y _ _ h1 h2; omega
  · exact ha.filter _
  · exact hb.filter _
  · rw [List.perm_ext_iff_of_nodup]
    · intro x; simp [and_comm]
    · exact (ha.imp (fun h => Nat.ne_of_lt h)).filter _
    · exact (hb.imp (fun h => Nat.ne_of_lt h)).filter _

theorem recvLoop_ok [Add α] (iact : List Nat) (T : Nat → List α) (rest : List α) (L : List Nat) {out : TileMap α}
    (w : out.WF) (hn : L.Nodup) (hact : ∀ gi ∈ L, gi ∈ out.active)
    (hT : ∀ gi ∈ L, gi ∈ iact → (T gi).length = out.npix.getD gi 0) :
    ∃ out', recvLoop iact L ((L.filter (· ∈ iact)).flatMap T ++ rest, out) = some (rest, out') ∧ out'.WF ∧
      out'.active = out.active ∧ out'.npix = out.npix ∧
      (∀ gi, gi ∉ L → out'.get gi = out.get gi) ∧
      ∀ gi ∈ L, out'.get gi = if gi ∈ iact then (out.get gi).map fun t => List.zipWith (· + ·) t (T gi)
        else out.get gi := by
  induction L generalizing out with
  | nil => exact ⟨out, rfl, w, rfl, rfl, fun _ _ => rfl, fun _ h => by simp at h⟩
  | cons g L ih =>
    rw [List.nodup_cons] at hn
    have hne : ∀ gi ∈ L, gi ≠ g := fun gi h hh => hn.1 (hh ▸ h)
    by_cases hg : g ∈ iact
    · obtain ⟨t, ht⟩ := TileMap.WF.get_some (hact g (by simp))
      have hl := w.get_length ht
      have hTl := hT g (by simp) hg
      have hlz : (List.zipWith (· + ·) t (T g)).length = out.npix.getD g 0 := by
        rw [List.length_zipWith]; omega
      obtain ⟨m1, h1, w1, a1, n1, g1, o1⟩ := w.set_ok (hact g (by simp)) hlz
      obtain ⟨m2, h2, w2, a2, n2, o2, g2⟩ := ih w1 hn.2
        (fun gi h => by rw [a1]; exact hact gi (by simp [h]))
        (fun gi h hi => by rw [n1]; exact hT gi (by simp [h]) hi)
      refine ⟨m2, ?_, w2, a2.trans a1, n2.trans n1, ?_, ?_⟩
      · have e1 : (T g ++ ((L.filter (· ∈ iact)).flatMap T ++ rest)).take t.length = T g := by
          rw [hl, ← hTl, List.take_left]
        have e2 : (T g ++ ((L.filter (· ∈ iact)).flatMap T ++ rest)).drop t.length =
            (L.filter (· ∈ iact)).flatMap T ++ rest := by
          rw [hl, ← hTl, List.drop_left]
        rw [List.filter_cons_of_pos (by simpa using hg), List.flatMap_cons, List.append_assoc]
        simp only [recvLoop, if_pos hg, ht, Option.bind_eq_bind, Option.bind_some, e1, e2, h1, h2]
      · intro gi h
        rw [List.mem_cons, not_or] at h
        rw [o2 gi h.2, o1 gi h.1]
      · intro gi h
        rcases List.mem_cons.1 h with rfl | h
        · rw [o2 _ hn.1, g1, if_pos hg, ht]; rfl
        · rw [g2 gi h, o1 gi (hne gi h)]
    · obtain ⟨m2, h2, w2, a2, n2, o2, g2⟩ := ih w hn.2
        (fun gi h => hact gi (by simp [h])) (fun gi h hi => hT gi (by simp [h]) hi)
      refine ⟨m2, ?_, w2, a2, n2, ?_, ?_⟩
      · rw [List.filter_cons_of_neg (by simpa using hg)]
        simp only [recvLoop, if_neg hg, h2]
      · intro gi h
        rw [List.mem_cons, not_or] at h
        exact o2 gi h.2
      · intro gi h
        rcases List.mem_cons.1 h with rfl | h
        · rw [o2 _ hn.1, if_neg hg]
        · exact g2 gi h

theorem redist_loop [AddMonoid α] (npix oact : List Nat) (imaps : List (TileMap α))
    (hi : ∀ m ∈ imaps, m.WF ∧ m.npix = npix ∧ m.active.Pairwise (· < ·))
    (ho : oact.Pairwise (· < ·)) {out : TileMap α} (w : out.WF) (ha : out.active = oact) (hn : out.npix = npix) :
    ∃ out', imaps.foldlM (fun st m => recvLoop m.active oact st)
        (imaps.flatMap fun m => sendSeg m oact, out) = some ([], out') ∧ out'.WF ∧
      out'.active = oact ∧ out'.npix = npix ∧
      ∀ gi ∈ oact, ∀ k < npix.getD gi 0, ((out'.get gi).getD []).getD k 0 =
        ((out.get gi).getD []).getD k 0 + (imaps.map fun m => ((m.get gi).getD []).getD k 0).sum := by
  induction imaps generalizing out with
  | nil => exact ⟨out, rfl, w, ha, hn, fun gi _ k _ => by simp⟩
  | cons m imaps ih =>
    obtain ⟨wm, nm, sm⟩ := hi m (by simp)
    have hseg : sendSeg m oact = (oact.filter (· ∈ m.active)).flatMap fun gi => (m.get gi).getD [] := by
      rw [sendSeg_eq wm, filter_comm_sorted sm ho]
    obtain ⟨o1, e1, w1, a1, n1, -, g1⟩ := recvLoop_ok m.active (fun gi => (m.get gi).getD [])
      (imaps.flatMap fun m => sendSeg m oact) oact w (ho.imp (fun h => Nat.ne_of_lt h))
      (fun gi h => by rw [ha]; exact h)
      (fun gi h hm => by
        obtain ⟨t, ht⟩ := TileMap.WF.get_some hm
        rw [ht, hn, ← nm]; exact wm.get_length ht)
    obtain ⟨o2, e2, w2, a2, n2, g2⟩ := ih (fun m' h => hi m' (by simp [h])) w1 (a1.trans ha) (n1.trans hn)
    refine ⟨o2, ?_, w2, a2, n2, ?_⟩
    · rw [List.flatMap_cons, hseg, List.foldlM_cons]
      simp only [e1, Option.bind_eq_bind, Option.bind_some, e2]
    · intro gi h k hk
      rw [g2 gi h k hk, List.map_cons, List.sum_cons, ← add_assoc]
      congr 1
      rw [g1 gi h]
      by_cases hm : gi ∈ m.active
      · rw [if_pos hm]
        obtain ⟨t, ht⟩ := TileMap.WF.get_some (show gi ∈ out.active by rw [ha]; exact h)
        obtain ⟨tm, htm⟩ := TileMap.WF.get_some hm
        have l1 : k < t.length := by rw [w.get_length ht, hn]; exact hk
        have l2 : k < tm.length := by rw [wm.get_length htm, nm]; exact hk
        simp [ht, htm, List.getD_eq_getElem?_getD, l1, l2]
      · rw [if_neg hm, TileMap.get_eq_none.2 hm]; simp

end Pixell
