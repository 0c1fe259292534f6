import Verif.Model.Tiles
import Mathlib.Data.List.Nodup
import Mathlib.Data.List.Basic
import Mathlib.Algebra.BigOperators.Group.List.Basic
import Mathlib.Tactic.Ring
import Mathlib.Tactic.Linarith

namespace Pixell

variable {α : Type}

/-! ### Grid arithmetic -/

theorem gridLen_spec {s ts : Nat} (hts : 0 < ts) : s ≤ gridLen s ts * ts ∧ gridLen s ts * ts < s + ts := by
  unfold gridLen
  have h1 := Nat.div_add_mod (s + ts - 1) ts
  have h2 := Nat.mod_lt (s + ts - 1) hts
  rw [Nat.mul_comm] at h1
  omega

theorem lt_gridLen {s ts t : Nat} (hts : 0 < ts) : t < gridLen s ts ↔ t * ts < s := by
  obtain ⟨h1, h2⟩ := gridLen_spec (s := s) hts
  constructor
  · intro h
    have : (t + 1) * ts ≤ gridLen s ts * ts := Nat.mul_le_mul_right _ h
    rw [Nat.add_mul] at this
    omega
  · intro h
    by_contra hc
    have : gridLen s ts * ts ≤ t * ts := Nat.mul_le_mul_right _ (by omega)
    omega

theorem length_tileLens (s ts : Nat) : (tileLens s ts).length = gridLen s ts := by simp [tileLens]

/-- The declared size of a tile is the length of its pixel interval. -/
theorem tileLens_getD {s ts t : Nat} (hts : 0 < ts) (ht : t < gridLen s ts) :
    (tileLens s ts).getD t 0 = (tileSpan s ts t).2 - (tileSpan s ts t).1 := by
  have h0 := (lt_gridLen hts).1 ht
  obtain ⟨h1, h2⟩ := gridLen_spec (s := s) hts
  simp only [tileLens, List.getD_eq_getElem?_getD, List.getElem?_map, List.getElem?_range ht,
    Option.map_some, Option.getD_some, tileSpan]
  split
  · rename_i h
    have hsub : s - 1 = (s - 1 - t * ts) + t * ts := by omega
    rw [← h, Nat.add_mul] at h1 h2
    have : (s - 1) % ts = s - 1 - t * ts := by
      rw [hsub, Nat.add_mul_mod_self_right, Nat.mod_eq_of_lt (by omega)]
      omega
    rw [this]
    omega
  · rename_i h
    have : (t + 2) * ts ≤ gridLen s ts * ts := Nat.mul_le_mul_right _ (by omega)
    rw [Nat.add_mul] at this
    omega

theorem sum_tileLens {s ts : Nat} (hts : 0 < ts) : (tileLens s ts).sum = s := by
  have key : ∀ k, k ≤ gridLen s ts → ((tileLens s ts).take k).sum = min (k * ts) s := by
    intro k
    induction k with
    | zero => simp
    | succ k ih =>
      intro hk
      have hlt : k < (tileLens s ts).length := by rw [length_tileLens]; omega
      rw [List.take_succ_eq_append_getElem hlt, List.sum_append, ih (by omega)]
      have h3 := tileLens_getD hts (show k < gridLen s ts by omega)
      rw [List.getD_eq_getElem?_getD, List.getElem?_eq_getElem hlt, Option.getD_some] at h3
      have h4 := (lt_gridLen (s := s) hts).1 (show k < gridLen s ts by omega)
      simp only [tileSpan] at h3
      simp only [List.sum_cons, List.sum_nil, h3, Nat.add_mul]
      omega
  have := key _ (Nat.le_refl _)
  rw [← length_tileLens s ts, List.take_length] at this
  rw [this, length_tileLens]
  have := gridLen_spec (s := s) hts
  omega

/-! ### Flat buffers -/

theorem lookupOf_none {active : List Nat} {gi : Nat} (h : gi ∉ active) : lookupOf active gi = none := by
  unfold lookupOf
  rw [List.getLast?_eq_none_iff, List.filter_eq_nil_iff]
  intro i _ hi
  rw [beq_iff_eq] at hi
  exact h (List.mem_of_getElem? hi)

theorem lookupOf_mem {active : List Nat} {gi ai : Nat} (h : lookupOf active gi = some ai) :
    active[ai]? = some gi := by
  unfold lookupOf at h
  have := List.mem_of_getLast? h
  simpa using (List.mem_filter.1 this).2

theorem lookupOf_some {active : List Nat} {gi : Nat} (h : gi ∈ active) : ∃ ai, lookupOf active gi = some ai := by
  obtain ⟨i, hi, rfl⟩ := List.getElem_of_mem h
  have hm : i ∈ (List.range active.length).filter fun k => active[k]? == some active[i] := by
    simp [List.mem_filter, hi]
  have : ((List.range active.length).filter fun k => active[k]? == some active[i]) ≠ [] :=
    List.ne_nil_of_mem hm
  unfold lookupOf
  exact ⟨_, List.getLast?_eq_some_getLast this⟩

theorem lookupOf_getElem {active : List Nat} (hn : active.Nodup) {ai : Nat} (h : ai < active.length) :
    lookupOf active active[ai] = some ai := by
  obtain ⟨k, hk⟩ := lookupOf_some (List.getElem_mem h)
  rw [hk]
  have := lookupOf_mem hk
  rw [List.getElem?_eq_some_iff] at this
  obtain ⟨hk1, hk2⟩ := this
  rw [(List.Nodup.getElem_inj_iff hn).1 hk2]

/-- Well-formedness: what the TileMap constructor guarantees for a list of distinct valid tiles. -/
structure TileMap.WF (m : TileMap α) : Prop where
  nodup : m.active.Nodup
  valid : ∀ gi ∈ m.active, gi < m.npix.length
  size : m.buf.length = m.sizes.sum

theorem TileMap.off_mono (m : TileMap α) {i j : Nat} (h : i ≤ j) : m.off i ≤ m.off j := by
  unfold TileMap.off
  obtain ⟨k, rfl⟩ := Nat.exists_eq_add_of_le h
  rw [List.take_add, List.sum_append]
  omega

theorem TileMap.off_le (m : TileMap α) (i : Nat) : m.off i ≤ m.sizes.sum := by
  unfold TileMap.off
  conv => rhs; rw [← List.take_append_drop i m.sizes, List.sum_append]
  omega

theorem TileMap.off_succ (m : TileMap α) {i gi : Nat} (h : m.active[i]? = some gi) :
    m.off (i + 1) - m.off i = m.npix.getD gi 0 := by
  have hl : i < m.sizes.length := by
    rw [List.getElem?_eq_some_iff] at h; obtain ⟨h, _⟩ := h; simpa [TileMap.sizes] using h
  unfold TileMap.off
  rw [List.take_succ_eq_append_getElem hl, List.sum_append]
  have : m.sizes[i]? = some (m.npix.getD gi 0) := by simp [TileMap.sizes, h]
  rw [List.getElem?_eq_getElem hl, Option.some_inj] at this
  simp [this]

theorem slice_splice_same (b v : List α) (lo hi : Nat) (h : lo ≤ hi) (hb : hi ≤ b.length)
    (hv : v.length = hi - lo) :
    ((b.take lo ++ v ++ b.drop hi).drop lo).take (hi - lo) = v := by
  have : lo = (b.take lo).length := by simp; omega
  rw [List.append_assoc]
  conv => lhs; arg 2; arg 1; rw [this]
  rw [List.drop_left, ← hv, List.take_left]

theorem slice_splice_other (b v : List α) (lo hi lo' hi' : Nat) (h : lo ≤ hi) (hb : hi ≤ b.length)
    (hv : v.length = hi - lo) (hd : hi' ≤ lo ∨ hi ≤ lo') :
    ((b.take lo ++ v ++ b.drop hi).drop lo').take (hi' - lo') = (b.drop lo').take (hi' - lo') := by
  apply List.ext_getElem?
  intro i
  simp only [List.getElem?_take, List.getElem?_drop, List.getElem?_append, List.length_append,
    List.length_take, hv]
  by_cases hi2 : i < hi' - lo'
  · simp only [hi2, if_true]
    have hm : min lo b.length = lo := by omega
    rw [hm]
    rcases hd with hd | hd
    · rw [if_pos (by omega), if_pos (by omega), if_pos (by omega)]
    · rw [if_neg (by omega)]
      congr 1
      omega
  · simp only [hi2, if_false]

theorem TileMap.get_eq_none {m : TileMap α} {gi : Nat} : m.get gi = none ↔ gi ∉ m.active := by
  constructor
  · intro h hm
    obtain ⟨ai, hai⟩ := lookupOf_some hm
    simp [TileMap.get, hai] at h
  · intro h; simp [TileMap.get, lookupOf_none h]

theorem TileMap.WF.get_length {m : TileMap α} (w : m.WF) {gi : Nat} {t : List α} (h : m.get gi = some t) :
    t.length = m.npix.getD gi 0 := by
  unfold TileMap.get at h
  rw [Option.map_eq_some_iff] at h
  obtain ⟨ai, hai, rfl⟩ := h
  have hm := lookupOf_mem hai
  have := m.off_succ hm
  have h2 := m.off_le (ai + 1)
  have h3 := w.size
  unfold TileMap.sub
  rw [List.length_take, List.length_drop]
  omega

theorem TileMap.WF.set_ok {m : TileMap α} (w : m.WF) {gi : Nat} {v : List α} (hm : gi ∈ m.active)
    (hv : v.length = m.npix.getD gi 0) :
    ∃ m', m.set gi v = some m' ∧ m'.WF ∧ m'.active = m.active ∧ m'.npix = m.npix ∧
      m'.get gi = some v ∧ ∀ gj, gj ≠ gi → m'.get gj = m.get gj := by
  obtain ⟨ai, hai⟩ := lookupOf_some hm
  have hel := lookupOf_mem hai
  have hs := m.off_succ hel
  have hmono : m.off ai ≤ m.off (ai + 1) := m.off_mono (by omega)
  have hle := m.off_le (ai + 1)
  have hsz := w.size
  have hv' : v.length = m.off (ai + 1) - m.off ai := by omega
  refine ⟨{ m with buf := m.buf.take (m.off ai) ++ v ++ m.buf.drop (m.off (ai + 1)) }, ?_, ⟨w.nodup, w.valid, ?_⟩,
    rfl, rfl, ?_, ?_⟩
  · simp only [TileMap.set, hai]
    rw [if_pos hv']
  · simp only [List.length_append, List.length_take, List.length_drop]
    change _ = m.sizes.sum
    omega
  · simp only [TileMap.get, hai, Option.map_some]
    congr 1
    exact slice_splice_same m.buf v (m.off ai) (m.off (ai + 1)) hmono (by omega) hv'
  · intro gj hne
    simp only [TileMap.get]
    cases hj : lookupOf m.active gj with
    | none => rfl
    | some aj =>
      have hel' := lookupOf_mem hj
      have hij : aj ≠ ai := by
        rintro rfl
        rw [hel] at hel'
        exact hne (Option.some_inj.1 hel').symm
      simp only [Option.map_some]
      congr 1
      refine slice_splice_other m.buf v (m.off ai) (m.off (ai + 1)) (m.off aj) (m.off (aj + 1)) hmono
        (by omega) hv' ?_
      rcases Nat.lt_or_gt_of_ne hij with h | h
      · left; exact m.off_mono h
      · right; exact m.off_mono h

theorem TileMap.set_inactive {m : TileMap α} {gi : Nat} {v : List α} (h : gi ∉ m.active) : m.set gi v = none := by
  simp [TileMap.set, lookupOf_none h]

theorem TileMap.zeros_WF [Zero α] {npix active : List Nat} (hn : active.Nodup)
    (hv : ∀ gi ∈ active, gi < npix.length) : (TileMap.zeros (α := α) npix active).WF :=
  ⟨hn, hv, by simp [TileMap.zeros, TileMap.sizes]⟩

theorem TileMap.zeros_get [Zero α] {npix active : List Nat} (hn : active.Nodup)
    (hv : ∀ gi ∈ active, gi < npix.length) {gi : Nat} (h : gi ∈ active) :
    (TileMap.zeros (α := α) npix active).get gi = some (List.replicate (npix.getD gi 0) 0) := by
  obtain ⟨ai, hai⟩ := lookupOf_some h
  have w := TileMap.zeros_WF (α := α) hn hv
  cases ht : (TileMap.zeros (α := α) npix active).get gi with
  | none => exact absurd h (TileMap.get_eq_none.1 ht)
  | some t =>
    have hl := w.get_length ht
    congr 1
    rw [List.eq_replicate_iff]
    refine ⟨hl, fun b hb => ?_⟩
    simp only [TileMap.get, Option.map_eq_some_iff] at ht
    obtain ⟨_, _, rfl⟩ := ht
    have := List.mem_of_mem_drop (List.mem_of_mem_take hb)
    simpa [TileMap.zeros] using List.eq_of_mem_replicate this

/-- The update loop over distinct active tiles. -/
theorem TileMap.update_ok {f : Nat → List α → Option (List α)} {inds : List Nat} {m : TileMap α} (w : m.WF)
    (hn : inds.Nodup) (hact : ∀ gi ∈ inds, gi ∈ m.active)
    (hf : ∀ gi ∈ inds, ∀ t, m.get gi = some t → ∃ v, f gi t = some v ∧ v.length = m.npix.getD gi 0) :
    ∃ m', m.update f inds = some m' ∧ m'.WF ∧ m'.active = m.active ∧ m'.npix = m.npix ∧
      (∀ gi, gi ∉ inds → m'.get gi = m.get gi) ∧
      ∀ gi ∈ inds, m'.get gi = (m.get gi).bind (f gi) := by
  induction inds generalizing m with
  | nil => exact ⟨m, rfl, w, rfl, rfl, fun _ _ => rfl, fun _ h => by simp at h⟩
  | cons g inds ih =>
    have hg := hact g (by simp)
    cases ht : m.get g with
    | none => exact absurd hg (TileMap.get_eq_none.1 ht)
    | some t =>
      obtain ⟨v, hv, hlen⟩ := hf g (by simp) t ht
      obtain ⟨m1, h1, w1, a1, n1, g1, o1⟩ := w.set_ok hg hlen
      rw [List.nodup_cons] at hn
      have hne : ∀ gi ∈ inds, gi ≠ g := fun gi h hh => hn.1 (hh ▸ h)
      obtain ⟨m2, h2, w2, a2, n2, o2, g2⟩ := ih w1 hn.2
        (fun gi h => by rw [a1]; exact hact gi (by simp [h]))
        (fun gi h t' ht' => by
          rw [n1]; rw [o1 gi (hne gi h)] at ht'; exact hf gi (by simp [h]) t' ht')
      refine ⟨m2, ?_, w2, a2.trans a1, n2.trans n1, ?_, ?_⟩
      · simp [TileMap.update, ht, hv, h1, h2]
      · intro gi h
        rw [List.mem_cons, not_or] at h
        rw [o2 gi h.2, o1 gi h.1]
      · intro gi h
        rcases List.mem_cons.1 h with rfl | h
        · rw [o2 _ hn.1, g1, ht]; simp [hv]
        · rw [g2 gi h, o1 gi (hne gi h)]

end Pixell
