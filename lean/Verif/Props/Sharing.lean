import Verif.Lemmas.Sharing
import Mathlib.Data.Int.ModEq

/-!
C185: maps that share pixels or a wcs object, over all programs.
-/
namespace Pixell

variable {V : Type}

theorem MapStore.step_getElem (s : MapStore V) (op : MapStep V) {k : ℕ} {m : MapRef} (h : s.maps[k]? = some m) : (s.step op).maps[k]? = some m := by
  obtain ⟨new, -, e⟩ := s.step_maps op
  rw [e]
  obtain ⟨hlt, -⟩ := List.getElem?_eq_some_iff.1 h
  rw [List.getElem?_append_left hlt, h]

/-- Steps that are not in place change neither the pixels nor the wcs of any map, whatever was done before. -/
theorem C185_pure (d : V) (ops : List (MapStep V)) (op : MapStep V) (h1 : op.touches = none) (k : ℕ) (m : MapRef)
    (hk : ((MapStore.init d).run ops).maps[k]? = some m) :
    (((MapStore.init d).run ops).step op).maps[k]? = some m ∧
    (((MapStore.init d).run ops).step op).val m = ((MapStore.init d).run ops).val m ∧
    (((MapStore.init d).run ops).step op).wcs m = ((MapStore.init d).run ops).wcs m := by
  have hs := (MapStore.init d).run_ok (MapStore.init_ok d) ops
  have hm := List.mem_of_getElem? hk
  have h2 : op.moves = none := by
    cases op with
    | shift i off ip kw => cases ip <;> cases kw <;> simp_all [MapStep.touches, MapStep.moves]
    | _ => rfl
  refine ⟨MapStore.step_getElem _ op hk, MapStore.step_val _ hs op hm ?_, MapStore.step_wcs _ hs op hm ?_⟩
  · intro i m' h; rw [h1] at h; cases h
  · intro i m' h; rw [h2] at h; cases h

/-- The new map of a step: pixels, and the sky position of every pixel. -/
theorem C185_new (d : V) (ops : List (MapStep V)) (i : ℕ) (m : MapRef) (hi : ((MapStore.init d).run ops).maps[i]? = some m) :
    let s := (MapStore.init d).run ops
    let n := s.maps.length
    (∃ k, (s.step (.copy i)).maps[n]? = some k ∧ k.ny = m.ny ∧ k.nx = m.nx ∧ (s.step (.copy i)).wcs k = s.wcs m ∧
      ∀ y x, x < m.nx → (s.step (.copy i)).val k y x = s.val m y x) ∧
    (∀ f, ∃ k, (s.step (.astype i f)).maps[n]? = some k ∧ k.ny = m.ny ∧ k.nx = m.nx ∧ (s.step (.astype i f)).wcs k = s.wcs m ∧
      ∀ y x, x < m.nx → (s.step (.astype i f)).val k y x = f (s.val m y x)) ∧
    (∃ k, (s.step (.view i)).maps[n]? = some k ∧ k.ny = m.ny ∧ k.nx = m.nx ∧ (s.step (.view i)).wcs k = s.wcs m ∧
      ∀ y x, x < m.nx → (s.step (.view i)).val k y x = s.val m y x) ∧
    (∀ j m' f, s.maps[j]? = some m' → m'.ny = m.ny → m'.nx = m.nx → ∃ k, (s.step (.ufunc i j f)).maps[n]? = some k ∧ k.ny = m.ny ∧ k.nx = m.nx ∧
      (s.step (.ufunc i j f)).wcs k = s.wcs m ∧ ∀ y x, x < m.nx → (s.step (.ufunc i j f)).val k y x = f (s.val m y x) (s.val m' y x)) ∧
    (∀ j m', s.maps[j]? = some m' → ∃ k, (s.step (.wrap i j)).maps[n]? = some k ∧ k.ny = m.ny ∧ k.nx = m.nx ∧
      (s.step (.wrap i j)).wcs k = s.wcs m' ∧ ∀ y x, (s.step (.wrap i j)).val k y x = s.val m y x) ∧
    (∀ y0 x0 h w, y0 + h ≤ m.ny → x0 + w ≤ m.nx → ∃ k, (s.step (.window i y0 x0 h w)).maps[n]? = some k ∧ k.ny = h ∧ k.nx = w ∧
      ∀ y x, (s.step (.window i y0 x0 h w)).val k y x = s.val m (y0 + y) (x0 + x) ∧
        ((s.step (.window i y0 x0 h w)).wcs k).1.pix2sky y = (s.wcs m).1.pix2sky (y0 + y) ∧
        ((s.step (.window i y0 x0 h w)).wcs k).2.pix2sky x = (s.wcs m).2.pix2sky (x0 + x)) := by
  intro s n
  have hi : s.maps[i]? = some m := hi
  have hn : s.maps.length = n := rfl
  have hpush : ∀ (v : ℕ → ℕ → V), ∃ k, (s.push m.ny m.nx v (s.wcs m)).maps[n]? = some k ∧ k.ny = m.ny ∧ k.nx = m.nx ∧
      (s.push m.ny m.nx v (s.wcs m)).wcs k = s.wcs m ∧ ∀ y x, x < m.nx → (s.push m.ny m.nx v (s.wcs m)).val k y x = v y x := by
    intro v
    obtain ⟨h1, h2⟩ := s.push_val m.ny m.nx v (s.wcs m)
    exact ⟨⟨s.nbuf, m.ny, m.nx, fun y x => y * m.nx + x, s.nw⟩, by rw [s.push_new]; exact List.getElem?_concat_length, rfl, rfl, h2, h1⟩
  refine ⟨?_, ?_, ?_, ?_, ?_, ?_⟩
  · simp only [MapStore.step, hi]
    exact hpush _
  · intro f
    simp only [MapStore.step, hi]
    refine ⟨_, List.getElem?_concat_length, rfl, rfl, rfl, ?_⟩
    intro y x hx
    unfold MapStore.val
    simp only [Function.update_self, (corder_div hx).1, (corder_div hx).2]
  · simp only [MapStore.step, hi]
    exact ⟨m, List.getElem?_concat_length, rfl, rfl, rfl, fun _ _ _ => rfl⟩
  · intro j m' f hj h1 h2
    simp only [MapStore.step, hi, hj]
    rw [if_pos ⟨h1.symm, h2.symm⟩]
    exact hpush _
  · intro j m' hj
    simp only [MapStore.step, hi, hj]
    refine ⟨_, List.getElem?_concat_length, rfl, rfl, ?_, fun _ _ => rfl⟩
    unfold MapStore.wcs
    simp only [Function.update_self]
  · intro y0 x0 h w h1 h2
    simp only [MapStore.step, hi]
    rw [if_pos ⟨h1, h2⟩]
    refine ⟨_, List.getElem?_concat_length, rfl, rfl, ?_⟩
    intro y x
    refine ⟨rfl, ?_, ?_⟩
    · simp only [MapStore.wcs, Function.update_self, shiftWcs, Axis.pix2sky]
      push_cast
      ring
    · simp only [MapStore.wcs, Function.update_self, shiftWcs, Axis.pix2sky]
      push_cast
      ring

/-- The pixel (y,x) of one map and the pixel (z,w) of the other are the same memory. -/
def SamePixel (m : MapRef) (y x : ℕ) (k : MapRef) (z w : ℕ) : Prop := m.buf = k.buf ∧ m.addr y x = k.addr z w

/-- Setting a pixel sets the pixels that are the same memory, and nothing else. -/
theorem C185_set (d : V) (ops : List (MapStep V)) (i y x : ℕ) (v : V) (m : MapRef) (hi : ((MapStore.init d).run ops).maps[i]? = some m)
    (hy : y < m.ny) (hx : x < m.nx) (k : MapRef) (z w : ℕ) :
    let s := (MapStore.init d).run ops
    (s.step (.set i y x v)).val m y x = v ∧ (SamePixel m y x k z w → (s.step (.set i y x v)).val k z w = v) ∧
    (¬ SamePixel m y x k z w → (s.step (.set i y x v)).val k z w = s.val k z w) ∧ (s.step (.set i y x v)).wcs k = s.wcs k := by
  intro s
  have hi : s.maps[i]? = some m := hi
  have key : ∀ (k : MapRef) z w, (SamePixel m y x k z w → (s.step (.set i y x v)).val k z w = v) ∧
      (¬ SamePixel m y x k z w → (s.step (.set i y x v)).val k z w = s.val k z w) := by
    intro k z w
    simp only [MapStore.step, hi]
    rw [if_pos ⟨hy, hx⟩]
    unfold MapStore.val SamePixel
    simp only
    constructor
    · rintro ⟨h1, h2⟩
      rw [← h1, ← h2, Function.update_self, Function.update_self]
    · intro h
      by_cases hb : m.buf = k.buf
      · rw [← hb, Function.update_self, Function.update_of_ne]
        intro he
        exact h ⟨hb, he.symm⟩
      · rw [Function.update_of_ne (Ne.symm hb)]
  refine ⟨(key m y x).1 ⟨rfl, rfl⟩, (key k z w).1, (key k z w).2, ?_⟩
  simp only [MapStore.step, hi]
  rw [if_pos ⟨hy, hx⟩]
  rfl

/-- shift by two offsets in place: every pixel goes to where it should, with its position on the sky unless the wcs is to be kept; pixels
of other maps change only where they are the same memory. -/
theorem C185_shift (d : V) (ops : List (MapStep V)) (i : ℕ) (oy ox : ℤ) (kw : Bool) (m : MapRef) (hi : ((MapStore.init d).run ops).maps[i]? = some m) :
    let s := (MapStore.init d).run ops
    let t := s.step (.shift i (.two oy ox) true kw)
    (∀ y x y' x' : ℕ, y < m.ny → x < m.nx → y' < m.ny → x' < m.nx → (y' : ℤ) ≡ y + oy [ZMOD m.ny] → (x' : ℤ) ≡ x + ox [ZMOD m.nx] →
      t.val m y' x' = s.val m y x) ∧
    (kw = false → ∀ y x : ℚ, (t.wcs m).1.pix2sky (y + oy) = (s.wcs m).1.pix2sky y ∧ (t.wcs m).2.pix2sky (x + ox) = (s.wcs m).2.pix2sky x) ∧
    (kw = true → t.wcs m = s.wcs m) ∧
    (∀ (k : MapRef) z w, (∀ y x, y < m.ny → x < m.nx → ¬ SamePixel m y x k z w) → t.val k z w = s.val k z w) := by
  intro s t
  have hi : s.maps[i]? = some m := hi
  have hs : s.Ok := (MapStore.init d).run_ok (MapStore.init_ok d) ops
  have ht : t = s.shiftIn m (.two oy ox) kw := by
    show s.step _ = _
    simp only [MapStore.step, hi]
    rfl
  obtain ⟨h1, h2⟩ := s.shiftIn_two m (hs.inj m (List.mem_of_getElem? hi)) oy ox kw
  rw [ht]
  refine ⟨?_, ?_, ?_, ?_⟩
  · intro y x y' x' hy hx hy' hx' ey ex
    rw [h1 y' x' hy' hx']
    have ey' : (((y' : ℤ) - oy) % m.ny).toNat = y := by
      have : ((y' : ℤ) - oy) % m.ny = y := by
        have h := (ey.sub_right oy)
        rw [add_sub_cancel_right] at h
        rw [h, Int.emod_eq_of_lt (by omega) (by omega)]
      rw [this]; simp
    have ex' : (((x' : ℤ) - ox) % m.nx).toNat = x := by
      have : ((x' : ℤ) - ox) % m.nx = x := by
        have h := (ex.sub_right ox)
        rw [add_sub_cancel_right] at h
        rw [h, Int.emod_eq_of_lt (by omega) (by omega)]
      rw [this]; simp
    rw [ey', ex']
  · intro hk y x
    rw [h2, hk]
    simp only [Bool.false_eq_true, if_false, shiftWcs, Axis.pix2sky]
    constructor <;> ring
  · intro hk
    rw [h2, hk]
    rfl
  · intro k z w h
    by_cases hb : k.buf = m.buf
    · apply s.shiftIn_outside
      intro y x hy hx he
      exact h y x hy hx ⟨hb.symm, he⟩
    · rw [s.shiftIn_other m k _ kw hb]

/-- shift by two offsets not in place: the same for the new map. -/
theorem C185_shifted (d : V) (ops : List (MapStep V)) (i : ℕ) (oy ox : ℤ) (kw : Bool) (m : MapRef) (hi : ((MapStore.init d).run ops).maps[i]? = some m) :
    let s := (MapStore.init d).run ops
    let t := s.step (.shift i (.two oy ox) false kw)
    ∃ k, t.maps[s.maps.length]? = some k ∧ k.ny = m.ny ∧ k.nx = m.nx ∧
    (∀ y x y' x' : ℕ, y < m.ny → x < m.nx → y' < m.ny → x' < m.nx → (y' : ℤ) ≡ y + oy [ZMOD m.ny] → (x' : ℤ) ≡ x + ox [ZMOD m.nx] →
      t.val k y' x' = s.val m y x) ∧
    (kw = false → ∀ y x : ℚ, (t.wcs k).1.pix2sky (y + oy) = (s.wcs m).1.pix2sky y ∧ (t.wcs k).2.pix2sky (x + ox) = (s.wcs m).2.pix2sky x) ∧
    (kw = true → t.wcs k = s.wcs m) := by
  intro s t
  have hi : s.maps[i]? = some m := hi
  set s' := s.push m.ny m.nx (s.val m) (s.wcs m) with hs'
  set k : MapRef := ⟨s.nbuf, m.ny, m.nx, fun y x => y * m.nx + x, s.nw⟩ with hk
  have ht : t = s'.shiftIn k (.two oy ox) kw := by
    show s.step _ = _
    simp only [MapStore.step, hi]
    rfl
  obtain ⟨h1, h2⟩ := s'.shiftIn_two k (fun y x y' x' _ hx _ hx' he => corder_inj hx hx' he) oy ox kw
  obtain ⟨p1, p2⟩ := s.push_val m.ny m.nx (s.val m) (s.wcs m)
  rw [← hs', ← hk] at p1 p2
  rw [p2] at h2
  refine ⟨k, ?_, rfl, rfl, ?_, ?_, ?_⟩
  · rw [ht, (s'.shiftIn_rest k _ kw).1, hs', s.push_new]
    exact List.getElem?_concat_length
  · intro y x y' x' hy hx hy' hx' ey ex
    have ey' : (((y' : ℤ) - oy) % m.ny).toNat = y := by
      have : ((y' : ℤ) - oy) % m.ny = y := by
        have h := (ey.sub_right oy)
        rw [add_sub_cancel_right] at h
        rw [h, Int.emod_eq_of_lt (by omega) (by omega)]
      rw [this]; simp
    have ex' : (((x' : ℤ) - ox) % m.nx).toNat = x := by
      have : ((x' : ℤ) - ox) % m.nx = x := by
        have h := (ex.sub_right ox)
        rw [add_sub_cancel_right] at h
        rw [h, Int.emod_eq_of_lt (by omega) (by omega)]
      rw [this]; simp
    rw [ht, h1 y' x' hy' hx']
    show s'.val k (((y' : ℤ) - oy) % m.ny).toNat (((x' : ℤ) - ox) % m.nx).toNat = _
    rw [ey', ex', p1 y x hx]
  · intro hkw y x
    rw [ht, h2, hkw]
    simp only [Bool.false_eq_true, if_false, shiftWcs, Axis.pix2sky]
    constructor <;> ring
  · intro hkw
    rw [ht, h2, hkw]
    rfl

theorem MapStore.run_getElem (s : MapStore V) (ops : List (MapStep V)) {k : ℕ} {m : MapRef} (h : s.maps[k]? = some m) : (s.run ops).maps[k]? = some m := by
  induction ops generalizing s with
  | nil => exact h
  | cons op ops ih => exact ih (s.step op) (s.step_getElem op h)

/-- Whatever is done in place to maps in other memory does not change the pixels of a map. -/
theorem MapStore.run_val (s : MapStore V) (hs : s.Ok) (ops : List (MapStep V)) {m : MapRef} (hm : m ∈ s.maps)
    (h : ∀ op ∈ ops, ∀ i, op.touches = some i → ∃ m', s.maps[i]? = some m' ∧ m'.buf ≠ m.buf) : (s.run ops).val m = s.val m := by
  induction ops generalizing s with
  | nil => rfl
  | cons op ops ih =>
    have h1 : (s.step op).val m = s.val m := by
      apply s.step_val hs op hm
      intro i m' hi hm'
      obtain ⟨m'', e, hne⟩ := h op List.mem_cons_self i hi
      rw [e] at hm'
      cases hm'
      exact hne
    rw [← h1]
    apply ih (s.step op) (s.step_ok hs op)
    · obtain ⟨new, -, e⟩ := s.step_maps op
      rw [e]
      exact List.mem_append_left _ hm
    · intro op' hop i hi
      obtain ⟨m', e, hne⟩ := h op' (List.mem_cons_of_mem _ hop) i hi
      exact ⟨m', s.step_getElem op e, hne⟩

/-- The steps that make a map with pixels of its own. -/
def MapStep.fresh : MapStep V → Bool
  | .make .. => true
  | .copy _ => true
  | .astype .. => true
  | .ufunc .. => true
  | .shift _ _ false _ => true
  | _ => false

theorem MapStore.step_fresh (s : MapStore V) (op : MapStep V) (h : op.fresh = true) {k : MapRef}
    (hk : (s.step op).maps[s.maps.length]? = some k) : k.buf = s.nbuf := by
  have hn : s.maps[s.maps.length]? = none := by simp
  have hp : ∀ {ny nx v w}, (s.push ny nx v w).maps[s.maps.length]? = some k → k.buf = s.nbuf := by
    intro ny nx v w h
    rw [s.push_new, List.getElem?_concat_length] at h
    cases h; rfl
  cases op with
  | make ny nx v w => exact hp hk
  | copy i =>
    simp only [MapStore.step] at hk
    split at hk
    · exact hp hk
    · rw [hn] at hk; cases hk
  | astype i f =>
    simp only [MapStore.step] at hk
    split at hk
    · rw [List.getElem?_concat_length] at hk; cases hk; rfl
    · rw [hn] at hk; cases hk
  | ufunc i j f =>
    simp only [MapStore.step] at hk
    split at hk
    · split at hk
      · exact hp hk
      · rw [hn] at hk; cases hk
    · rw [hn] at hk; cases hk
  | shift i off ip kw =>
    simp only [MapStore.step] at hk
    split at hk
    · split at hk
      · rename_i hip
        subst hip
        cases h
      · rw [(MapStore.shiftIn_rest _ _ _ _).1] at hk
        exact hp hk
    · rw [hn] at hk; cases hk
  | _ => cases h

/-- A copy, a conversion, the result of a function and a shifted map have pixels of their own: whatever is done afterwards to the maps made
before, in place or not, the pixels of the new map stay; and whatever is done to the new map, those of the maps made before stay. -/
theorem C185_independent (d : V) (ops : List (MapStep V)) (op : MapStep V) (hf : op.fresh = true) (ops2 : List (MapStep V)) :
    let s := (MapStore.init d).run ops
    ∀ k, (s.step op).maps[s.maps.length]? = some k →
    ((∀ o ∈ ops2, ∀ i, o.touches = some i → i < s.maps.length) → ((s.step op).run ops2).val k = (s.step op).val k) ∧
    ((∀ o ∈ ops2, ∀ i, o.touches = some i → i = s.maps.length) → ∀ (j : ℕ) m, s.maps[j]? = some m → ((s.step op).run ops2).val m = s.val m) := by
  intro s k hk
  have hs : s.Ok := (MapStore.init d).run_ok (MapStore.init_ok d) ops
  have hs' := s.step_ok hs op
  have hb := s.step_fresh op hf hk
  have ht : op.touches = none := by
    cases op with
    | shift i off ip kw => cases ip <;> simp_all [MapStep.touches, MapStep.fresh]
    | set i y x v => cases hf
    | _ => rfl
  constructor
  · intro h
    apply MapStore.run_val _ hs' ops2 (List.mem_of_getElem? hk)
    intro o ho i hi
    have hlt := h o ho i hi
    have hget : s.maps[i]? = some s.maps[i] := List.getElem?_eq_getElem hlt
    refine ⟨s.maps[i], s.step_getElem op hget, ?_⟩
    have := hs.buf _ (List.getElem_mem hlt)
    omega
  · intro h j m hm
    have hmem := List.mem_of_getElem? hm
    rw [MapStore.run_val _ hs' ops2 (List.mem_of_getElem? (s.step_getElem op hm)) ?_]
    · apply s.step_val hs op hmem
      intro i m' hi
      rw [ht] at hi; cases hi
    · intro o ho i hi
      rw [h o ho i hi]
      refine ⟨k, hk, ?_⟩
      have := hs.buf m hmem
      omega

/-- No two maps have the same wcs object. -/
def OwnWcs (s : MapStore V) : Prop := s.Ok ∧ (s.maps.map MapRef.wref).Nodup

/-- In programs that use neither views nor conversions of maps, shifting a map in place changes the wcs of no other one. -/
theorem C185_wcs_partial (d : V) (ops : List (MapStep V)) (hops : ∀ op ∈ ops, (∀ i, op ≠ .view i) ∧ ∀ i f, op ≠ .astype i f)
    (op : MapStep V) (k : ℕ) (m : MapRef) (hk : ((MapStore.init d).run ops).maps[k]? = some m) (h : ∀ i, op.moves = some i → i ≠ k) :
    (((MapStore.init d).run ops).step op).wcs m = ((MapStore.init d).run ops).wcs m := by
  have step : ∀ (s : MapStore V) (op : MapStep V), ((∀ i, op ≠ .view i) ∧ ∀ i f, op ≠ .astype i f) → OwnWcs s → OwnWcs (s.step op) := by
    rintro s op ⟨hv, ha⟩ ⟨hs, hn⟩
    refine ⟨s.step_ok hs op, ?_⟩
    have hnew : ∀ q : MapRef, q.wref = s.nw → ((s.maps ++ [q]).map MapRef.wref).Nodup := by
      intro q hq
      rw [List.map_append, List.nodup_append]
      refine ⟨hn, by simp, ?_⟩
      intro a ha b hb
      obtain ⟨m, hm, rfl⟩ := List.mem_map.1 ha
      have := hs.wref m hm
      simp only [List.map_cons, List.map_nil, List.mem_singleton] at hb
      omega
    cases op with
    | make ny nx v w => exact hnew _ rfl
    | wrap i j =>
      simp only [MapStore.step]
      split
      · exact hnew _ rfl
      · exact hn
    | copy i =>
      simp only [MapStore.step]
      split
      · exact hnew _ rfl
      · exact hn
    | astype i f => exact absurd rfl (ha i f)
    | view i => exact absurd rfl (hv i)
    | ufunc i j f =>
      simp only [MapStore.step]
      split
      · split
        · exact hnew _ rfl
        · exact hn
      · exact hn
    | window i y0 x0 h w =>
      simp only [MapStore.step]
      split
      · split
        · exact hnew _ rfl
        · exact hn
      · exact hn
    | set i y x v =>
      simp only [MapStore.step]
      split
      · split <;> exact hn
      · exact hn
    | shift i off ip kw =>
      simp only [MapStore.step]
      split
      · split
        · rw [(MapStore.shiftIn_rest _ _ _ _).1]; exact hn
        · rw [(MapStore.shiftIn_rest _ _ _ _).1]; exact hnew _ rfl
      · exact hn
  have run : ∀ (ops : List (MapStep V)) (s : MapStore V), (∀ op ∈ ops, (∀ i, op ≠ .view i) ∧ ∀ i f, op ≠ .astype i f) → OwnWcs s → OwnWcs (s.run ops) := by
    intro ops
    induction ops with
    | nil => intro s _ h; exact h
    | cons o ops ih =>
      intro s h hs
      exact ih (s.step o) (fun op hop => h op (List.mem_cons_of_mem _ hop)) (step s o (h o List.mem_cons_self) hs)
  obtain ⟨hs, hn⟩ := run ops _ hops ⟨MapStore.init_ok d, by simp [MapStore.init]⟩
  apply MapStore.step_wcs _ hs op (List.mem_of_getElem? hk)
  intro i m' hi hm' he
  apply h i hi
  have e1 : (((MapStore.init d).run ops).maps.map MapRef.wref)[i]? = some m'.wref := by rw [List.getElem?_map, hm']; rfl
  have e2 : (((MapStore.init d).run ops).maps.map MapRef.wref)[k]? = some m.wref := by rw [List.getElem?_map, hk]; rfl
  obtain ⟨hl, -⟩ := List.getElem?_eq_some_iff.1 e1
  exact (List.getElem?_inj hl hn).1 (by rw [e1, e2, he])

/-! ### Where it fails -/

/-- The programs of the counterexamples start with this map of one row. -/
def rowMap : MapStep ℤ := .make 1 3 (fun _ x => x + 1) (⟨0, 1, 1⟩, ⟨0, 1, 1⟩)

/-- Values and sky positions of the pixels of a map. -/
def skyValues (s : MapStore ℤ) (k : ℕ) : List (ℤ × ℚ × ℚ) :=
  match s.maps[k]? with
  | none => []
  | some m => (List.range m.ny ×ˢ List.range m.nx).map fun p => (s.val m p.1 p.2, (s.wcs m).1.pix2sky p.1, (s.wcs m).2.pix2sky p.2)

/-- Shifting a converted map in place moves the sky positions of the map it was made of, whose pixels stay. -/
theorem C185_astype_refuted :
    skyValues ((MapStore.init 0).run [rowMap, .astype 0 id]) 0 = [(1, 0, 0), (2, 0, 1), (3, 0, 2)] ∧
    skyValues ((MapStore.init 0).run [rowMap, .astype 0 id, .shift 1 (.two 0 1) true false]) 0 = [(1, 0, -1), (2, 0, 0), (3, 0, 1)] := by
  decide +kernel

/-- Shifting a map in place moves the pixels but not the sky positions of another map of the same pixels. -/
theorem C185_wrap_refuted :
    skyValues ((MapStore.init 0).run [rowMap, .wrap 0 0, .shift 1 (.two 0 1) true false]) 0 = [(3, 0, 0), (1, 0, 1), (2, 0, 2)] := by
  decide +kernel

/-- Shifting a window in place shifts pixels in the map it is part of, whose sky positions stay. -/
theorem C185_window_refuted :
    skyValues ((MapStore.init 0).run [rowMap, .window 0 0 1 1 2, .shift 1 (.two 0 1) true false]) 0 = [(1, 0, 0), (3, 0, 1), (2, 0, 2)] := by
  decide +kernel

/-- Shifting by a single number shifts the pixels along x and the sky positions along both axes. -/
theorem C185_number_refuted :
    skyValues ((MapStore.init 0).run [rowMap, .shift 0 (.one 1) true false]) 0 = [(3, -1, -1), (1, -1, 0), (2, -1, 1)] := by
  decide +kernel

/-! ### Concrete cases -/

example : skyValues ((MapStore.init 0).run [rowMap, .copy 0, .shift 1 (.two 0 1) true false, .set 1 0 2 7]) 0 = [(1, 0, 0), (2, 0, 1), (3, 0, 2)] := by
  decide +kernel
example : skyValues ((MapStore.init 0).run [rowMap, .copy 0, .shift 1 (.two 0 1) true false, .set 1 0 2 7]) 1 = [(3, 0, -1), (1, 0, 0), (7, 0, 1)] := by
  decide +kernel
example : skyValues ((MapStore.init 0).run [rowMap, .window 0 0 1 1 2, .set 1 0 0 9, .shift 0 (.two 0 (-1)) false false]) 2 =
    [(9, 0, 1), (3, 0, 2), (1, 0, 3)] := by decide +kernel
example : skyValues ((MapStore.init 0).run [rowMap, .shift 0 (.two 0 1) false true]) 1 = [(3, 0, 0), (1, 0, 1), (2, 0, 2)] := by decide +kernel

end Pixell
