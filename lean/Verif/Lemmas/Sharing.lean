import Verif.Model.Sharing
import Mathlib.Data.List.ProdSigma
import Mathlib.Tactic.Ring

/-!
Lemmas for C185: the store of maps.
-/
namespace Pixell

variable {V : Type}

/-- The step changes pixels of a map in place. -/
def MapStep.touches : MapStep V → Option ℕ
  | .set i _ _ _ => some i
  | .shift i _ true _ => some i
  | _ => none

/-- The step moves the reference pixel of a map in place. -/
def MapStep.moves : MapStep V → Option ℕ
  | .shift i _ true false => some i
  | _ => none

/-- Every map is in memory, and its pixels are distinct. -/
structure MapStore.Ok (s : MapStore V) : Prop where
  buf : ∀ m ∈ s.maps, m.buf < s.nbuf
  wref : ∀ m ∈ s.maps, m.wref < s.nw
  inj : ∀ m ∈ s.maps, ∀ y x y' x', y < m.ny → x < m.nx → y' < m.ny → x' < m.nx → m.addr y x = m.addr y' x' → y = y' ∧ x = x'

theorem corder_inj {nx y x y' x' : ℕ} (hx : x < nx) (hx' : x' < nx) (h : y * nx + x = y' * nx + x') : y = y' ∧ x = x' := by
  have hn : 0 < nx := by omega
  have h1 : (y * nx + x) / nx = y := by rw [Nat.mul_comm, Nat.mul_add_div hn, Nat.div_eq_of_lt hx]; simp
  have h2 : (y' * nx + x') / nx = y' := by rw [Nat.mul_comm, Nat.mul_add_div hn, Nat.div_eq_of_lt hx']; simp
  have : y = y' := by rw [← h1, ← h2, h]
  subst this
  exact ⟨rfl, by omega⟩

theorem corder_div {nx y x : ℕ} (hx : x < nx) : (y * nx + x) / nx = y ∧ (y * nx + x) % nx = x := by
  have hn : 0 < nx := by omega
  constructor
  · rw [Nat.mul_comm, Nat.mul_add_div hn, Nat.div_eq_of_lt hx]; simp
  · rw [Nat.mul_comm, Nat.mul_add_mod, Nat.mod_eq_of_lt hx]

/-! ### Writing to pixels -/

theorem MapStore.fill_maps (s : MapStore V) (m : MapRef) (v) : (s.fill m v).maps = s.maps ∧ (s.fill m v).nbuf = s.nbuf ∧ (s.fill m v).nw = s.nw ∧
    (s.fill m v).wcss = s.wcss := ⟨rfl, rfl, rfl, rfl⟩

theorem MapStore.fill_val (s : MapStore V) (m : MapRef)
    (hi : ∀ y x y' x', y < m.ny → x < m.nx → y' < m.ny → x' < m.nx → m.addr y x = m.addr y' x' → y = y' ∧ x = x') (v : ℕ → ℕ → V)
    {y x : ℕ} (hy : y < m.ny) (hx : x < m.nx) : (s.fill m v).val m y x = v y x := by
  unfold MapStore.val MapStore.fill
  simp only [Function.update_self]
  split
  case h_2 h =>
    have := List.find?_eq_none.1 h (y, x) (List.mem_product.2 ⟨List.mem_range.2 hy, List.mem_range.2 hx⟩)
    simp at this
  case h_1 p h =>
    have h1 := List.find?_some h
    have h2 := List.mem_product.1 (List.mem_of_find?_eq_some h)
    simp only [decide_eq_true_eq] at h1
    obtain ⟨e1, e2⟩ := hi _ _ _ _ (List.mem_range.1 h2.1) (List.mem_range.1 h2.2) hy hx h1
    simp only [e1, e2]

theorem MapStore.fill_other (s : MapStore V) (m k : MapRef) (v : ℕ → ℕ → V) (h : k.buf ≠ m.buf) : (s.fill m v).val k = s.val k := by
  unfold MapStore.val MapStore.fill
  simp only [Function.update_of_ne h]

/-- The pixels that are not those of the map are not written to. -/
theorem MapStore.fill_outside (s : MapStore V) (m k : MapRef) (v : ℕ → ℕ → V) (z w : ℕ)
    (h : ∀ y x, y < m.ny → x < m.nx → m.addr y x ≠ k.addr z w) : (s.fill m v).val k z w = s.val k z w := by
  by_cases hb : k.buf = m.buf
  · unfold MapStore.val MapStore.fill
    simp only [hb, Function.update_self]
    split
    case h_2 => rfl
    case h_1 p hf =>
      have h1 := List.find?_some hf
      have h2 := List.mem_product.1 (List.mem_of_find?_eq_some hf)
      simp only [decide_eq_true_eq] at h1
      exact absurd h1 (h _ _ (List.mem_range.1 h2.1) (List.mem_range.1 h2.2))
  · rw [s.fill_other m k v hb]

theorem MapStore.roll_rest (s : MapStore V) (m : MapRef) (a : ℕ) (o : ℤ) : (s.roll m a o).maps = s.maps ∧ (s.roll m a o).nbuf = s.nbuf ∧
    (s.roll m a o).nw = s.nw ∧ (s.roll m a o).wcss = s.wcss := by
  unfold MapStore.roll
  split
  · exact ⟨rfl, rfl, rfl, rfl⟩
  · exact ⟨rfl, rfl, rfl, rfl⟩

theorem MapStore.roll_other (s : MapStore V) (m k : MapRef) (a : ℕ) (o : ℤ) (h : k.buf ≠ m.buf) : (s.roll m a o).val k = s.val k := by
  unfold MapStore.roll
  split
  · exact s.fill_other m k _ h
  · rfl

theorem MapStore.roll_outside (s : MapStore V) (m k : MapRef) (a : ℕ) (o : ℤ) (z w : ℕ)
    (h : ∀ y x, y < m.ny → x < m.nx → m.addr y x ≠ k.addr z w) : (s.roll m a o).val k z w = s.val k z w := by
  unfold MapStore.roll
  split
  · exact s.fill_outside m k _ z w h
  · rfl

theorem emod_toNat_lt {n : ℕ} (hn : 0 < n) (a : ℤ) : (a % n).toNat < n := by
  have h1 := Int.emod_nonneg a (by omega : (n : ℤ) ≠ 0)
  have h2 := Int.emod_lt_of_pos a (by omega : (0 : ℤ) < n)
  omega

theorem emod_self_toNat {n y : ℕ} (hy : y < n) : (((y : ℤ) - 0) % n).toNat = y := by
  rw [sub_zero, Int.emod_eq_of_lt (by omega) (by omega)]; simp

theorem MapStore.roll_val (s : MapStore V) (m : MapRef)
    (hi : ∀ y x y' x', y < m.ny → x < m.nx → y' < m.ny → x' < m.nx → m.addr y x = m.addr y' x' → y = y' ∧ x = x') (a : ℕ) (o : ℤ)
    {y x : ℕ} (hy : y < m.ny) (hx : x < m.nx) :
    (s.roll m a o).val m y x = if a = 0 then s.val m (((y : ℤ) - o) % m.ny).toNat x else s.val m y (((x : ℤ) - o) % m.nx).toNat := by
  unfold MapStore.roll
  by_cases ho : o ≠ 0
  · rw [if_pos ho, s.fill_val m hi _ hy hx]
  · rw [if_neg ho]
    have ho : o = 0 := not_not.1 ho
    subst ho
    rw [emod_self_toNat hy, emod_self_toNat hx]
    simp

theorem MapStore.moveRef_val (s : MapStore V) (m k : MapRef) (oy ox : ℤ) : (s.moveRef m oy ox).val k = s.val k := rfl

theorem MapStore.shiftIn_rest (s : MapStore V) (m : MapRef) (off : ShiftBy) (kw : Bool) : (s.shiftIn m off kw).maps = s.maps ∧
    (s.shiftIn m off kw).nbuf = s.nbuf ∧ (s.shiftIn m off kw).nw = s.nw := by
  unfold MapStore.shiftIn
  cases off with
  | one o =>
    obtain ⟨h1, h2, h3, -⟩ := s.roll_rest m 1 o
    simp only
    split
    · exact ⟨h1, h2, h3⟩
    · exact ⟨h1, h2, h3⟩
  | two oy ox =>
    obtain ⟨h1, h2, h3, -⟩ := s.roll_rest m 0 oy
    obtain ⟨g1, g2, g3, -⟩ := (s.roll m 0 oy).roll_rest m 1 ox
    simp only
    split
    · exact ⟨g1.trans h1, g2.trans h2, g3.trans h3⟩
    · exact ⟨g1.trans h1, g2.trans h2, g3.trans h3⟩

theorem MapStore.shiftIn_other (s : MapStore V) (m k : MapRef) (off : ShiftBy) (kw : Bool) (h : k.buf ≠ m.buf) :
    (s.shiftIn m off kw).val k = s.val k := by
  unfold MapStore.shiftIn
  cases off with
  | one o =>
    simp only
    split
    · exact s.roll_other m k 1 o h
    · exact s.roll_other m k 1 o h
  | two oy ox =>
    have := ((s.roll m 0 oy).roll_other m k 1 ox h).trans (s.roll_other m k 0 oy h)
    simp only
    split
    · exact this
    · exact this

theorem MapStore.shiftIn_outside (s : MapStore V) (m k : MapRef) (off : ShiftBy) (kw : Bool) (z w : ℕ)
    (h : ∀ y x, y < m.ny → x < m.nx → m.addr y x ≠ k.addr z w) : (s.shiftIn m off kw).val k z w = s.val k z w := by
  unfold MapStore.shiftIn
  cases off with
  | one o =>
    simp only
    split
    · exact s.roll_outside m k 1 o z w h
    · exact s.roll_outside m k 1 o z w h
  | two oy ox =>
    have := ((s.roll m 0 oy).roll_outside m k 1 ox z w h).trans (s.roll_outside m k 0 oy z w h)
    simp only
    split
    · exact this
    · exact this

theorem MapStore.shiftIn_wcs (s : MapStore V) (m k : MapRef) (off : ShiftBy) (kw : Bool) (h : kw = true ∨ k.wref ≠ m.wref) :
    (s.shiftIn m off kw).wcs k = s.wcs k := by
  unfold MapStore.shiftIn MapStore.wcs
  cases off with
  | one o =>
    obtain ⟨-, -, -, h4⟩ := s.roll_rest m 1 o
    simp only
    rcases h with h | h
    · rw [if_pos h, h4]
    · split
      · rw [h4]
      · unfold MapStore.moveRef; simp only [Function.update_of_ne h, h4]
  | two oy ox =>
    obtain ⟨-, -, -, h4⟩ := s.roll_rest m 0 oy
    obtain ⟨-, -, -, g4⟩ := (s.roll m 0 oy).roll_rest m 1 ox
    simp only
    rcases h with h | h
    · rw [if_pos h, g4, h4]
    · split
      · rw [g4, h4]
      · unfold MapStore.moveRef; simp only [Function.update_of_ne h, g4, h4]

theorem MapStore.shiftIn_two (s : MapStore V) (m : MapRef)
    (hi : ∀ y x y' x', y < m.ny → x < m.nx → y' < m.ny → x' < m.nx → m.addr y x = m.addr y' x' → y = y' ∧ x = x') (oy ox : ℤ) (kw : Bool) :
    (∀ y x, y < m.ny → x < m.nx → (s.shiftIn m (.two oy ox) kw).val m y x =
      s.val m (((y : ℤ) - oy) % m.ny).toNat (((x : ℤ) - ox) % m.nx).toNat) ∧
    (s.shiftIn m (.two oy ox) kw).wcs m = if kw then s.wcs m else (shiftWcs (s.wcs m).1 oy, shiftWcs (s.wcs m).2 ox) := by
  obtain ⟨-, -, -, h4⟩ := s.roll_rest m 0 oy
  obtain ⟨-, -, -, g4⟩ := (s.roll m 0 oy).roll_rest m 1 ox
  constructor
  · intro y x hy hx
    have : ((s.roll m 0 oy).roll m 1 ox).val m y x = s.val m (((y : ℤ) - oy) % m.ny).toNat (((x : ℤ) - ox) % m.nx).toNat := by
      rw [(s.roll m 0 oy).roll_val m hi 1 ox hy hx, if_neg (by omega), s.roll_val m hi 0 oy hy (emod_toNat_lt (by omega) _), if_pos rfl]
    unfold MapStore.shiftIn
    simp only
    split
    · exact this
    · exact this
  · unfold MapStore.shiftIn MapStore.wcs
    simp only
    split
    · rw [g4, h4]
    · unfold MapStore.moveRef
      simp only [Function.update_self, g4, h4]

/-! ### Steps -/

theorem MapStore.push_new (s : MapStore V) (ny nx : ℕ) (v : ℕ → ℕ → V) (w : Axis × Axis) :
    (s.push ny nx v w).maps = s.maps ++ [⟨s.nbuf, ny, nx, fun y x => y * nx + x, s.nw⟩] := rfl

theorem MapStore.push_frame (s : MapStore V) (hs : s.Ok) (ny nx : ℕ) (v : ℕ → ℕ → V) (w : Axis × Axis) {m : MapRef} (hm : m ∈ s.maps) :
    (s.push ny nx v w).val m = s.val m ∧ (s.push ny nx v w).wcs m = s.wcs m := by
  have h1 := hs.buf m hm
  have h2 := hs.wref m hm
  unfold MapStore.push MapStore.val MapStore.wcs
  simp only
  rw [Function.update_of_ne (by omega), Function.update_of_ne (by omega)]
  exact ⟨rfl, rfl⟩

theorem MapStore.push_val (s : MapStore V) (ny nx : ℕ) (v : ℕ → ℕ → V) (w : Axis × Axis) :
    (∀ y x, x < nx → (s.push ny nx v w).val ⟨s.nbuf, ny, nx, fun y x => y * nx + x, s.nw⟩ y x = v y x) ∧
    (s.push ny nx v w).wcs ⟨s.nbuf, ny, nx, fun y x => y * nx + x, s.nw⟩ = w := by
  unfold MapStore.push MapStore.val MapStore.wcs
  simp only [Function.update_self]
  refine ⟨fun y x hx => ?_, trivial⟩
  rw [(corder_div hx).1, (corder_div hx).2]

theorem MapStore.push_ok (s : MapStore V) (hs : s.Ok) (ny nx : ℕ) (v : ℕ → ℕ → V) (w : Axis × Axis) : (s.push ny nx v w).Ok := by
  have e := s.push_new ny nx v w
  refine ⟨?_, ?_, ?_⟩
  · intro m hm
    rw [e] at hm
    rcases List.mem_append.1 hm with h | h
    · exact (hs.buf m h).trans (Nat.lt_succ_self _)
    · rw [List.mem_singleton.1 h]; exact Nat.lt_succ_self _
  · intro m hm
    rw [e] at hm
    rcases List.mem_append.1 hm with h | h
    · exact (hs.wref m h).trans (Nat.lt_succ_self _)
    · rw [List.mem_singleton.1 h]; exact Nat.lt_succ_self _
  · intro m hm
    rw [e] at hm
    rcases List.mem_append.1 hm with h | h
    · exact hs.inj m h
    · rw [List.mem_singleton.1 h]
      intro y x y' x' _ hx _ hx' he
      exact corder_inj hx hx' he

theorem MapStore.Ok.of_rest {s t : MapStore V} (hs : s.Ok) (h1 : t.maps = s.maps) (h2 : t.nbuf = s.nbuf) (h3 : t.nw = s.nw) : t.Ok :=
  ⟨by rw [h1, h2]; exact hs.buf, by rw [h1, h3]; exact hs.wref, by rw [h1]; exact hs.inj⟩

/-- A step keeps the maps and makes at most one. -/
theorem MapStore.step_maps (s : MapStore V) (op : MapStep V) : ∃ new, new.length ≤ 1 ∧ (s.step op).maps = s.maps ++ new := by
  have none_ : ∃ new : List MapRef, new.length ≤ 1 ∧ s.maps = s.maps ++ new := ⟨[], by simp, by simp⟩
  cases op with
  | make ny nx v w => exact ⟨_, by simp, s.push_new ny nx v w⟩
  | wrap i j =>
    simp only [MapStore.step]
    split
    · exact ⟨_, by simp, rfl⟩
    · exact none_
  | copy i =>
    simp only [MapStore.step]
    split
    · exact ⟨_, by simp, s.push_new _ _ _ _⟩
    · exact none_
  | astype i f =>
    simp only [MapStore.step]
    split
    · exact ⟨_, by simp, rfl⟩
    · exact none_
  | view i =>
    simp only [MapStore.step]
    split
    · exact ⟨_, by simp, rfl⟩
    · exact none_
  | ufunc i j f =>
    simp only [MapStore.step]
    split
    · split
      · exact ⟨_, by simp, s.push_new _ _ _ _⟩
      · exact none_
    · exact none_
  | window i y0 x0 h w =>
    simp only [MapStore.step]
    split
    · split
      · exact ⟨_, by simp, rfl⟩
      · exact none_
    · exact none_
  | set i y x v =>
    simp only [MapStore.step]
    split
    · split
      · exact none_
      · exact none_
    · exact none_
  | shift i off ip kw =>
    simp only [MapStore.step]
    split
    · split
      · rw [(MapStore.shiftIn_rest _ _ _ _).1]; exact none_
      · rw [(MapStore.shiftIn_rest _ _ _ _).1]
        exact ⟨_, by simp, s.push_new _ _ _ _⟩
    · exact none_

theorem MapStore.step_ok (s : MapStore V) (hs : s.Ok) (op : MapStep V) : (s.step op).Ok := by
  have hget : ∀ {i : ℕ} {m : MapRef}, s.maps[i]? = some m → m ∈ s.maps := fun h => List.mem_of_getElem? h
  cases op with
  | make ny nx v w => exact s.push_ok hs ny nx v w
  | wrap i j =>
    simp only [MapStore.step]
    split
    · rename_i m k hm hk
      have hm := hget hm
      refine ⟨?_, ?_, ?_⟩ <;> simp only [List.mem_append, List.mem_singleton]
      · rintro q (hq | rfl)
        · exact hs.buf q hq
        · exact hs.buf m hm
      · rintro q (hq | rfl)
        · exact (hs.wref q hq).trans (Nat.lt_succ_self _)
        · exact Nat.lt_succ_self _
      · rintro q (hq | rfl)
        · exact hs.inj q hq
        · exact hs.inj m hm
    · exact hs
  | copy i =>
    simp only [MapStore.step]
    split
    · exact s.push_ok hs _ _ _ _
    · exact hs
  | astype i f =>
    simp only [MapStore.step]
    split
    · rename_i m hm
      have hm := hget hm
      refine ⟨?_, ?_, ?_⟩ <;> simp only [List.mem_append, List.mem_singleton]
      · rintro q (hq | rfl)
        · exact (hs.buf q hq).trans (Nat.lt_succ_self _)
        · exact Nat.lt_succ_self _
      · rintro q (hq | rfl)
        · exact hs.wref q hq
        · exact hs.wref m hm
      · rintro q (hq | rfl)
        · exact hs.inj q hq
        · intro y x y' x' _ hx _ hx' he
          exact corder_inj hx hx' he
    · exact hs
  | view i =>
    simp only [MapStore.step]
    split
    · rename_i m hm
      have hm := hget hm
      refine ⟨?_, ?_, ?_⟩ <;> simp only [List.mem_append, List.mem_singleton]
      · rintro q (hq | rfl)
        · exact hs.buf q hq
        · exact hs.buf q hm
      · rintro q (hq | rfl)
        · exact hs.wref q hq
        · exact hs.wref q hm
      · rintro q (hq | rfl)
        · exact hs.inj q hq
        · exact hs.inj q hm
    · exact hs
  | ufunc i j f =>
    simp only [MapStore.step]
    split
    · split
      · exact s.push_ok hs _ _ _ _
      · exact hs
    · exact hs
  | window i y0 x0 h w =>
    simp only [MapStore.step]
    split
    · rename_i m hm
      have hm := hget hm
      split
      · rename_i hb
        refine ⟨?_, ?_, ?_⟩ <;> simp only [List.mem_append, List.mem_singleton]
        · rintro q (hq | rfl)
          · exact hs.buf q hq
          · exact hs.buf m hm
        · rintro q (hq | rfl)
          · exact (hs.wref q hq).trans (Nat.lt_succ_self _)
          · exact Nat.lt_succ_self _
        · rintro q (hq | rfl)
          · exact hs.inj q hq
          · intro y x y' x' hy hx hy' hx' he
            simp only at hy hx hy' hx' he
            have := hs.inj m hm _ _ _ _ (by omega) (by omega) (by omega) (by omega) he
            omega
      · exact hs
    · exact hs
  | set i y x v =>
    simp only [MapStore.step]
    split
    · split
      · exact hs.of_rest rfl rfl rfl
      · exact hs
    · exact hs
  | shift i off ip kw =>
    simp only [MapStore.step]
    split
    · split
      · obtain ⟨h1, h2, h3⟩ := s.shiftIn_rest ‹_› off kw
        exact hs.of_rest h1 h2 h3
      · rename_i m _ _
        obtain ⟨h1, h2, h3⟩ := (s.push m.ny m.nx (s.val m) (s.wcs m)).shiftIn_rest ⟨s.nbuf, m.ny, m.nx, fun y x => y * m.nx + x, s.nw⟩ off kw
        exact (s.push_ok hs _ _ _ _).of_rest h1 h2 h3
    · exact hs

theorem MapStore.init_ok (d : V) : (MapStore.init d).Ok := ⟨by simp [MapStore.init], by simp [MapStore.init], by simp [MapStore.init]⟩

theorem MapStore.run_ok (s : MapStore V) (hs : s.Ok) (ops : List (MapStep V)) : (s.run ops).Ok := by
  induction ops generalizing s with
  | nil => exact hs
  | cons op ops ih => exact ih _ (s.step_ok hs op)

/-- A step changes the pixels of a map only if it changes pixels in place in the same memory. -/
theorem MapStore.step_val (s : MapStore V) (hs : s.Ok) (op : MapStep V) {m : MapRef} (hm : m ∈ s.maps)
    (h : ∀ i m', op.touches = some i → s.maps[i]? = some m' → m'.buf ≠ m.buf) : (s.step op).val m = s.val m := by
  have h1 := hs.buf m hm
  cases op with
  | make ny nx v w => exact (s.push_frame hs ny nx v w hm).1
  | wrap i j =>
    simp only [MapStore.step]
    split <;> rfl
  | copy i =>
    simp only [MapStore.step]
    split
    · exact (s.push_frame hs _ _ _ _ hm).1
    · rfl
  | astype i f =>
    simp only [MapStore.step]
    split
    · unfold MapStore.val
      simp only
      rw [Function.update_of_ne (by omega)]
    · rfl
  | view i =>
    simp only [MapStore.step]
    split <;> rfl
  | ufunc i j f =>
    simp only [MapStore.step]
    split
    · split
      · exact (s.push_frame hs _ _ _ _ hm).1
      · rfl
    · rfl
  | window i y0 x0 hh w =>
    simp only [MapStore.step]
    split
    · split <;> rfl
    · rfl
  | set i y x v =>
    simp only [MapStore.step]
    split
    · rename_i m' hm'
      have := h i m' rfl hm'
      split
      · unfold MapStore.val
        simp only
        rw [Function.update_of_ne (Ne.symm this)]
      · rfl
    · rfl
  | shift i off ip kw =>
    simp only [MapStore.step]
    split
    · rename_i m' hm'
      split
      · rename_i hip
        subst hip
        have := h i m' rfl hm'
        exact s.shiftIn_other m' m off kw (Ne.symm this)
      · rw [MapStore.shiftIn_other _ _ _ _ _ (by simp only; omega)]
        exact (s.push_frame hs _ _ _ _ hm).1
    · rfl

/-- A step changes the wcs of a map only if it moves the reference pixel of the same wcs object. -/
theorem MapStore.step_wcs (s : MapStore V) (hs : s.Ok) (op : MapStep V) {m : MapRef} (hm : m ∈ s.maps)
    (h : ∀ i m', op.moves = some i → s.maps[i]? = some m' → m'.wref ≠ m.wref) : (s.step op).wcs m = s.wcs m := by
  have h1 := hs.wref m hm
  cases op with
  | make ny nx v w => exact (s.push_frame hs ny nx v w hm).2
  | wrap i j =>
    simp only [MapStore.step]
    split
    · unfold MapStore.wcs
      simp only
      rw [Function.update_of_ne (by omega)]
    · rfl
  | copy i =>
    simp only [MapStore.step]
    split
    · exact (s.push_frame hs _ _ _ _ hm).2
    · rfl
  | astype i f =>
    simp only [MapStore.step]
    split <;> rfl
  | view i =>
    simp only [MapStore.step]
    split <;> rfl
  | ufunc i j f =>
    simp only [MapStore.step]
    split
    · split
      · exact (s.push_frame hs _ _ _ _ hm).2
      · rfl
    · rfl
  | window i y0 x0 hh w =>
    simp only [MapStore.step]
    split
    · split
      · unfold MapStore.wcs
        simp only
        rw [Function.update_of_ne (by omega)]
      · rfl
    · rfl
  | set i y x v =>
    simp only [MapStore.step]
    split
    · split <;> rfl
    · rfl
  | shift i off ip kw =>
    simp only [MapStore.step]
    split
    · rename_i m' hm'
      split
      · rename_i hip
        subst hip
        apply s.shiftIn_wcs
        cases kw
        · exact Or.inr (Ne.symm (h i m' rfl hm'))
        · exact Or.inl rfl
      · rw [MapStore.shiftIn_wcs _ _ _ _ _ (Or.inr (by simp only; omega))]
        exact (s.push_frame hs _ _ _ _ hm).2
    · rfl

end Pixell
