import Mathlib.Data.List.GetD
import Mathlib.Tactic.Linarith
import Mathlib.Tactic.FieldSimp
import Mathlib.Tactic.Ring
import Verif.Model.Crop
import Verif.Lemmas.Num

/-
Property C75: colours are bounded interpolations.
-/
namespace Pixell

/-- `r` is an acceptable colour for the value `v` of the table: left of all control points the first colour, right of
them the last, and between neighbouring control points within half a unit of the linear interpolation and between their
colours. -/
def GoodColor (vals : List ℚ) (cols : List ℤ) (v : ℚ) (r : ℤ) : Prop :=
  (∃ v0 c0, vals.head? = some v0 ∧ cols.head? = some c0 ∧ v ≤ v0 ∧ r = c0) ∨
  (∃ v1 c1, vals.getLast? = some v1 ∧ cols.getLast? = some c1 ∧ v1 ≤ v ∧ r = c1) ∨
  ∃ (k : Nat) (v0 v1 : ℚ) (c0 c1 : ℤ), vals[k]? = some v0 ∧ vals[k + 1]? = some v1 ∧ cols[k]? = some c0 ∧
    cols[k + 1]? = some c1 ∧ v0 ≤ v ∧ v ≤ v1 ∧ min c0 c1 ≤ r ∧ r ≤ max c0 c1 ∧
    |(r : ℚ) - (c0 + (v - v0) / (v1 - v0) * (c1 - c0))| ≤ 1 / 2

/-- A rounding function: integers within 1/2, monotone, and exact on integers. -/
structure IsRounding (f : ℚ → ℤ) : Prop where
  near : ∀ x, |(f x : ℚ) - x| ≤ 1 / 2
  exact : ∀ n : ℤ, f n = n
  mono : ∀ x y, x ≤ y → f x ≤ f y

theorem rint_rounding : IsRounding rint := by
  have near : ∀ x, |(rint x : ℚ) - x| ≤ 1 / 2 := by
    intro x
    have h0 := Int.floor_le x
    have h1 := Int.lt_floor_add_one x
    unfold rint
    simp only
    split_ifs <;> rw [abs_le] <;> push_cast <;> constructor <;> linarith
  refine ⟨near, ?_, ?_⟩
  · intro n
    have := near n
    have h : |((rint n - n : ℤ) : ℚ)| ≤ 1 / 2 := by push_cast; exact this
    rw [← Int.cast_abs] at h
    have : (((|rint n - n| : ℤ)) : ℚ) < (1 : ℤ) := by push_cast at h ⊢; linarith
    have := Int.cast_lt.1 this
    have := abs_nonneg (rint n - n)
    have : |rint n - n| = 0 := by omega
    have := abs_eq_zero.1 this
    omega
  · intro x y hxy
    have hf := Int.floor_le_floor hxy
    unfold rint
    simp only
    rcases eq_or_lt_of_le hf with e | e
    · rw [← e]
      split_ifs <;> first | omega | (exfalso; linarith)
    · split_ifs <;> omega

theorem nintAway_rounding : IsRounding nintAway := by
  have near : ∀ x, |(nintAway x : ℚ) - x| ≤ 1 / 2 := by
    intro x
    unfold nintAway
    split_ifs
    · have h0 := Int.floor_le (x + 1 / 2)
      have h1 := Int.lt_floor_add_one (x + 1 / 2)
      rw [abs_le]; constructor <;> linarith
    · have h0 := Int.floor_le (-x + 1 / 2)
      have h1 := Int.lt_floor_add_one (-x + 1 / 2)
      rw [abs_le]; push_cast; constructor <;> linarith
  refine ⟨near, ?_, ?_⟩
  · intro n
    have := near n
    have h : |((nintAway n - n : ℤ) : ℚ)| ≤ 1 / 2 := by push_cast; exact this
    rw [← Int.cast_abs] at h
    have : (((|nintAway n - n| : ℤ)) : ℚ) < (1 : ℤ) := by push_cast at h ⊢; linarith
    have := Int.cast_lt.1 this
    have := abs_nonneg (nintAway n - n)
    have : |nintAway n - n| = 0 := by omega
    have := abs_eq_zero.1 this
    omega
  · intro x y hxy
    unfold nintAway
    split_ifs with h1 h2
    · exact Int.floor_le_floor (by linarith)
    · exfalso; linarith
    · have a : 0 ≤ ⌊-x + 1 / 2⌋ := Int.floor_nonneg.2 (by linarith)
      have b : 0 ≤ ⌊y + 1 / 2⌋ := Int.floor_nonneg.2 (by linarith)
      omega
    · have : ⌊-y + 1 / 2⌋ ≤ ⌊-x + 1 / 2⌋ := Int.floor_le_floor (by linarith)
      omega

/-- Rounding an interpolation between two colours. -/
theorem round_between {f : ℚ → ℤ} (hf : IsRounding f) (c0 c1 : ℤ) (x : ℚ) (h0 : 0 ≤ x) (h1 : x ≤ 1)
    (hc0 : 0 ≤ c0 ∧ c0 ≤ 255) (hc1 : 0 ≤ c1 ∧ c1 ≤ 255) :
    clamp255 (f (c0 + x * (c1 - c0))) = f (c0 + x * (c1 - c0)) ∧
    min c0 c1 ≤ f (c0 + x * (c1 - c0)) ∧ f (c0 + x * (c1 - c0)) ≤ max c0 c1 := by
  have a : ((min c0 c1 : ℤ) : ℚ) ≤ c0 + x * (c1 - c0) := by
    rcases le_total c0 c1 with h | h
    · rw [min_eq_left h]
      have : (c0 : ℚ) ≤ c1 := by exact_mod_cast h
      nlinarith
    · rw [min_eq_right h]
      have : (c1 : ℚ) ≤ c0 := by exact_mod_cast h
      nlinarith
  have b : (c0 : ℚ) + x * (c1 - c0) ≤ ((max c0 c1 : ℤ) : ℚ) := by
    rcases le_total c0 c1 with h | h
    · rw [max_eq_right h]
      have : (c0 : ℚ) ≤ c1 := by exact_mod_cast h
      nlinarith
    · rw [max_eq_left h]
      have : (c1 : ℚ) ≤ c0 := by exact_mod_cast h
      nlinarith
  have a' := hf.mono _ _ a
  have b' := hf.mono _ _ b
  rw [hf.exact] at a' b'
  refine ⟨?_, a', b'⟩
  unfold clamp255
  omega

/-- For a sorted list, the number of entries below `v` separates those below from the others. -/
theorem countP_lt_sorted (vals : List ℚ) (hs : vals.Pairwise (· < ·)) (v : ℚ) :
    ∀ k x, vals[k]? = some x → (x < v ↔ k < vals.countP fun x => decide (x < v)) := by
  induction vals with
  | nil => simp
  | cons a l ih =>
    have ih := ih (List.pairwise_cons.1 hs).2
    have hrel := (List.pairwise_cons.1 hs).1
    intro k x hk
    rw [List.countP_cons]
    by_cases ha : a < v
    · simp only [ha, decide_true, if_true]
      cases k with
      | zero => simp at hk; subst hk; simp [ha]
      | succ k => rw [List.getElem?_cons_succ] at hk; rw [ih k x hk]; omega
    · have hz : l.countP (fun x => decide (x < v)) = 0 := by
        rw [List.countP_eq_zero]
        intro y hy
        have := hrel y hy
        simp; linarith
      simp only [ha, decide_false, Bool.false_eq_true, if_false, hz]
      cases k with
      | zero => simp at hk; subst hk; simp; linarith
      | succ k =>
        rw [List.getElem?_cons_succ] at hk
        have := hrel x (List.mem_of_getElem? hk)
        simp; linarith

/-- C75: the Python driver gives an acceptable colour to every number, for every sorted table of at least two control
points. -/
theorem C75_python (vals : List ℚ) (cols : List ℤ) (hl : cols.length = vals.length) (h2 : 2 ≤ vals.length)
    (hs : vals.Pairwise (· < ·)) (hc : ∀ c ∈ cols, 0 ≤ c ∧ c ≤ 255) (v : ℚ) :
    ∃ r, colorPython vals cols (some v) = some r ∧ GoodColor vals cols v r := by
  have hcount := countP_lt_sorted vals hs v
  have hle : vals.countP (fun x => decide (x < v)) ≤ vals.length := List.countP_le_length
  set i0 := vals.countP (fun x => decide (x < v)) with hi0
  obtain ⟨k, hk⟩ : ∃ k, min (max i0 1) (vals.length - 1) = k + 1 := ⟨min (max i0 1) (vals.length - 1) - 1, by omega⟩
  have hk1 : k + 1 < vals.length := by omega
  have gv0 : vals[k]? = some vals[k] := List.getElem?_eq_getElem (by omega)
  have gv1 : vals[k + 1]? = some vals[k + 1] := List.getElem?_eq_getElem hk1
  have gc0 : cols[k]? = some (cols[k]'(by omega)) := List.getElem?_eq_getElem (by omega)
  have gc1 : cols[k + 1]? = some (cols[k + 1]'(by omega)) := List.getElem?_eq_getElem (by omega)
  have b0 := hc _ (List.mem_of_getElem? gc0)
  have b1 := hc _ (List.mem_of_getElem? gc1)
  have hlt : vals[k] < vals[k + 1] := List.pairwise_iff_getElem.1 hs k (k + 1) (by omega) hk1 (by omega)
  have e : colorPython vals cols (some v) = some (clamp255 (rint ((cols[k]'(by omega) : ℤ) *
      (1 - min (max ((v - vals[k]) / (vals[k + 1] - vals[k])) 0) 1) +
      (cols[k + 1]'(by omega) : ℤ) * min (max ((v - vals[k]) / (vals[k + 1] - vals[k])) 0) 1))) := by
    unfold colorPython
    simp only [← hi0, hk, Nat.add_sub_cancel, gv0, gv1, gc0, gc1, Option.bind_eq_bind, Option.bind_some]
  rw [e]
  generalize vals[k] = v0 at *
  generalize vals[k + 1] = v1 at *
  generalize (cols[k]'(by omega)) = c0 at *
  generalize (cols[k + 1]'(by omega)) = c1 at *
  set x := (v - v0) / (v1 - v0) with hx
  have hr := round_between rint_rounding c0 c1 (min (max x 0) 1) (by simp) (by simp) b0 b1
  have hform : (c0 : ℚ) * (1 - min (max x 0) 1) + c1 * min (max x 0) 1 = c0 + min (max x 0) 1 * (c1 - c0) := by ring
  rw [hform, hr.1]
  refine ⟨_, rfl, ?_⟩
  have hpos : 0 < v1 - v0 := by linarith
  by_cases hv0 : v < v0
  · -- left of the table: k must be 0
    left
    have hk0 : k = 0 := by
      by_contra hne
      have := (hcount k v0 gv0).2 (by omega)
      linarith
    subst hk0
    refine ⟨v0, c0, by rw [List.head?_eq_getElem?]; exact gv0, by rw [List.head?_eq_getElem?]; exact gc0, le_of_lt hv0, ?_⟩
    have : x ≤ 0 := by rw [hx]; exact div_nonpos_of_nonpos_of_nonneg (by linarith) (le_of_lt hpos)
    rw [max_eq_right this]
    simp [rint_rounding.exact]
  · by_cases hv1 : v1 < v
    · right; left
      have hkl : k + 1 = vals.length - 1 := by
        have := (hcount (k + 1) v1 gv1).1 hv1
        omega
      refine ⟨v1, c1, by rw [List.getLast?_eq_getElem?, ← hkl]; exact gv1,
        by rw [List.getLast?_eq_getElem?, hl, ← hkl]; exact gc1, le_of_lt hv1, ?_⟩
      have : 1 ≤ x := by rw [hx, le_div_iff₀ hpos]; linarith
      rw [max_eq_left (by linarith), min_eq_right this]
      have e2 : (c0 : ℚ) + 1 * (c1 - c0) = c1 := by ring
      rw [e2, rint_rounding.exact]
    · right; right
      have hx0 : 0 ≤ x := div_nonneg (by linarith) (le_of_lt hpos)
      have hx1 : x ≤ 1 := by rw [hx, div_le_one hpos]; linarith
      have hxx : min (max x 0) 1 = x := by rw [max_eq_left hx0, min_eq_left hx1]
      rw [hxx] at hr ⊢
      exact ⟨k, v0, v1, c0, c1, gv0, gv1, gc0, gc1, by linarith, by linarith, hr.2.1, hr.2.2, rint_rounding.near _⟩

/-- C75: so does the Fortran driver. -/
theorem C75_fortran (vals : List ℚ) (cols : List ℤ) (hl : cols.length = vals.length) (h2 : 2 ≤ vals.length)
    (hs : vals.Pairwise (· < ·)) (hc : ∀ c ∈ cols, 0 ≤ c ∧ c ≤ 255) (v : ℚ) :
    ∃ r, colorFortran vals cols (some v) = some r ∧ GoodColor vals cols v r := by
  unfold colorFortran
  simp only
  set j := vals.findIdx (fun x => decide (x > v)) with hj
  have hjle : j ≤ vals.length := List.findIdx_le_length
  by_cases h0 : j = 0
  · rw [if_pos (by omega)]
    have hv : v < vals[0] := by
      have := List.findIdx_getElem (p := fun x => decide (x > v)) (xs := vals) (w := by rw [← hj]; omega)
      have e : vals[vals.findIdx (fun x => decide (x > v))]'(by rw [← hj]; omega) = vals[0] := by
        congr 1 <;> omega
      rw [e] at this
      simpa using this
    rw [h0]
    refine ⟨cols[0], by rw [List.getElem?_eq_getElem], Or.inl ⟨vals[0], cols[0], ?_, ?_, le_of_lt hv, rfl⟩⟩
    · rw [List.head?_eq_getElem?]; exact List.getElem?_eq_getElem _
    · rw [List.head?_eq_getElem?]; exact List.getElem?_eq_getElem _
  · rw [if_neg (by omega)]
    have hprev : ∀ i (hi : i < j), vals[i]'(by omega) ≤ v := by
      intro i hi
      have := List.not_of_lt_findIdx (p := fun x => decide (x > v)) (xs := vals) (i := i) hi
      simpa using this
    by_cases hlast : vals.length < j + 1
    · rw [if_pos hlast]
      refine ⟨cols[vals.length - 1], List.getElem?_eq_getElem _, Or.inr (Or.inl ⟨vals[vals.length - 1],
        cols[vals.length - 1], ?_, ?_, hprev _ (by omega), rfl⟩)⟩
      · rw [List.getLast?_eq_getElem?]; exact List.getElem?_eq_getElem _
      · rw [List.getLast?_eq_getElem?, show cols.length - 1 = vals.length - 1 by omega]; exact List.getElem?_eq_getElem _
    · rw [if_neg hlast]
      obtain ⟨k, hk⟩ : ∃ k, j = k + 1 := ⟨j - 1, by omega⟩
      have hv1 : v < vals[k + 1]'(by omega) := by
        have := List.findIdx_getElem (p := fun x => decide (x > v)) (xs := vals) (w := by rw [← hj]; omega)
        have e : vals[vals.findIdx (fun x => decide (x > v))]'(by rw [← hj]; omega) = vals[k + 1]'(by omega) := by
          congr 1 <;> omega
        rw [e] at this
        simpa using this
      have hv0 : vals[k]'(by omega) ≤ v := hprev k (by omega)
      have gv0 : vals[k]? = some (vals[k]'(by omega)) := List.getElem?_eq_getElem (by omega)
      have gv1 : vals[k + 1]? = some (vals[k + 1]'(by omega)) := List.getElem?_eq_getElem (by omega)
      have gc0 : cols[k]? = some (cols[k]'(by omega)) := List.getElem?_eq_getElem (by omega)
      have gc1 : cols[k + 1]? = some (cols[k + 1]'(by omega)) := List.getElem?_eq_getElem (by omega)
      have b0 := hc _ (List.mem_of_getElem? gc0)
      have b1 := hc _ (List.mem_of_getElem? gc1)
      rw [hk]
      simp only [show k + 1 + 1 - 2 = k by omega, Nat.add_sub_cancel, gv0, gv1, gc0, gc1, Option.bind_eq_bind,
        Option.bind_some]
      generalize (vals[k]'(by omega)) = v0 at *
      generalize (vals[k + 1]'(by omega)) = v1 at *
      generalize (cols[k]'(by omega)) = c0 at *
      generalize (cols[k + 1]'(by omega)) = c1 at *
      have hpos : 0 < v1 - v0 := by linarith
      have hx0 : 0 ≤ (v - v0) / (v1 - v0) := div_nonneg (by linarith) (le_of_lt hpos)
      have hx1 : (v - v0) / (v1 - v0) ≤ 1 := by rw [div_le_one hpos]; linarith
      have hr := round_between nintAway_rounding c0 c1 _ hx0 hx1 b0 b1
      have hform : (c0 : ℚ) + (v - v0) * (c1 - c0) / (v1 - v0) = c0 + (v - v0) / (v1 - v0) * (c1 - c0) := by ring
      rw [hform, hr.1]
      exact ⟨_, rfl, Or.inr (Or.inr ⟨k, v0, v1, c0, c1, gv0, gv1, gc0, gc1, by linarith, by linarith, hr.2.1, hr.2.2,
        nintAway_rounding.near _⟩)⟩

/-- In a sorted table with distinct values an acceptable colour for a control value is that point's own colour. -/
theorem GoodColor.at_control {vals : List ℚ} {cols : List ℤ} (hl : cols.length = vals.length)
    (hs : vals.Pairwise (· < ·)) {k : Nat} {v : ℚ} {c r : ℤ} (hv : vals[k]? = some v) (hc : cols[k]? = some c)
    (h : GoodColor vals cols v r) : r = c := by
  have inj : ∀ (i j : Nat) (x y : ℚ), vals[i]? = some x → vals[j]? = some y → (i < j ↔ x < y) := by
    intro i j x y hi hj
    obtain ⟨hi', rfl⟩ := List.getElem?_eq_some_iff.1 hi
    obtain ⟨hj', rfl⟩ := List.getElem?_eq_some_iff.1 hj
    rw [List.pairwise_iff_getElem] at hs
    constructor
    · exact hs i j hi' hj'
    · intro hlt
      by_contra hc
      rcases Nat.lt_or_ge j i with h | h
      · have := hs j i hj' hi' h; linarith
      · obtain rfl : i = j := by omega
        exact lt_irrefl _ hlt
  rcases h with ⟨v0, c0, h1, h2, h3, h4⟩ | ⟨v1, c1, h1, h2, h3, h4⟩ | ⟨i, v0, v1, c0, c1, g1, g2, g3, g4, g5, g6, g7, g8, g9⟩
  · rw [List.head?_eq_getElem?] at h1 h2
    have hk : ¬ 0 < k := fun hk => by have := (inj 0 k v0 v h1 hv).1 hk; linarith
    obtain rfl : k = 0 := by omega
    rw [hc] at h2; cases h2; exact h4
  · rw [List.getLast?_eq_getElem?] at h1 h2
    rw [hl] at h2
    have hk' : k < vals.length := (List.getElem?_eq_some_iff.1 hv).1
    have hk : ¬ k < vals.length - 1 := fun hk => by have := (inj k _ v v1 hv h1).1 hk; linarith
    obtain rfl : k = vals.length - 1 := by omega
    rw [hc] at h2; cases h2; exact h4
  · have a : ¬ k < i := fun h => by have := (inj k i v v0 hv g1).1 h; linarith
    have b : ¬ i + 1 < k := fun h => by have := (inj (i + 1) k v1 v g2 hv).1 h; linarith
    have hd : 0 < v1 - v0 := by have := (inj i (i + 1) v0 v1 g1 g2).1 (by omega); linarith
    have fin : ∀ c' : ℤ, |(r : ℚ) - c'| ≤ 1 / 2 → r = c' := by
      intro c' h
      have h : |((r - c' : ℤ) : ℚ)| ≤ 1 / 2 := by push_cast; exact h
      rw [← Int.cast_abs] at h
      have : (((|r - c'| : ℤ)) : ℚ) < (1 : ℤ) := by push_cast at h ⊢; linarith
      have := Int.cast_lt.1 this
      have := abs_nonneg (r - c')
      have : |r - c'| = 0 := by omega
      have := abs_eq_zero.1 this
      omega
    rcases (show k = i ∨ k = i + 1 by omega) with rfl | rfl
    · rw [hv] at g1; cases g1
      rw [hc] at g3; cases g3
      apply fin
      simpa using g9
    · rw [hv] at g2; cases g2
      rw [hc] at g4; cases g4
      apply fin
      rw [div_self (ne_of_gt hd)] at g9
      have e : (c0 : ℚ) + 1 * (c - c0) = c := by ring
      rw [e] at g9
      exact g9

/-- C75: control values get exactly their own colour, and NaN is transparent (all channels zero), with both drivers. -/
theorem C75_control (vals : List ℚ) (cols : List ℤ) (hl : cols.length = vals.length) (h2 : 2 ≤ vals.length)
    (hs : vals.Pairwise (· < ·)) (hc : ∀ c ∈ cols, 0 ≤ c ∧ c ≤ 255) :
    (∀ (k : Nat) v c, vals[k]? = some v → cols[k]? = some c →
      colorPython vals cols (some v) = some c ∧ colorFortran vals cols (some v) = some c) ∧
    colorPython vals cols none = some 0 ∧ colorFortran vals cols none = some 0 := by
  refine ⟨?_, rfl, rfl⟩
  intro k v c hv hc'
  obtain ⟨r, h, g⟩ := C75_python vals cols hl h2 hs hc v
  obtain ⟨r', h', g'⟩ := C75_fortran vals cols hl h2 hs hc v
  rw [h, h', g.at_control hl hs hv hc', g'.at_control hl hs hv hc']
  exact ⟨rfl, rfl⟩

/-- The two drivers need not give the same colour: they round halves differently. -/
theorem C75_drivers_differ : colorPython [0, 1] [0, 1] (some (1 / 2)) = some 0 ∧
    colorFortran [0, 1] [0, 1] (some (1 / 2)) = some 1 := by decide +kernel

example : colorPython [0, 1, 3] [10, 20, 0] (some 2) = some 10 := by decide +kernel
example : colorFortran [0, 1, 3] [10, 20, 0] (some 7) = some 0 := by decide +kernel

end Pixell
