import Verif.Spec.PySeq
/-
Unit-step slices of lists: numpy get/set in terms of `take`/`drop`.
-/
namespace PySpec

theorem range_unit (a m : Nat) : range a ((a + m : Nat) : Int) 1 = (List.range' a m).map Int.ofNat := by
  apply List.ext_getElem
  · simp [range, rangeLen]; omega
  · intro i h1 h2
    simp [range]

/-- Python's adjusted start of a unit-step slice. -/
def lo (n : Nat) : Option Int → Int
  | some i => adjust n 1 i
  | none => 0

/-- Python's adjusted stop of a unit-step slice. -/
def hi (n : Nat) : Option Int → Int
  | some i => adjust n 1 i
  | none => n

theorem select_unit {n : Nat} {a b : Option Int} {i j : Nat}
    (ha : lo n a = i)
    (hb : hi n b = j) (hij : i ≤ j) :
    (Slice.mk a b none).select n = some ((List.range' i (j - i)).map Int.ofNat) := by
  have h : (Slice.mk a b none).select n = some (range i j 1) := by
    rw [← ha, ← hb]; cases a <;> cases b <;> simp [Slice.select, Slice.indices, lo, hi]
  rw [h, ← range_unit]
  congr 2
  omega

theorem filterMap_range' {α} (l : List α) (i m : Nat) :
    ((List.range' i m).map Int.ofNat).filterMap (fun (x : Int) => l[x.toNat]?)
      = (l.drop i).take m := by
  induction m generalizing i with
  | zero => simp
  | succ m ih =>
    rw [List.range'_succ, List.map_cons, List.filterMap_cons]
    by_cases h : i < l.length
    · have : l[(Int.ofNat i).toNat]? = some l[i] := by simp [h]
      rw [this]
      simp only
      rw [ih, List.drop_eq_getElem_cons h, List.take_succ_cons]
    · have : l[(Int.ofNat i).toNat]? = none := by simp; omega
      rw [this]
      simp only
      rw [ih, List.drop_eq_nil_of_le (by omega), List.drop_eq_nil_of_le (by omega)]
      simp

theorem npGet_unit {α} {l : List α} {a b : Option Int} {i j : Nat}
    (ha : lo l.length a = i)
    (hb : hi l.length b = j) (hij : i ≤ j) :
    npGet l ⟨a, b, none⟩ = some ((l.drop i).take (j - i)) := by
  unfold npGet
  rw [select_unit ha hb hij]
  simp [← filterMap_range']

theorem writeAt_range' {α} (vals : List α) (l : List α) (i : Nat) (h : i + vals.length ≤ l.length) :
    writeAt l ((List.range' i vals.length).map Int.ofNat) vals
      = l.take i ++ vals ++ l.drop (i + vals.length) := by
  induction vals generalizing l i with
  | nil => simp [writeAt]
  | cons v vs ih =>
    simp only [List.length_cons] at h
    rw [List.length_cons, List.range'_succ, List.map_cons, writeAt, ih _ _ (by simp; omega)]
    have e : (Int.ofNat i).toNat = i := by simp
    rw [e]
    rw [List.take_succ_eq_append_getElem (by simp; omega)]
    have hd : ∀ k, i < k → (l.set i v).drop k = l.drop k := fun k hk => by
      rw [List.drop_set, if_pos hk]
    rw [hd _ (by omega), List.take_set_of_le (Nat.le_refl i)]
    simp [Nat.add_comm, Nat.add_left_comm]

theorem npSet_unit {α} {l : List α} {a b : Option Int} {i j : Nat} {vals : List α}
    (ha : lo l.length a = i)
    (hb : hi l.length b = j) (hij : i ≤ j)
    (hj : j ≤ l.length) (hv : vals.length = j - i) :
    npSet l ⟨a, b, none⟩ vals = some (l.take i ++ vals ++ l.drop j) := by
  unfold npSet
  rw [select_unit ha hb hij]
  simp only [List.length_map, List.length_range', hv, if_true]
  rw [← hv, writeAt_range' _ _ _ (by omega)]
  congr 3; omega

theorem npSet_unit_error {α} {l : List α} {a b : Option Int} {i j : Nat} {vals : List α}
    (ha : lo l.length a = i)
    (hb : hi l.length b = j) (hij : i ≤ j)
    (hv : vals.length ≠ j - i) (h1 : vals.length ≠ 1) :
    npSet l ⟨a, b, none⟩ vals = none := by
  unfold npSet
  rw [select_unit ha hb hij]
  simp only [List.length_map, List.length_range']
  rw [if_neg (by omega)]
  rcases vals with _ | ⟨v, _ | _⟩ <;> simp_all

end PySpec
