import Verif.Model.MapNames
import Mathlib.Tactic.NormNum

/-
C172. Names of map files and the selections that may follow them.
-/
namespace Pixell
open PySpec (Slice)

theorem splitColons_ne (l : List Char) : splitColons l ≠ [] := by
  induction l with
  | nil => simp [splitColons]
  | cons c cs ih =>
    by_cases h : c = ':'
    · subst h; simp [splitColons]
    · rw [splitColons]
      · split <;> simp
      · exact h

theorem splitColons_plain (l : List Char) (h : ':' ∉ l) : splitColons l = [l] := by
  induction l with
  | nil => rfl
  | cons c cs ih =>
    simp only [List.mem_cons, not_or] at h
    rw [splitColons]
    · rw [ih h.2]
    · exact fun hc => h.1 hc.symm

theorem splitColons_first (a b : List Char) (h : ':' ∉ a) : splitColons (a ++ ':' :: b) = a :: splitColons b := by
  induction a with
  | nil => simp [splitColons]
  | cons c cs ih =>
    simp only [List.mem_cons, not_or] at h
    rw [List.cons_append, splitColons]
    · rw [ih h.2]
    · exact fun hc => h.1 hc.symm

theorem join_split (l : List Char) : joinColons (splitColons l) = l := by
  induction l with
  | nil => rfl
  | cons c cs ih =>
    by_cases h : c = ':'
    · subst h
      rw [splitColons]
      obtain ⟨w, ws, hw⟩ := List.exists_cons_of_ne_nil (splitColons_ne cs)
      rw [hw] at ih ⊢
      simp [joinColons, ih]
    · rw [splitColons]
      · obtain ⟨w, ws, hw⟩ := List.exists_cons_of_ne_nil (splitColons_ne cs)
        rw [hw] at ih ⊢
        cases ws with
        | nil => simpa [joinColons] using ih
        | cons v vs => simpa [joinColons] using ih
      · exact h

/-- **C172_read_back_partial.** A map written under a name without colon that does not end in ".npy" is found by read_map in
the same file and in a format it can read, and nothing is cut out of it. Missing: `C172_colon_refuted`, `C172_npy_refuted`. -/
theorem C172_read_back_partial (name : List Char) (hc : ':' ∉ name) (hn : ¬ sufNpy <:+ name) :
    (readMapTarget name).1 = (writeMapTarget name).1 ∧ (readMapTarget name).2.2 = none ∧
    canRead false (readMapTarget name).2.1 (storedBy name) = true := by
  have hs := splitColons_plain name hc
  have hn' : endsWith sufNpy name = false := by simpa [endsWith] using hn
  refine ⟨by simp [readMapTarget, writeMapTarget, hs], by simp [readMapTarget, hs], ?_⟩
  simp only [readMapTarget, hs, List.headD_cons, hn', storedBy, writeMapTarget, Bool.false_eq_true, if_false]
  by_cases h : endsWith sufHdf name = true
  · simp [h, canRead]
  · simp [h, canRead]

/-- **C172_selection.** What follows the first colon of a name is the selection, with all further colons, and the name before
it is the file. -/
theorem C172_selection (name sel : List Char) (hc : ':' ∉ name) :
    (readMapTarget (name ++ ':' :: sel)).1 = name ∧ (readMapTarget (name ++ ':' :: sel)).2.2 = some sel ∧
    (readMapTarget (name ++ ':' :: sel)).2.1 = (readMapTarget name).2.1 ∧
    (readGeometryTarget (name ++ ':' :: sel)).1 = name ∧ (readGeometryTarget (name ++ ':' :: sel)).2.2 = some sel ∧
    (readGeometryTarget (name ++ ':' :: sel)).2.1 = (readGeometryTarget name).2.1 := by
  have h1 := splitColons_first name sel hc
  have h2 := splitColons_plain name hc
  have h3 := join_split sel
  have h4 : 1 < (splitColons sel).length + 1 := by
    have := List.length_pos_iff.2 (splitColons_ne sel)
    omega
  simp [readMapTarget, readGeometryTarget, h1, h2, h3, h4]

example : readMapTarget "a/m.fits:[0,10:20,:]".toList = ("a/m.fits".toList, .fits, some "[0,10:20,:]".toList) := by decide

/-- **C172_geometry_partial.** The geometry of such a map can be read too, if a compressed one is called ".fits.gz". Missing:
`C172_gz_refuted`. -/
theorem C172_geometry_partial (name : List Char) (hc : ':' ∉ name)
    (hg : sufGz <:+ name → sufFitsGz <:+ name) :
    (readGeometryTarget name).1 = (writeMapTarget name).1 ∧ (readGeometryTarget name).2.2 = none ∧
    canRead true (readGeometryTarget name).2.1 (storedBy name) = true := by
  have hs := splitColons_plain name hc
  refine ⟨by simp [readGeometryTarget, writeMapTarget, hs], by simp [readGeometryTarget, hs], ?_⟩
  simp only [readGeometryTarget, hs, List.headD_cons, storedBy, writeMapTarget]
  by_cases h : endsWith sufHdf name = true
  · simp [h, canRead]
  · by_cases h2 : endsWith sufFits name = true
    · have h3 : endsWith sufGz name = false := by
        simp only [endsWith, decide_eq_false_iff_not]
        simp only [endsWith, decide_eq_true_eq] at h2
        intro h3
        obtain ⟨a, ha⟩ := h2
        obtain ⟨b, hb⟩ := h3
        have e1 : name.getLast? = some 's' := by rw [← ha]; simp [sufFits]
        have e2 : name.getLast? = some 'z' := by rw [← hb]; simp [sufGz]
        rw [e1] at e2; simp at e2
      simp [h, h2, h3, canRead]
    · by_cases h3 : endsWith sufFitsGz name = true
      · simp [h, h2, h3, canRead]
      · have h4 : endsWith sufGz name = false := by
          simp only [endsWith, decide_eq_false_iff_not]
          intro h5
          exact h3 (by simpa [endsWith] using hg h5)
        simp [h, h2, h3, h4, canRead]

example : (readGeometryTarget "a/m.fits.gz".toList).2.1 = .fitsgz := by decide

/-- **C172_colon_refuted.** write_map uses the whole name, read_map the part before a colon: a map written under a name with one
is looked for in another file. -/
theorem C172_colon_refuted (a b : List Char) (h : ':' ∉ a) :
    (readMapTarget (a ++ ':' :: b)).1 ≠ (writeMapTarget (a ++ ':' :: b)).1 := by
  rw [(C172_selection a b h).1]
  simp only [writeMapTarget]
  intro he
  have := congrArg List.length he
  simp at this

/-- **C172_npy_refuted.** read_map reads ".npy" files, but write_map writes a fits file under such a name, which read_map
cannot read. -/
theorem C172_npy_refuted (a : List Char) (h : ':' ∉ a) :
    (writeMapTarget (a ++ sufNpy)).2 = .fits ∧
    canRead false (readMapTarget (a ++ sufNpy)).2.1 (storedBy (a ++ sufNpy)) = false := by
  have last : (a ++ sufNpy).getLast? = some 'y' := by simp [sufNpy]
  have key : ∀ s : List Char, s.getLast? = some 'f' → endsWith s (a ++ sufNpy) = false := by
    intro s hs
    simp only [endsWith, decide_eq_false_iff_not]
    rintro ⟨b, hb⟩
    rw [← hb] at last
    have : s ≠ [] := by rintro rfl; simp at hs
    rw [List.getLast?_append, hs] at last
    simp at last
  have k1 := key sufHdf (by decide)
  have hs := splitColons_plain (a ++ sufNpy) (by simp [h, sufNpy])
  have k2 : endsWith sufNpy (a ++ sufNpy) = true := by simp [endsWith]
  constructor
  · simp only [writeMapTarget, k1]; simp
  · simp only [readMapTarget, hs, List.headD_cons, k1, k2]
    simp [canRead]

/-- **C172_gz_refuted.** The geometry of a compressed map under another name ending in ".gz" cannot be read, although the map
can. -/
theorem C172_gz_refuted :
    canRead false (readMapTarget "map.gz".toList).2.1 (storedBy "map.gz".toList) = true ∧
    canRead true (readGeometryTarget "map.gz".toList).2.1 (storedBy "map.gz".toList) = false := by decide

/-! ### selections -/

/-- **C172_geometry_sel_partial.** The geometry with a selection is that of the map read with it, if the selection starts with an
ellipsis and has slices for both pixel dimensions, or if the map has no other dimensions and there are at most two slices.
Missing: selections in the leading dimensions, one slice after an ellipsis (`C172_geometry_sel_refuted`). -/
theorem C172_geometry_sel_partial (pre : List (ℤ × Axis)) (dy dx : ℤ × Axis) (s t : Slice) :
    geometrySel (pre ++ [dy, dx]) [.ell, .sl s, .sl t] = readSel (pre ++ [dy, dx]) [.ell, .sl s, .sl t] ∧
    (readSel (pre ++ [dy, dx]) [.ell, .sl s, .sl t]) =
      some (pre ++ [sliceGeometry dy.1 dy.2 s, sliceGeometry dx.1 dx.2 t]) ∧
    geometrySel [dy, dx] [.sl s, .sl t] = readSel [dy, dx] [.sl s, .sl t] ∧
    geometrySel [dy, dx] [.sl s] = readSel [dy, dx] [.sl s] := by
  have hz : ∀ l : List (ℤ × Axis), (List.zipWith itemDim l (List.replicate l.length .ell)).filterMap id = l := by
    intro l
    induction l with
    | nil => rfl
    | cons a as ih => simpa [List.replicate_succ, itemDim] using ih
  have h1 : readSel (pre ++ [dy, dx]) [.ell, .sl s, .sl t] =
      some (pre ++ [sliceGeometry dy.1 dy.2 s, sliceGeometry dx.1 dx.2 t]) := by
    unfold readSel
    simp only [ne_eq, List.takeWhile_cons, List.dropWhile_cons, decide_not, decide_true, Bool.not_true, Bool.false_eq_true,
      if_false, List.drop_succ_cons, List.drop_zero, List.length_nil, List.length_append, List.length_cons]
    rw [if_neg (by simp)]
    simp only [List.nil_append, Nat.zero_add, Nat.sub_zero, Nat.add_sub_cancel]
    rw [List.zipWith_append (by simp), List.filterMap_append, hz]
    simp [itemDim]
  refine ⟨?_, h1, ?_, ?_⟩
  · rw [h1]
    simp [geometrySel, itemDim]
  · simp [geometrySel, readSel, itemDim]
  · simp [geometrySel, readSel, itemDim]

/-- **C172_geometry_sel_refuted.** For a map with a leading dimension the selection of a component, or of some of them, is an error
or is applied to the rows; the leading dimension is kept even if it was indexed; and one slice after an ellipsis is an error.
All of these work in read_map. -/
theorem C172_geometry_sel_refuted (c y x : ℤ × Axis) (s t : Slice) :
    (geometrySel [c, y, x] [.idx] = none ∧ readSel [c, y, x] [.idx] = some [y, x]) ∧
    (geometrySel [c, y, x] [.sl s] = some [c, sliceGeometry y.1 y.2 s, x] ∧
      readSel [c, y, x] [.sl s] = some [sliceGeometry c.1 c.2 s, y, x]) ∧
    ((geometrySel [c, y, x] [.idx, .sl s, .sl t]).map List.length = some 3 ∧
      (readSel [c, y, x] [.idx, .sl s, .sl t]).map List.length = some 2) ∧
    (geometrySel [c, y, x] [.ell, .sl s] = none ∧
      readSel [c, y, x] [.ell, .sl s] = some [c, y, sliceGeometry x.1 x.2 s]) := by
  refine ⟨⟨?_, ?_⟩, ⟨?_, ?_⟩, ⟨?_, ?_⟩, ?_, ?_⟩ <;> simp [geometrySel, readSel, itemDim]

end Pixell
