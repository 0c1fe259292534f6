import Verif.Lemmas.SrcSim
import Mathlib.Tactic.NormNum
import Mathlib.Tactic.IntervalCases
import Mathlib.Order.Bounds.Basic

/-!
# C85: painting objects on a map
-/

set_option linter.unusedSectionVars false

namespace Pixell

/-! ## C85: which pixels an object is painted on, and with what -/

/-- Is the pixel `(y,x)` in one of the square blocks of `csize` pixels that the box of the object
touches, the blocks being counted around the map? -/
def Covered (ny nx csize : ℕ) (b : Box4) (y x : ℕ) : Prop :=
  (∃ s : ℤ, b.y1 ≤ s ∧ s < b.y2 ∧ (ncell ny csize : ℤ) ∣ s / csize - (y / csize : ℕ)) ∧
  (∃ s : ℤ, b.x1 ≤ s ∧ s < b.x2 ∧ (ncell nx csize : ℤ) ∣ s / csize - (x / csize : ℕ))

open Classical in
/-- The objects painted on a pixel, in catalogue order. -/
noncomputable def coveringObjs (ny nx csize : ℕ) (boxes : List Box4) (y x : ℕ) : List ℕ :=
  (List.range boxes.length).filter fun o => decide (∃ b ∈ boxes[o]?, Covered ny nx csize b y x)

/-- What an interleaving of the threads has to satisfy: no step happens twice, exactly the cells
with objects are written, and a cell is only written after it has been read. -/
def ValidSchedule (active : List (ℕ × ℕ)) (sched : List CellStep) : Prop :=
  sched.Nodup ∧ (∀ c, CellStep.write c ∈ sched ↔ c ∈ active) ∧
  ∀ pre c post, sched = pre ++ CellStep.write c :: post → CellStep.read c ∈ pre

/-- A row of cells touched by `[a,b)` seen from the pixels. -/
theorem cells_of_pixels {csize : ℕ} (hc : 0 < csize) {a b : ℤ} (hab : a < b) (n t : ℤ) :
    (∃ s, a / csize ≤ s ∧ s < (b - 1) / (csize : ℤ) + 1 ∧ n ∣ s - t) ↔
      ∃ s, a ≤ s ∧ s < b ∧ n ∣ s / csize - t := by
  have hc' : (0 : ℤ) < csize := by exact_mod_cast hc
  constructor
  · rintro ⟨s, h1, h2, h3⟩
    have h5 : s * csize ≤ b - 1 := (Int.le_ediv_iff_mul_le hc').1 (by omega)
    rcases le_or_gt a (s * csize) with h | h
    · refine ⟨s * csize, h, by omega, ?_⟩
      rw [Int.mul_ediv_cancel _ hc'.ne']; exact h3
    · have h6 : a / (csize : ℤ) = s := by
        apply le_antisymm h1
        exact (Int.le_ediv_iff_mul_le hc').2 h.le
      exact ⟨a, le_refl _, hab, by rw [h6]; exact h3⟩
  · rintro ⟨s, h1, h2, h3⟩
    exact ⟨s / csize, Int.ediv_le_ediv hc' h1,
      by have := Int.ediv_le_ediv hc' (show s ≤ b - 1 by omega); omega, h3⟩

theorem mem_objCells {ny nx csize : ℕ} (hc : 0 < csize) {b : Box4} (hby : b.y1 < b.y2)
    (hbx : b.x1 < b.x2) {y x : ℕ} (hy : y < ny) (hx : x < nx) :
    (((y / csize : ℕ) : ℤ), ((x / csize : ℕ) : ℤ)) ∈ objCells ny nx csize b ↔
      Covered ny nx csize b y x := by
  have hcy : (0 : ℤ) < ncell ny csize := by exact_mod_cast ncell_pos hc (by omega)
  have hcx : (0 : ℤ) < ncell nx csize := by exact_mod_cast ncell_pos hc (by omega)
  have hc' : (0 : ℤ) < csize := by exact_mod_cast hc
  have ly : ((y / csize : ℕ) : ℤ) < ncell ny csize := by exact_mod_cast cell_lt hc hy
  have lx : ((x / csize : ℕ) : ℤ) < ncell nx csize := by exact_mod_cast cell_lt hc hx
  unfold objCells Covered
  simp only
  rw [mem_wrapVisits hcy hcx]
  unfold pixbox2cellbox
  simp only [cFloorDiv_eq _ hc']
  rw [cells_of_pixels hc hby, cells_of_pixels hc hbx]
  constructor
  · rintro ⟨⟨_, _, h⟩, _, _, h'⟩
    exact ⟨h, h'⟩
  · rintro ⟨h, h'⟩
    exact ⟨⟨by positivity, ly, h⟩, by positivity, lx, h'⟩

/-- **C85 (registration).** An object is listed in the cell of a pixel exactly when its box touches
that cell, counted around the map, and it is listed once. -/
theorem C85_registered {ny nx csize : ℕ} (hc : 0 < csize) {boxes : List Box4}
    (hb : ∀ b ∈ boxes, b.y1 < b.y2 ∧ b.x1 < b.x2) {y x : ℕ} (hy : y < ny) (hx : x < nx) :
    assignCells ny nx csize boxes (((y / csize : ℕ) : ℤ), ((x / csize : ℕ) : ℤ))
      = coveringObjs ny nx csize boxes y x ∧
    (coveringObjs ny nx csize boxes y x).Nodup := by
  constructor
  · rw [assignCells_eq _ _ _ (ncell_pos hc (by omega)) (ncell_pos hc (by omega))]
    unfold coveringObjs
    apply List.filter_congr
    intro o _
    rw [decide_eq_decide]
    constructor
    · rintro ⟨b, h1, h2⟩
      have h3 := hb b (List.mem_of_getElem? h1)
      exact ⟨b, h1, (mem_objCells hc h3.1 h3.2 hy hx).1 h2⟩
    · rintro ⟨b, h1, h2⟩
      have h3 := hb b (List.mem_of_getElem? h1)
      exact ⟨b, h1, (mem_objCells hc h3.1 h3.2 hy hx).2 h2⟩
  · exact List.nodup_range.filter _

/-- The value every schedule arrives at. -/
noncomputable def paintFinal (ny nx csize : ℕ) (op : MergeOp) (amps : ℕ → ℕ → ℚ)
    (prof : ℕ → ℕ → ℕ → ℚ) (boxes : List Box4) (omap : CMap) : CMap := fun c y x =>
  (assignCells ny nx csize boxes (((y / csize : ℕ) : ℤ), ((x / csize : ℕ) : ℤ))).foldl
    (fun t o => mergeOp op (amps c o * prof o y x) t) (omap c y x)

theorem paint_invariant {ny nx csize : ℕ} (hc : 0 < csize) (op : MergeOp) (amps : ℕ → ℕ → ℚ)
    (prof : ℕ → ℕ → ℕ → ℚ) (boxes : List Box4) (omap : CMap) (sched : List CellStep)
    (hnd : sched.Nodup)
    (hrw : ∀ pre c post, sched = pre ++ CellStep.write c :: post → CellStep.read c ∈ pre) :
    ∀ (rest done : List CellStep) (s : PaintState), sched = done ++ rest →
      (∀ c y x, s.map c y x = if CellStep.write (y / csize, x / csize) ∈ done ∧ y < ny ∧ x < nx
        then paintFinal ny nx csize op amps prof boxes omap c y x else omap c y x) →
      (∀ cell, CellStep.read cell ∈ done → ∀ c y x, inCell ny nx csize cell y x = true →
        s.data cell c y x = paintFinal ny nx csize op amps prof boxes omap c y x) →
      ∀ c y x, (rest.foldl (paintStep ny nx csize op amps prof boxes) s).map c y x
        = if CellStep.write (y / csize, x / csize) ∈ sched ∧ y < ny ∧ x < nx
          then paintFinal ny nx csize op amps prof boxes omap c y x else omap c y x := by
  intro rest
  induction rest with
  | nil =>
    intro done s hs h1 _ c y x
    rw [List.append_nil] at hs
    rw [hs]
    exact h1 c y x
  | cons e rest ih =>
    intro done s hs h1 h2
    rw [List.foldl_cons]
    have hs' : sched = (done ++ [e]) ++ rest := by rw [hs]; simp
    have hnd' : (done ++ e :: rest).Nodup := hs ▸ hnd
    have hnot : e ∉ done := by
      intro hmem
      exact (List.nodup_append.1 hnd').2.2 e hmem e (List.mem_cons_self ..) rfl
    refine ih (done ++ [e]) _ hs' ?_ ?_
    · -- the map
      intro c y x
      cases e with
      | read cell =>
        have : (CellStep.write (y / csize, x / csize) ∈ done ++ [CellStep.read cell]) ↔
            CellStep.write (y / csize, x / csize) ∈ done := by simp
        rw [show (paintStep ny nx csize op amps prof boxes s (.read cell)).map = s.map from rfl,
          h1 c y x]
        simp only [this]
      | write cell =>
        have hr : CellStep.read cell ∈ done := hrw done cell rest hs
        rw [show (paintStep ny nx csize op amps prof boxes s (.write cell)).map
          = insertCell ny nx csize cell (s.data cell) s.map from rfl]
        unfold insertCell
        by_cases hin : inCell ny nx csize cell y x = true
        · rw [if_pos hin, h2 cell hr c y x hin]
          obtain ⟨hyx, hcell⟩ := (inCell_iff hc ny nx cell y x).1 hin
          rw [if_pos]
          exact ⟨by rw [← hcell]; simp, hyx⟩
        · rw [if_neg hin, h1 c y x]
          by_cases hyx : y < ny ∧ x < nx
          · have hne : cell ≠ (y / csize, x / csize) := fun h =>
              hin ((inCell_iff hc ny nx cell y x).2 ⟨hyx, h⟩)
            have : (CellStep.write (y / csize, x / csize) ∈ done ++ [CellStep.write cell]) ↔
                CellStep.write (y / csize, x / csize) ∈ done := by
              rw [List.mem_append, List.mem_singleton, CellStep.write.injEq]
              exact ⟨fun h => h.resolve_right (fun h' => hne h'.symm), Or.inl⟩
            simp only [this]
          · rw [if_neg (fun h => hyx h.2), if_neg (fun h => hyx h.2)]
    · -- the private copies
      intro cell hcell c y x hin
      cases e with
      | read cell' =>
        rw [show (paintStep ny nx csize op amps prof boxes s (.read cell')).data
          = Function.update s.data cell' (cellData op amps prof
            (assignCells ny nx csize boxes ((cell'.1 : ℤ), (cell'.2 : ℤ))) s.map) from rfl]
        by_cases he : cell = cell'
        · subst he
          rw [Function.update_self]
          obtain ⟨hyx, hcl⟩ := (inCell_iff hc ny nx cell y x).1 hin
          have hw : CellStep.write (y / csize, x / csize) ∉ done := by
            intro hw
            obtain ⟨p, q, hpq⟩ := List.append_of_mem hw
            have hsp : sched = p ++ CellStep.write cell :: (q ++ .read cell :: rest) := by
              rw [hs, hpq, hcl]; simp
            have hrp := hrw _ _ _ hsp
            exact hnot (by rw [hpq]; exact List.mem_append_left _ hrp)
          unfold cellData paintFinal
          rw [h1 c y x, if_neg (fun h => hw h.1), hcl]
        · rw [Function.update_of_ne he]
          refine h2 cell ?_ c y x hin
          simpa [he] using hcell
      | write cell' =>
        rw [show (paintStep ny nx csize op amps prof boxes s (.write cell')).data = s.data from rfl]
        refine h2 cell ?_ c y x hin
        simpa using hcell

/-- A cell without objects is not in the list of active cells, and the others are. -/
theorem mem_activeCells {ny nx csize : ℕ} (hc : 0 < csize) (boxes : List Box4) {y x : ℕ}
    (hy : y < ny) (hx : x < nx) :
    (y / csize, x / csize) ∈ activeCells ny nx csize boxes ↔
      assignCells ny nx csize boxes (((y / csize : ℕ) : ℤ), ((x / csize : ℕ) : ℤ)) ≠ [] := by
  unfold activeCells
  rw [List.mem_filter]
  constructor
  · rintro ⟨_, h⟩
    have h := of_decide_eq_true h
    exact List.ne_nil_of_length_pos h
  · intro h
    refine ⟨?_, decide_eq_true (List.length_pos_of_ne_nil h)⟩
    rw [List.mem_flatMap]
    exact ⟨y / csize, List.mem_range.2 (cell_lt hc hy),
      List.mem_map.2 ⟨x / csize, List.mem_range.2 (cell_lt hc hx), rfl⟩⟩

/-- **C85 (every schedule).** However the threads interleave, every pixel of the result is the old
pixel merged, in catalogue order, with `amplitude × profile` of exactly the objects whose box touches
its cell; every object counts once. Outside the map nothing is written. -/
theorem C85_paint {ny nx csize : ℕ} (hc : 0 < csize) (op : MergeOp) (amps : ℕ → ℕ → ℚ)
    (prof : ℕ → ℕ → ℕ → ℚ) {boxes : List Box4} (hb : ∀ b ∈ boxes, b.y1 < b.y2 ∧ b.x1 < b.x2)
    (omap : CMap) {sched : List CellStep}
    (hs : ValidSchedule (activeCells ny nx csize boxes) sched) (c y x : ℕ) :
    simObjectsC ny nx csize op amps prof boxes sched omap c y x =
      if y < ny ∧ x < nx then
        (coveringObjs ny nx csize boxes y x).foldl
          (fun t o => mergeOp op (amps c o * prof o y x) t) (omap c y x)
      else omap c y x := by
  unfold simObjectsC
  rw [paint_invariant hc op amps prof boxes omap sched hs.1 hs.2.2 sched [] ⟨omap, fun _ => omap⟩
    rfl (by intro c y x; simp) (by intro cell h; simp at h) c y x]
  by_cases hyx : y < ny ∧ x < nx
  · rw [if_pos hyx, ← (C85_registered hc hb hyx.1 hyx.2).1]
    by_cases ha : (y / csize, x / csize) ∈ activeCells ny nx csize boxes
    · rw [if_pos ⟨(hs.2.1 _).2 ha, hyx⟩]
      rfl
    · rw [if_neg (fun h => ha ((hs.2.1 _).1 h.1))]
      have := (mem_activeCells hc boxes hyx.1 hyx.2).not.1 ha
      rw [not_not] at this
      rw [this]
      rfl
  · rw [if_neg hyx, if_neg (fun h => hyx h.2)]

theorem foldl_add_sum (f : ℕ → ℚ) (l : List ℕ) (t : ℚ) :
    l.foldl (fun t o => mergeOp .add (f o) t) t = t + (l.map f).sum := by
  induction l generalizing t with
  | nil => simp
  | cons o l ih => rw [List.foldl_cons, ih, List.map_cons, List.sum_cons]; unfold mergeOp; ring

open Classical in
theorem sum_filter_range (p : ℕ → Prop) (f : ℕ → ℚ) (n : ℕ) :
    (((List.range n).filter fun o => decide (p o)).map f).sum
      = ∑ o ∈ Finset.range n, if p o then f o else 0 := by
  induction n with
  | zero => simp
  | succ n ih =>
    rw [List.range_succ, List.filter_append, List.map_append, List.sum_append, ih,
      Finset.sum_range_succ]
    by_cases h : p n <;> simp [h]

open Classical in
/-- **C85 (adding).** With the default operation the painted map is the old map plus the sum of
`amplitude × profile` over the objects covering the pixel. -/
theorem C85_add {ny nx csize : ℕ} (hc : 0 < csize) (amps : ℕ → ℕ → ℚ)
    (prof : ℕ → ℕ → ℕ → ℚ) {boxes : List Box4} (hb : ∀ b ∈ boxes, b.y1 < b.y2 ∧ b.x1 < b.x2)
    (omap : CMap) {sched : List CellStep}
    (hs : ValidSchedule (activeCells ny nx csize boxes) sched) (c : ℕ) {y x : ℕ} (hy : y < ny)
    (hx : x < nx) :
    simObjectsC ny nx csize .add amps prof boxes sched omap c y x = omap c y x +
      ∑ o ∈ Finset.range boxes.length,
        if ∃ b ∈ boxes[o]?, Covered ny nx csize b y x then amps c o * prof o y x else 0 := by
  rw [C85_paint hc .add amps prof hb omap hs, if_pos ⟨hy, hx⟩, foldl_add_sum]
  unfold coveringObjs
  congr 1
  convert sum_filter_range (fun o => ∃ b ∈ boxes[o]?, Covered ny nx csize b y x) _ _

theorem foldl_max_greatest (f : ℕ → ℚ) (l : List ℕ) (t : ℚ) :
    IsGreatest ({t} ∪ {v | ∃ o ∈ l, v = f o}) (l.foldl (fun t o => mergeOp .max (f o) t) t) := by
  induction l generalizing t with
  | nil =>
    constructor
    · left; rfl
    · rintro v (hv | ⟨o, ho, _⟩)
      · exact le_of_eq hv
      · simp at ho
  | cons o l ih =>
    rw [List.foldl_cons]
    have h := ih (mergeOp .max (f o) t)
    have hm : mergeOp .max (f o) t = max t (f o) := by
      unfold mergeOp
      rcases lt_or_ge t (f o) with h' | h'
      · rw [max_eq_right h'.le]; simp [h']
      · rw [max_eq_left h']; simp [not_lt.2 h']
    obtain ⟨h1, h2⟩ := h
    constructor
    · rcases h1 with h1 | ⟨o', ho', he⟩
      · rw [Set.mem_singleton_iff] at h1
        rw [h1, hm]
        rcases max_choice t (f o) with h3 | h3
        · left; rw [h3]; rfl
        · right; exact ⟨o, List.mem_cons_self .., h3⟩
      · right; exact ⟨o', List.mem_cons_of_mem _ ho', he⟩
    · have hb := le_trans (le_of_eq hm.symm) (h2 (Or.inl rfl))
      rintro v (hv | ⟨o', ho', he⟩)
      · rw [Set.mem_singleton_iff] at hv
        rw [hv]; exact le_trans (le_max_left _ _) hb
      · rcases List.mem_cons.1 ho' with h3 | h3
        · rw [he, h3]; exact le_trans (le_max_right _ _) hb
        · exact h2 (Or.inr ⟨o', h3, he⟩)

/-- **C85 (maximum).** With the operation `max` the result is the greatest of the old pixel and all
contributions to it. -/
theorem C85_max {ny nx csize : ℕ} (hc : 0 < csize) (amps : ℕ → ℕ → ℚ)
    (prof : ℕ → ℕ → ℕ → ℚ) {boxes : List Box4} (hb : ∀ b ∈ boxes, b.y1 < b.y2 ∧ b.x1 < b.x2)
    (omap : CMap) {sched : List CellStep}
    (hs : ValidSchedule (activeCells ny nx csize boxes) sched) (c : ℕ) {y x : ℕ} (hy : y < ny)
    (hx : x < nx) :
    IsGreatest ({omap c y x} ∪ {v | ∃ o b, boxes[o]? = some b ∧ Covered ny nx csize b y x ∧
        v = amps c o * prof o y x})
      (simObjectsC ny nx csize .max amps prof boxes sched omap c y x) := by
  rw [C85_paint hc .max amps prof hb omap hs, if_pos ⟨hy, hx⟩]
  have h := foldl_max_greatest (fun o => amps c o * prof o y x)
    (coveringObjs ny nx csize boxes y x) (omap c y x)
  have he : {v | ∃ o ∈ coveringObjs ny nx csize boxes y x, v = amps c o * prof o y x}
      = {v | ∃ o b, boxes[o]? = some b ∧ Covered ny nx csize b y x ∧
        v = amps c o * prof o y x} := by
    ext v
    unfold coveringObjs
    simp only [Set.mem_ofPred_eq, List.mem_filter, List.mem_range, decide_eq_true_eq]
    constructor
    · rintro ⟨o, ⟨_, b, h1, h2⟩, h3⟩
      exact ⟨o, b, h1, h2, h3⟩
    · rintro ⟨o, b, h1, h2, h3⟩
      exact ⟨o, ⟨(List.getElem?_eq_some_iff.1 h1).1, b, h1, h2⟩, h3⟩
  rw [he] at h
  exact h

theorem foldl_min_least (f : ℕ → ℚ) (l : List ℕ) (t : ℚ) :
    IsLeast ({t} ∪ {v | ∃ o ∈ l, v = f o}) (l.foldl (fun t o => mergeOp .min (f o) t) t) := by
  induction l generalizing t with
  | nil =>
    constructor
    · left; rfl
    · rintro v (hv | ⟨o, ho, _⟩)
      · exact ge_of_eq hv
      · simp at ho
  | cons o l ih =>
    rw [List.foldl_cons]
    have h := ih (mergeOp .min (f o) t)
    have hm : mergeOp .min (f o) t = min t (f o) := by
      unfold mergeOp
      rcases lt_or_ge (f o) t with h' | h'
      · rw [min_eq_right h'.le]; simp [h']
      · rw [min_eq_left h']; simp [not_lt.2 h']
    obtain ⟨h1, h2⟩ := h
    constructor
    · rcases h1 with h1 | ⟨o', ho', he⟩
      · rw [Set.mem_singleton_iff] at h1
        rw [h1, hm]
        rcases min_choice t (f o) with h3 | h3
        · left; rw [h3]; rfl
        · right; exact ⟨o, List.mem_cons_self .., h3⟩
      · right; exact ⟨o', List.mem_cons_of_mem _ ho', he⟩
    · have hb := le_trans (h2 (Or.inl rfl)) (le_of_eq hm)
      rintro v (hv | ⟨o', ho', he⟩)
      · rw [Set.mem_singleton_iff] at hv
        rw [hv]; exact le_trans hb (min_le_left _ _)
      · rcases List.mem_cons.1 ho' with h3 | h3
        · rw [he, h3]; exact le_trans hb (min_le_right _ _)
        · exact h2 (Or.inr ⟨o', h3, he⟩)

/-- **C85 (minimum).** With the operation `min` the result is the least of the old pixel and all
contributions to it. -/
theorem C85_min {ny nx csize : ℕ} (hc : 0 < csize) (amps : ℕ → ℕ → ℚ)
    (prof : ℕ → ℕ → ℕ → ℚ) {boxes : List Box4} (hb : ∀ b ∈ boxes, b.y1 < b.y2 ∧ b.x1 < b.x2)
    (omap : CMap) {sched : List CellStep}
    (hs : ValidSchedule (activeCells ny nx csize boxes) sched) (c : ℕ) {y x : ℕ} (hy : y < ny)
    (hx : x < nx) :
    IsLeast ({omap c y x} ∪ {v | ∃ o b, boxes[o]? = some b ∧ Covered ny nx csize b y x ∧
        v = amps c o * prof o y x})
      (simObjectsC ny nx csize .min amps prof boxes sched omap c y x) := by
  rw [C85_paint hc .min amps prof hb omap hs, if_pos ⟨hy, hx⟩]
  have h := foldl_min_least (fun o => amps c o * prof o y x)
    (coveringObjs ny nx csize boxes y x) (omap c y x)
  have he : {v | ∃ o ∈ coveringObjs ny nx csize boxes y x, v = amps c o * prof o y x}
      = {v | ∃ o b, boxes[o]? = some b ∧ Covered ny nx csize b y x ∧
        v = amps c o * prof o y x} := by
    ext v
    unfold coveringObjs
    simp only [Set.mem_ofPred_eq, List.mem_filter, List.mem_range, decide_eq_true_eq]
    constructor
    · rintro ⟨o, ⟨_, b, h1, h2⟩, h3⟩
      exact ⟨o, b, h1, h2, h3⟩
    · rintro ⟨o, b, h1, h2, h3⟩
      exact ⟨o, ⟨(List.getElem?_eq_some_iff.1 h1).1, b, h1, h2⟩, h3⟩
  rw [he] at h
  exact h

/-- **C85 (no pixel of the box is missed).** The pixels of the map that lie in the box of an object
are covered by it. -/
theorem C85_inside (ny nx csize : ℕ) (b : Box4) {y x : ℕ} (h1 : b.y1 ≤ y) (h2 : (y : ℤ) < b.y2)
    (h3 : b.x1 ≤ x) (h4 : (x : ℤ) < b.x2) : Covered ny nx csize b y x :=
  ⟨⟨y, h1, h2, by simp⟩, ⟨x, h3, h4, by simp⟩⟩

theorem ncell_of_dvd {n csize : ℕ} (hc : 0 < csize) (h : csize ∣ n) :
    ncell n csize = n / csize := by
  obtain ⟨k, rfl⟩ := h
  unfold ncell
  rw [Nat.mul_div_cancel_left _ hc]
  refine Nat.div_eq_of_lt_le ?_ ?_
  · rw [mul_comm]; omega
  · rw [Nat.succ_mul, mul_comm k]; omega

/-- **C85 (around the sky, partial).** If the width and height of the map are whole numbers of cells
then a box reaching around the sky covers all its pixels. Missing: other sizes, where this fails
(`C85_around_refuted`). -/
theorem C85_around_partial {ny nx csize : ℕ} (hc : 0 < csize) (hny : csize ∣ ny)
    (hnx : csize ∣ nx) (b : Box4) {y x : ℕ} (k l : ℤ)
    (h1 : b.y1 ≤ y + k * ny) (h2 : y + k * ny < b.y2)
    (h3 : b.x1 ≤ x + l * nx) (h4 : x + l * nx < b.x2) : Covered ny nx csize b y x := by
  have key : ∀ (n : ℕ) (j : ℤ) (z : ℕ), csize ∣ n →
      (ncell n csize : ℤ) ∣ ((z : ℤ) + j * n) / csize - (z / csize : ℕ) := by
    intro n j z hn
    rw [ncell_of_dvd hc hn]
    obtain ⟨m, rfl⟩ := hn
    rw [Nat.mul_div_cancel_left _ hc]
    have hc' : (csize : ℤ) ≠ 0 := by exact_mod_cast hc.ne'
    have : ((z : ℤ) + j * ((csize * m : ℕ) : ℤ)) = z + csize * (j * m) := by push_cast; ring
    rw [this, Int.add_mul_ediv_left _ _ hc']
    push_cast
    exact ⟨j, by ring⟩
  exact ⟨⟨_, h1, h2, key ny k y hny⟩, ⟨_, h3, h4, key nx l x hnx⟩⟩

/-- **C85 refuted (around the sky).** On a map 10 pixels wide with cells of 8, an object in column 9
whose box reaches 2 columns to the right, and so covers columns 0 and 1 around the sky, is not painted
there. -/
theorem C85_around_refuted :
    ∃ (ny nx : ℕ) (b : Box4) (y x : ℕ), y < ny ∧ x < nx ∧ b.y1 ≤ y ∧ (y : ℤ) < b.y2 ∧
      b.x1 ≤ (x : ℤ) + nx ∧ (x : ℤ) + nx < b.x2 ∧ ¬ Covered ny nx 8 b y x := by
  refine ⟨8, 10, ⟨0, 3, 9, 12⟩, 1, 0, by decide, by decide, by decide, by decide, by decide,
    by decide, ?_⟩
  rintro ⟨_, s, h1, h2, h3⟩
  have h1' : (9 : ℤ) ≤ s := h1
  have h2' : s < (12 : ℤ) := h2
  have : s = 9 ∨ s = 10 ∨ s = 11 := by omega
  rcases this with rfl | rfl | rfl <;> revert h3 <;> decide

/-- A serial run: every active cell is read and written in turn. -/
def serialSchedule (active : List (ℕ × ℕ)) : List CellStep :=
  active.flatMap fun c => [.read c, .write c]

theorem serial_valid {active : List (ℕ × ℕ)} (h : active.Nodup) :
    ValidSchedule active (serialSchedule active) := by
  unfold serialSchedule
  refine ⟨?_, fun c => ?_, fun pre c post hs => ?_⟩
  · rw [List.nodup_flatMap]
    refine ⟨fun c _ => by simp, ?_⟩
    refine h.imp ?_
    intro a b hab
    simp [Function.onFun, List.disjoint_left, hab]
  · simp
  · induction active generalizing pre with
    | nil => simp at hs
    | cons a active ih =>
      rw [List.flatMap_cons] at hs
      cases pre with
      | nil => simp at hs
      | cons p1 pre =>
        simp only [List.cons_append, List.nil_append, List.cons.injEq] at hs
        obtain ⟨rfl, hs⟩ := hs
        cases pre with
        | nil =>
          simp only [List.nil_append, List.cons.injEq, CellStep.write.injEq] at hs
          rw [hs.1]; simp
        | cons p2 pre =>
          simp only [List.cons_append, List.cons.injEq] at hs
          exact List.mem_cons_of_mem _ (List.mem_cons_of_mem _ (ih (List.nodup_cons.1 h).2 pre hs.2))

theorem activeCells_nodup (ny nx csize : ℕ) (boxes : List Box4) :
    (activeCells ny nx csize boxes).Nodup := by
  unfold activeCells
  refine List.Nodup.filter _ ?_
  exact (List.nodup_range (n := ncell ny csize)).product (List.nodup_range (n := ncell nx csize))

/-- **C85 refuted (the operation).** `pointsrcs.sim_objects(..., op="max")` does not return the
maximum: the operation asked for is dropped and the contributions are added. One object of amplitude 1
on a map that is 2 everywhere gives 3. -/
theorem C85_op_refuted :
    ∃ (boxes : List Box4) (sched : List CellStep) (omap : CMap) (amps : ℕ → ℕ → ℚ)
      (prof : ℕ → ℕ → ℕ → ℚ), ValidSchedule (activeCells 8 8 8 boxes) sched ∧
      simObjectsPy 8 8 .max amps prof boxes sched omap 0 0 0 = 3 ∧
      simObjectsC 8 8 8 .max amps prof boxes sched omap 0 0 0 = 2 := by
  refine ⟨[⟨0, 1, 0, 1⟩], serialSchedule (activeCells 8 8 8 [⟨0, 1, 0, 1⟩]), fun _ _ _ => 2,
    fun _ _ => 1, fun _ _ _ => 1, serial_valid (activeCells_nodup ..), ?_, ?_⟩ <;> decide +kernel

/-- Two overlapping objects and a two-cell map: the schedule exists and both cells are active. -/
example : ValidSchedule (activeCells 8 16 8 [⟨2, 5, 6, 9⟩, ⟨3, 4, 12, 18⟩])
    [.read (0, 1), .read (0, 0), .write (0, 1), .write (0, 0)] := by
  have ha : activeCells 8 16 8 [⟨2, 5, 6, 9⟩, ⟨3, 4, 12, 18⟩] = [(0, 0), (0, 1)] := by
    decide +kernel
  rw [ha]
  refine ⟨by decide, fun c => by simp [or_comm], fun pre c post h => ?_⟩
  rcases pre with _ | ⟨a, _ | ⟨b, pre⟩⟩
  · simp at h
  · simp at h
  · simp only [List.cons_append, List.cons.injEq] at h
    obtain ⟨rfl, rfl, h⟩ := h
    rcases pre with _ | ⟨d, pre⟩
    · simp only [List.nil_append, List.cons.injEq, CellStep.write.injEq] at h
      rw [← h.1]; simp
    · simp only [List.cons_append, List.cons.injEq] at h
      obtain ⟨rfl, h⟩ := h
      rcases pre with _ | ⟨d, pre⟩
      · simp only [List.nil_append, List.cons.injEq, CellStep.write.injEq] at h
        rw [← h.1]; simp
      · simp at h

example : simObjectsC 8 16 8 .add (fun _ o => o + 1) (fun _ y x => y + x)
    [⟨2, 5, 6, 9⟩, ⟨3, 4, 12, 18⟩] [.read (0, 1), .read (0, 0), .write (0, 1), .write (0, 0)]
    (fun _ _ _ => 100) 0 3 10 = 100 + 1 * 13 + 2 * 13 := by decide +kernel

/-! ### The transposed operation -/

theorem foldl_collect (l : List ℕ) (hl : l.Nodup) (g : ℕ → ℕ → ℚ) (a : ℕ → ℕ → ℚ) (c o' : ℕ) :
    l.foldl (fun a o => fun c o' => if o' = o then a c o' + g c o else a c o') a c o'
      = a c o' + if o' ∈ l then g c o' else 0 := by
  induction l generalizing a with
  | nil => simp
  | cons o l ih =>
    rw [List.nodup_cons] at hl
    rw [List.foldl_cons, ih hl.2]
    by_cases h : o' = o
    · subst h
      simp [hl.1]
    · simp [h]

theorem collectCell_eq {ny nx csize : ℕ} (hcy : 0 < ncell ny csize) (hcx : 0 < ncell nx csize)
    (prof : ℕ → ℕ → ℕ → ℚ) (boxes : List Box4) (m : CMap) (amps : ℕ → ℕ → ℚ) (cell : ℕ × ℕ)
    (c o : ℕ) :
    collectCell ny nx csize prof boxes m amps cell c o = amps c o +
      if o ∈ assignCells ny nx csize boxes ((cell.1 : ℤ), (cell.2 : ℤ)) then
        ∑ y ∈ Finset.range ny, ∑ x ∈ Finset.range nx,
          (if inCell ny nx csize cell y x then m c y x * prof o y x else 0) else 0 := by
  unfold collectCell
  have hnd : (assignCells ny nx csize boxes ((cell.1 : ℤ), (cell.2 : ℤ))).Nodup := by
    rw [assignCells_eq _ _ _ hcy hcx]
    exact List.nodup_range.filter _
  rw [foldl_collect _ hnd (fun c o => ∑ y ∈ Finset.range ny, ∑ x ∈ Finset.range nx,
          (if inCell ny nx csize cell y x then m c y x * prof o y x else 0))]

theorem foldl_collectCell {ny nx csize : ℕ} (hcy : 0 < ncell ny csize) (hcx : 0 < ncell nx csize)
    (prof : ℕ → ℕ → ℕ → ℚ) (boxes : List Box4) (m : CMap) (cells : List (ℕ × ℕ))
    (amps : ℕ → ℕ → ℚ) (c o : ℕ) :
    cells.foldl (collectCell ny nx csize prof boxes m) amps c o = amps c o +
      (cells.map fun cell => if o ∈ assignCells ny nx csize boxes ((cell.1 : ℤ), (cell.2 : ℤ)) then
        ∑ y ∈ Finset.range ny, ∑ x ∈ Finset.range nx,
          (if inCell ny nx csize cell y x then m c y x * prof o y x else 0) else 0).sum := by
  induction cells generalizing amps with
  | nil => simp
  | cons cell cells ih =>
    rw [List.foldl_cons, ih, collectCell_eq hcy hcx, List.map_cons, List.sum_cons]
    ring

theorem foldl_reduce (ws : List (ℕ → ℕ → ℚ)) (a : ℕ → ℕ → ℚ) (c o : ℕ) :
    ws.foldl (fun a w => fun c o => a c o + w c o) a c o = a c o + (ws.map fun w => w c o).sum := by
  induction ws generalizing a with
  | nil => simp
  | cons w ws ih => rw [List.foldl_cons, ih, List.map_cons, List.sum_cons]; ring

/-- Summing over the cells that contain a pixel picks that pixel's cell. -/
theorem sum_cells {ny nx csize : ℕ} (hc : 0 < csize) {cells : List (ℕ × ℕ)} (hnd : cells.Nodup)
    (P : ℕ × ℕ → Prop) [DecidablePred P] (v : ℚ) {y x : ℕ} (hy : y < ny) (hx : x < nx) :
    (cells.map fun cell => if P cell then (if inCell ny nx csize cell y x then v else 0) else 0).sum
      = if (y / csize, x / csize) ∈ cells ∧ P (y / csize, x / csize) then v else 0 := by
  induction cells with
  | nil => simp
  | cons cell cells ih =>
    rw [List.nodup_cons] at hnd
    rw [List.map_cons, List.sum_cons, ih hnd.2]
    by_cases hin : inCell ny nx csize cell y x = true
    · have he := ((inCell_iff hc ny nx cell y x).1 hin).2
      rw [if_pos hin, ← he]
      by_cases hP : P cell <;> simp [hP, hnd.1]
    · have hne : (y / csize, x / csize) ≠ cell := fun h =>
        hin ((inCell_iff hc ny nx cell y x).2 ⟨⟨hy, hx⟩, h.symm⟩)
      rw [if_neg hin]
      simp [hne]

open Classical in
/-- **C85 (transpose).** However the active cells are distributed over the threads, the transposed
operation adds to the amplitude of each object the sum of `map × profile` over the pixels it
covers. -/
theorem C85_transpose {ny nx csize : ℕ} (hc : 0 < csize) (hny : 0 < ny) (hnx : 0 < nx)
    (prof : ℕ → ℕ → ℕ → ℚ) {boxes : List Box4} (hb : ∀ b ∈ boxes, b.y1 < b.y2 ∧ b.x1 < b.x2)
    {assign : List (List (ℕ × ℕ))}
    (ha : assign.flatten.Perm (activeCells ny nx csize boxes)) (m : CMap) (amps : ℕ → ℕ → ℚ)
    (c : ℕ) {o : ℕ} {b : Box4} (ho : boxes[o]? = some b) :
    simTransposeC ny nx csize prof boxes assign m amps c o = amps c o +
      ∑ y ∈ Finset.range ny, ∑ x ∈ Finset.range nx,
        if Covered ny nx csize b y x then m c y x * prof o y x else 0 := by
  have hcy := ncell_pos hc hny
  have hcx := ncell_pos hc hnx
  unfold simTransposeC
  rw [foldl_reduce, List.map_map]
  congr 1
  have h1 : (assign.map ((fun w : ℕ → ℕ → ℚ => w c o) ∘ fun cells =>
      cells.foldl (collectCell ny nx csize prof boxes m) fun _ _ => 0)).sum
      = (assign.flatten.map fun cell =>
        if o ∈ assignCells ny nx csize boxes ((cell.1 : ℤ), (cell.2 : ℤ)) then
        ∑ y ∈ Finset.range ny, ∑ x ∈ Finset.range nx,
          (if inCell ny nx csize cell y x then m c y x * prof o y x else 0) else 0).sum := by
    clear ha
    induction assign with
    | nil => simp
    | cons cells assign ih =>
      rw [List.map_cons, List.sum_cons, ih, List.flatten_cons, List.map_append, List.sum_append]
      congr 1
      rw [Function.comp, foldl_collectCell hcy hcx, zero_add]
  rw [h1]
  have hnd : assign.flatten.Nodup := ha.nodup_iff.2 (activeCells_nodup ..)
  generalize hL : assign.flatten = cells at *
  have h2 : ∀ L : List (ℕ × ℕ), (L.map fun cell =>
      if o ∈ assignCells ny nx csize boxes ((cell.1 : ℤ), (cell.2 : ℤ)) then
        ∑ y ∈ Finset.range ny, ∑ x ∈ Finset.range nx,
          (if inCell ny nx csize cell y x then m c y x * prof o y x else 0) else 0).sum
      = ∑ y ∈ Finset.range ny, ∑ x ∈ Finset.range nx, (L.map fun cell =>
          if o ∈ assignCells ny nx csize boxes ((cell.1 : ℤ), (cell.2 : ℤ)) then
          (if inCell ny nx csize cell y x then m c y x * prof o y x else 0) else 0).sum := by
    intro L
    induction L with
    | nil => simp
    | cons cell L ih =>
      simp only [List.map_cons, List.sum_cons, Finset.sum_add_distrib]
      rw [ih]
      congr 1
      split_ifs <;> simp
  rw [h2]
  refine Finset.sum_congr rfl fun y hy => Finset.sum_congr rfl fun x hx => ?_
  have hy := Finset.mem_range.1 hy
  have hx := Finset.mem_range.1 hx
  rw [sum_cells hc hnd (fun cell => o ∈ assignCells ny nx csize boxes ((cell.1 : ℤ), (cell.2 : ℤ)))
    _ hy hx]
  have hmem : (o ∈ assignCells ny nx csize boxes (((y / csize : ℕ) : ℤ), ((x / csize : ℕ) : ℤ)))
      ↔ Covered ny nx csize b y x := by
    rw [(C85_registered hc hb hy hx).1]
    unfold coveringObjs
    rw [List.mem_filter, decide_eq_true_eq]
    constructor
    · rintro ⟨_, b', h, h'⟩
      rw [ho, Option.mem_some_iff] at h
      exact h ▸ h'
    · intro h
      exact ⟨List.mem_range.2 (List.getElem?_eq_some_iff.1 ho).1, b, ho, h⟩
  have hact : (o ∈ assignCells ny nx csize boxes (((y / csize : ℕ) : ℤ), ((x / csize : ℕ) : ℤ))) →
      (y / csize, x / csize) ∈ cells := by
    intro h
    rw [ha.mem_iff]
    exact (mem_activeCells hc boxes hy hx).2 (List.ne_nil_of_mem h)
  by_cases hcov : Covered ny nx csize b y x
  · rw [if_pos hcov, if_pos ⟨hact (hmem.2 hcov), hmem.2 hcov⟩]
  · rw [if_neg hcov, if_neg (fun h => hcov (hmem.1 h.2))]

/-- **C85 (adjoint).** Painting on an empty map and the transposed operation starting from zero
amplitudes are adjoint to each other, for every schedule of one and every distribution of the other:
the scalar product of the painted map with any map is the scalar product of the amplitudes with the
collected ones. -/
theorem C85_adjoint {ny nx csize : ℕ} (hc : 0 < csize) (hny : 0 < ny) (hnx : 0 < nx)
    (prof : ℕ → ℕ → ℕ → ℚ) {boxes : List Box4} (hb : ∀ b ∈ boxes, b.y1 < b.y2 ∧ b.x1 < b.x2)
    {sched : List CellStep} (hs : ValidSchedule (activeCells ny nx csize boxes) sched)
    {assign : List (List (ℕ × ℕ))}
    (ha : assign.flatten.Perm (activeCells ny nx csize boxes)) (m : CMap) (amps : ℕ → ℕ → ℚ)
    (c : ℕ) :
    (∑ y ∈ Finset.range ny, ∑ x ∈ Finset.range nx,
      simObjectsC ny nx csize .add amps prof boxes sched (fun _ _ _ => 0) c y x * m c y x) =
    ∑ o ∈ Finset.range boxes.length,
      amps c o * simTransposeC ny nx csize prof boxes assign m (fun _ _ => 0) c o := by
  classical
  have h1 : ∀ o ∈ Finset.range boxes.length,
      amps c o * simTransposeC ny nx csize prof boxes assign m (fun _ _ => 0) c o
      = ∑ y ∈ Finset.range ny, ∑ x ∈ Finset.range nx,
        (if ∃ b ∈ boxes[o]?, Covered ny nx csize b y x then amps c o * prof o y x else 0)
          * m c y x := by
    intro o ho
    have ho' : boxes[o]? = some (boxes[o]'(Finset.mem_range.1 ho)) :=
      List.getElem?_eq_getElem (Finset.mem_range.1 ho)
    rw [C85_transpose hc hny hnx prof hb ha m _ c ho', zero_add, Finset.mul_sum]
    refine Finset.sum_congr rfl fun y _ => ?_
    rw [Finset.mul_sum]
    refine Finset.sum_congr rfl fun x _ => ?_
    rw [ho']
    by_cases hcov : Covered ny nx csize (boxes[o]'(Finset.mem_range.1 ho)) y x
    · simp [hcov]; ring
    · simp [hcov]
  rw [Finset.sum_congr rfl h1]
  symm
  rw [Finset.sum_comm]
  refine Finset.sum_congr rfl fun y hy => ?_
  rw [Finset.sum_comm]
  refine Finset.sum_congr rfl fun x hx => ?_
  rw [C85_add hc amps prof hb _ hs c (Finset.mem_range.1 hy) (Finset.mem_range.1 hx), zero_add,
    Finset.sum_mul]

example : simTransposeC 2 3 2 (fun o y x => o + y + x) [⟨0, 1, 0, 1⟩, ⟨0, 1, 1, 3⟩]
    [[(0, 1)], [(0, 0)]] (fun _ _ x => x) (fun _ _ => 0) 0 1 = 19 := by
  have h1 : assignCells 2 3 2 [⟨0, 1, 0, 1⟩, ⟨0, 1, 1, 3⟩] (0, 1) = [1] := by decide +kernel
  have h0 : assignCells 2 3 2 [⟨0, 1, 0, 1⟩, ⟨0, 1, 1, 3⟩] (0, 0) = [0, 1] := by decide +kernel
  simp [simTransposeC, collectCell, Finset.sum_range_succ, inCell, h0, h1]
  norm_num

end Pixell
