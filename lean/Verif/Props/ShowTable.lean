import Verif.Model.ShowTable
import Mathlib.Tactic.Common
import Mathlib.Order.Lattice
import Mathlib.Data.List.Forall2

/-
C205: printing of database tables.
-/
namespace Pixell

/-- The lines show the rows in columns: every field is at the right of its column, columns are as wide as their longest field and
have a space between them. -/
def InColumns (rows : List (List (List Char))) (lines : List (List Char)) : Prop :=
  ∃ ws : List Nat,
    List.Forall₂ (fun (row : List (List Char)) (line : List Char) => ∃ cells : List (List Char), line = List.intercalate [' '] cells ∧ cells.length = row.length ∧
      ∀ (j : Nat) (f : List Char), row[j]? = some f → ∃ (w k : Nat), ws[j]? = some w ∧ cells[j]? = some (List.replicate k ' ' ++ f) ∧ k + f.length = w)
      rows lines ∧
    ∀ (j w : Nat), ws[j]? = some w → w = 0 ∨ ∃ row ∈ rows, ∃ f : List Char, row[j]? = some f ∧ f.length = w

theorem foldl_max_bounds : ∀ (l : List Nat) (a : Nat), a ≤ l.foldl max a ∧ (∀ x ∈ l, x ≤ l.foldl max a) ∧
    (l.foldl max a = a ∨ l.foldl max a ∈ l)
  | [], a => by simp
  | y :: l, a => by
    obtain ⟨h1, h2, h3⟩ := foldl_max_bounds l (max a y)
    rw [List.foldl_cons]
    refine ⟨(Nat.le_max_left a y).trans h1, ?_, ?_⟩
    · intro x hx
      rcases List.mem_cons.1 hx with e | e
      · subst e; exact (Nat.le_max_right a x).trans h1
      · exact h2 x e
    · rcases h3 with h | h
      · rcases Nat.le_total a y with g | g
        · right; rw [h, Nat.max_eq_right g]; exact List.mem_cons_self
        · left; rw [h, Nat.max_eq_left g]
      · right; exact List.mem_cons_of_mem _ h

theorem inColumns_lines (rows : List (List (List Char))) (m : Nat) (hm : ∀ r ∈ rows, r.length = m) :
    InColumns rows (rows.map fun row => List.intercalate [' '] (List.zipWith padLeft (colWidths rows) row)) := by
  have hlen : ∀ r ∈ rows, (colWidths rows).length = r.length := by
    intro r hr
    cases rows with
    | nil => simp at hr
    | cons a l =>
      rw [hm r hr]
      simp [colWidths, hm a List.mem_cons_self]
  have hw : ∀ (j w : Nat), (colWidths rows)[j]? = some w → w = (rows.map fun r => (r.getD j []).length).foldl max 0 := by
    intro j w h
    unfold colWidths at h
    rw [List.getElem?_map] at h
    by_cases hj : j < (rows.headD []).length
    · rw [List.getElem?_range hj] at h
      simpa using h.symm
    · rw [List.getElem?_eq_none (by simpa using hj)] at h
      simp at h
  refine ⟨colWidths rows, ?_, ?_⟩
  · rw [List.forall₂_map_right_iff, List.forall₂_same]
    intro row hrow
    refine ⟨_, rfl, by simp [hlen row hrow], ?_⟩
    intro j f hf
    have hj : j < row.length := (List.getElem?_eq_some_iff.1 hf).1
    have hjw : j < (colWidths rows).length := by rw [hlen row hrow]; exact hj
    have e1 : (colWidths rows)[j]? = some (colWidths rows)[j] := List.getElem?_eq_getElem hjw
    have e2 := hw j _ e1
    have e3 : f.length ≤ (colWidths rows)[j] := by
      rw [e2]
      refine (foldl_max_bounds _ 0).2.1 _ (List.mem_map.2 ⟨row, hrow, ?_⟩)
      simp [List.getD_eq_getElem?_getD, hf]
    refine ⟨(colWidths rows)[j], (colWidths rows)[j] - f.length, e1, ?_, by omega⟩
    rw [List.getElem?_zipWith, e1, hf]
    rfl
  · intro j w h
    have e := hw j w h
    rcases (foldl_max_bounds (rows.map fun r => (r.getD j []).length) 0).2.2 with g | g
    · left; rw [e, g]
    · right
      rw [← e, List.mem_map] at g
      obtain ⟨r, hr, g⟩ := g
      have hj : j < r.length := by
        rw [← hlen r hr]; exact (List.getElem?_eq_some_iff.1 h).1
      refine ⟨r, hr, r[j], List.getElem?_eq_getElem hj, ?_⟩
      rw [← g, List.getD_eq_getElem?_getD, List.getElem?_eq_getElem hj]
      rfl

/-- C205: show prints the first rows of a table or query in columns, as many as the limit says, and dots after them exactly if there
are more; a limit in the query, written in small or capital letters, takes the place of the limit given. -/
theorem C205_show_partial (rows : List (List (List Char))) (m limit : Nat) (hm : ∀ r ∈ rows, r.length = m) (hr : rows ≠ [])
    (hl : 0 < limit) :
    (∃ lines, InColumns (rows.take limit) lines ∧
      showTable rows none limit = some (if limit < rows.length then lines ++ ["...".toList] else lines)) ∧
    ∀ k, 0 < k → ∀ word ∈ ["limit", "LIMIT"], ∃ lines, InColumns (rows.take k) lines ∧
      showTable rows (some (word, k)) limit = some lines := by
  have pos : 0 < rows.length := List.length_pos_iff.2 hr
  have hmt : ∀ k, ∀ r ∈ rows.take k, r.length = m := fun k r h => hm r (List.mem_of_mem_take h)
  have hne : ∀ k, 0 < k → rows.take k ≠ [] := by
    intro k hk e
    have := congrArg List.length e
    rw [List.length_take, List.length_nil] at this
    omega
  constructor
  · refine ⟨_, inColumns_lines _ m (hmt limit), ?_⟩
    simp only [showTable, formatResult, Option.getD_some]
    rw [if_neg (hne _ (by omega))]
    by_cases h : limit < rows.length
    · have e : limit < (rows.take (limit + 1)).length := by rw [List.length_take]; omega
      have e2 : (rows.take (limit + 1)).take limit = rows.take limit := by
        rw [List.take_take]; congr 1; omega
      simp only [e, h, decide_true, if_true, e2]
      rw [if_neg (hne limit hl)]
    · have e : ¬ limit < (rows.take (limit + 1)).length := by rw [List.length_take]; omega
      have e2 : rows.take (limit + 1) = rows.take limit := by
        rw [List.take_of_length_le (by omega), List.take_of_length_le (by omega)]
      simp only [e, h, decide_false, Bool.false_eq_true, if_false]
      rw [if_neg (hne _ (by omega)), e2]
  · intro k hk word hword
    refine ⟨_, inColumns_lines _ m (hmt k), ?_⟩
    have hw : word = "limit" ∨ word = "LIMIT" := by simpa using hword
    simp only [showTable, if_pos hw, formatResult, Option.getD_some]
    rw [if_neg (hne k hk)]
    simp only [lt_self_iff_false, decide_false, Bool.false_eq_true, if_false]
    rw [if_neg (hne k hk)]

example : showTable [["1".toList, "ab".toList], ["100".toList, "c".toList], ["7".toList, "d".toList]] none 2 =
    some ["  1 ab".toList, "100  c".toList, "...".toList] := by decide +kernel

/-- C205: tables without rows are called empty. -/
theorem C205_empty (limit : Nat) : showTable [] none limit = some ["<empty>".toList] := by
  simp [showTable, formatResult]

/-- C205 refuted for the limit 0: it raises for every table that has rows, instead of printing dots. -/
theorem C205_zero_refuted (rows : List (List (List Char))) (hr : rows ≠ []) : showTable rows none 0 = none := by
  obtain ⟨a, l, rfl⟩ := List.exists_cons_of_ne_nil hr
  simp [showTable, formatResult]

/-- C205 refuted for queries whose limit is written in another way: they raise, because a second limit is added. -/
theorem C205_word_refuted (rows : List (List (List Char))) (word : String) (k limit : Nat) (h : word ∉ ["limit", "LIMIT"]) :
    showTable rows (some (word, k)) limit = none := by
  have : ¬ (word = "limit" ∨ word = "LIMIT") := by simpa using h
  simp only [showTable, if_neg this]

example : "Limit" ∉ ["limit", "LIMIT"] := by decide

end Pixell
