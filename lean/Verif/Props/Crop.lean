import Mathlib.Data.List.GetD
import Mathlib.Tactic.Linarith
import Mathlib.Tactic.FieldSimp
import Mathlib.Tactic.Ring
import Verif.Model.Crop
import Verif.Lemmas.Extract
import Verif.Lemmas.Sort
import Verif.Props.PadShift
import Verif.Props.Number

/-
Properties C66 (rolling rows) and C69 (cropping blank edges).
-/
namespace Pixell
open PySpec (Slice npGet npSet)

/-! ### C66 -/

theorem rollRow_prefix {α : Type} (row out : List α) (off : ℤ) (hl : out.length = row.length)
    (hoff : -(row.length : ℤ) ≤ off ∧ off ≤ row.length) (k : Nat) (hk : k ≤ row.length) :
    ∃ o, (List.range k).foldlM (fun (o : List α) (i : Nat) =>
      let ox := rollTarget row.length off ((i : ℤ) + 1)
      match row[i]? with
      | some v => if 1 ≤ ox ∧ ox ≤ (o.length : ℤ) then some (o.set (ox - 1).toNat v) else none
      | none => none) out = some o ∧ o.length = row.length ∧
      ∀ i, i < k → o[(((i : ℤ) + off) % row.length).toNat]? = row[i]? := by
  induction k with
  | zero => exact ⟨out, rfl, hl, by intro i hi; omega⟩
  | succ k ih =>
    obtain ⟨o, h1, h2, h3⟩ := ih (by omega)
    have hn : 0 < row.length := by omega
    have ht : rollTarget row.length off ((k : ℤ) + 1) - 1 = ((k : ℤ) + off) % row.length ∧
        1 ≤ rollTarget row.length off ((k : ℤ) + 1) ∧ rollTarget row.length off ((k : ℤ) + 1) ≤ row.length := by
      unfold rollTarget
      simp only
      split_ifs with ha hb
      · refine ⟨?_, by omega, by omega⟩
        rw [← Int.add_emod_right ((k:ℤ) + off) row.length, Int.emod_eq_of_lt (by omega) (by omega)]
        ring
      · refine ⟨?_, by omega, by omega⟩
        rw [← Int.sub_emod_right ((k:ℤ) + off) row.length, Int.emod_eq_of_lt (by omega) (by omega)]
        ring
      · refine ⟨?_, by omega, by omega⟩
        rw [Int.emod_eq_of_lt (by omega) (by omega)]
        ring
    have hg : row[k]? = some row[k] := List.getElem?_eq_getElem (by omega)
    refine ⟨o.set (((k : ℤ) + off) % row.length).toNat row[k], ?_, by simp [h2], ?_⟩
    · rw [List.range_succ, List.foldlM_append, h1]
      simp only [Option.bind_eq_bind, Option.bind_some, List.foldlM_cons, List.foldlM_nil, hg]
      rw [if_pos (by omega), ht.1]
      rfl
    · intro i hi
      have hm1 := Int.emod_nonneg ((k:ℤ) + off) (show (row.length:ℤ) ≠ 0 by omega)
      have hm2 := Int.emod_lt_of_pos ((k:ℤ) + off) (show 0 < (row.length:ℤ) by omega)
      rcases Nat.lt_succ_iff_lt_or_eq.1 hi with hi | rfl
      · rw [List.getElem?_set_ne, h3 i hi]
        intro e
        have hm3 := Int.emod_nonneg ((i:ℤ) + off) (show (row.length:ℤ) ≠ 0 by omega)
        have e' : ((k:ℤ) + off) % row.length = ((i:ℤ) + off) % row.length := by omega
        have := Int.emod_emod_of_dvd ((k:ℤ) + off - ((i:ℤ) + off)) (dvd_refl (row.length:ℤ))
        have h0 : ((k:ℤ) + off - ((i:ℤ) + off)) % row.length = 0 := Int.emod_eq_emod_iff_emod_sub_eq_zero.1 e'
        rw [show (k:ℤ) + off - ((i:ℤ) + off) = k - i by ring, Int.emod_eq_of_lt (by omega) (by omega)] at h0
        omega
      · rw [List.getElem?_set_self (by omega), hg]

/-- C66 for offsets up to the row length in either direction: the element at column i ends up at column i + offset modulo
the row length, whatever was in the output row before. -/
theorem C66_partial {α : Type} (row out : List α) (off : ℤ) (hl : out.length = row.length)
    (hoff : -(row.length : ℤ) ≤ off ∧ off ≤ row.length) :
    rollRow row off out = some (npRoll row off) := by
  obtain ⟨o, h1, h2, h3⟩ := rollRow_prefix row out off hl hoff row.length (Nat.le_refl _)
  have : o = npRoll row off := by
    apply List.ext_getElem?
    intro j
    by_cases hj : j < row.length
    · rw [(npRoll_eq_map row off).2 j hj]
      have hm1 := Int.emod_nonneg ((j:ℤ) - off) (show (row.length:ℤ) ≠ 0 by omega)
      have hm2 := Int.emod_lt_of_pos ((j:ℤ) - off) (show 0 < (row.length:ℤ) by omega)
      have := h3 (((j:ℤ) - off) % row.length).toNat (by omega)
      rw [← this]
      congr 1
      rw [Int.toNat_of_nonneg hm1, Int.emod_add_emod, show (j:ℤ) - off + off = j by ring,
        Int.emod_eq_of_lt (by omega) (by omega)]
      rfl
    · rw [List.getElem?_eq_none (by omega), List.getElem?_eq_none (by rw [(npRoll_eq_map row off).1]; omega)]
  rw [← this]
  exact h1

/-- C66 is false for larger offsets: a single wrap does not bring the column back into the row, and roll_rows writes
outside of it, for every row that is not empty. -/
theorem C66_refuted {α : Type} (row out : List α) (off : ℤ) (hl : out.length = row.length) (hne : 0 < row.length)
    (hoff : (row.length : ℤ) < off ∨ off < -(row.length : ℤ)) :
    rollRow row off out = none := by
  have hlen : ∀ (l : List Nat) (o o' : List α), o.length = row.length →
      l.foldlM (fun (o : List α) (i : Nat) =>
        let ox := rollTarget row.length off ((i : ℤ) + 1)
        match row[i]? with
        | some v => if 1 ≤ ox ∧ ox ≤ (o.length : ℤ) then some (o.set (ox - 1).toNat v) else none
        | none => none) o = some o' → o'.length = row.length := by
    intro l
    induction l with
    | nil => intro o o' h e; simp only [List.foldlM_nil] at e; cases e; exact h
    | cons a l ih =>
      intro o o' h e
      rw [List.foldlM_cons] at e
      simp only at e
      cases hr : row[a]? with
      | none => rw [hr] at e; cases e
      | some v =>
        rw [hr] at e
        simp only at e
        split_ifs at e
        · exact ih _ _ (by simp [h]) e
        · cases e
  unfold rollRow
  cases hres : (List.range row.length).foldlM (fun (o : List α) (i : Nat) =>
        let ox := rollTarget row.length off ((i : ℤ) + 1)
        match row[i]? with
        | some v => if 1 ≤ ox ∧ ox ≤ (o.length : ℤ) then some (o.set (ox - 1).toNat v) else none
        | none => none) out with
  | none => rfl
  | some o' =>
    exfalso
    -- the offending column: the last one for positive, the first one for negative offsets
    set b : Nat := if 0 < off then row.length - 1 else 0 with hb
    have hbl : b < row.length := by rw [hb]; split_ifs <;> omega
    obtain ⟨tl, hsplit⟩ : ∃ tl, List.range row.length = List.range b ++ b :: tl := by
      obtain ⟨c, hc⟩ : ∃ c, row.length = b + (c + 1) := ⟨row.length - b - 1, by omega⟩
      rw [hc, List.range_add, List.range_succ_eq_map, List.map_cons]
      exact ⟨_, rfl⟩
    rw [hsplit, List.foldlM_append] at hres
    cases hp : (List.range b).foldlM (fun (o : List α) (i : Nat) =>
        let ox := rollTarget row.length off ((i : ℤ) + 1)
        match row[i]? with
        | some v => if 1 ≤ ox ∧ ox ≤ (o.length : ℤ) then some (o.set (ox - 1).toNat v) else none
        | none => none) out with
    | none => rw [hp] at hres; cases hres
    | some o =>
      have := hlen _ _ _ hl hp
      rw [hp] at hres
      simp only [Option.bind_eq_bind, Option.bind_some, List.foldlM_cons] at hres
      rw [List.getElem?_eq_getElem hbl] at hres
      simp only at hres
      rw [if_neg] at hres
      · cases hres
      · unfold rollTarget
        simp only
        rw [hb]
        split_ifs <;> omega

example : rollRow [1, 2, 3] (-1) [0, 0, 0] = some [2, 3, 1] := by decide
example : rollRow [1, 2, 3] 4 [0, 0, 0] = none := by decide

/-- C66 for whole maps. -/
theorem C66_rows_partial {α : Type} [Zero α] (rows : List (List α)) (offs : List ℤ)
    (h : ∀ ro ∈ rows.zip offs, -((ro.1.length : ℕ) : ℤ) ≤ ro.2 ∧ ro.2 ≤ (ro.1.length : ℕ)) :
    rollRows rows offs = some ((rows.zip offs).map fun ro => npRoll ro.1 ro.2) := by
  unfold rollRows
  apply mapM_total
  intro ro hro
  exact C66_partial ro.1 _ ro.2 (by simp) (h ro hro)

example : rollRows [[1, 2, 3], [(4:ℤ), 5, 6]] [1, -3] = some [[3, 1, 2], [4, 5, 6]] := by decide

/-! ### C69 -/

/-- The widths are those of the longest all-blank prefix and suffix. -/
theorem edgeWidths_spec (hit : List Bool) (f b : Nat) (h : edgeWidths hit = some (f, b)) :
    f + b < hit.length ∧ (∀ i < f, hit[i]? = some true) ∧ hit[f]? = some false ∧
    (∀ i, hit.length - b ≤ i → i < hit.length → hit[i]? = some true) ∧ hit[hit.length - b - 1]? = some false := by
  have hm : ∀ i, i ∈ (List.range hit.length).filter (fun i => !hit.getD i true) ↔
      i < hit.length ∧ hit[i]? = some false := by
    intro i
    rw [List.mem_filter, List.mem_range]
    constructor
    · rintro ⟨h1, h2⟩
      refine ⟨h1, ?_⟩
      rw [List.getD_eq_getElem _ _ h1] at h2
      rw [List.getElem?_eq_getElem h1]
      simpa using h2
    · rintro ⟨h1, h2⟩
      refine ⟨h1, ?_⟩
      rw [List.getD_eq_getElem?_getD, h2]
      rfl
  have hs : ((List.range hit.length).filter (fun i => !hit.getD i true)).Pairwise (· < ·) :=
    List.Pairwise.filter _ List.pairwise_lt_range
  unfold edgeWidths at h
  simp only at h
  generalize (List.range hit.length).filter (fun i => !hit.getD i true) = idx at h hm hs
  have hT : ∀ i < hit.length, i ∉ idx → hit[i]? = some true := by
    intro i hi hn
    rw [hm] at hn
    rw [List.getElem?_eq_getElem hi] at hn ⊢
    cases hv : hit[i]
    · exact absurd ⟨hi, by rw [hv]⟩ hn
    · rfl
  cases h1 : idx.head? with
  | none => rw [h1] at h; cases h
  | some first =>
    cases h2 : idx.getLast? with
    | none => rw [h1, h2] at h; cases h
    | some last =>
      rw [h1, h2] at h
      simp only [Option.bind_eq_bind, Option.bind_some, Option.some.injEq, Prod.mk.injEq] at h
      obtain ⟨rfl, rfl⟩ := h
      have hfm := (hm first).1 (List.mem_of_mem_head? h1)
      have hlm := (hm last).1 (List.mem_of_mem_getLast? h2)
      have hmin : ∀ i ∈ idx, first ≤ i := by
        intro i hi
        obtain ⟨tl, rfl⟩ : ∃ tl, idx = first :: tl := by
          cases idx with
          | nil => cases h1
          | cons a tl => cases h1; exact ⟨tl, rfl⟩
        rcases List.mem_cons.1 hi with rfl | hi
        · exact Nat.le_refl _
        · exact Nat.le_of_lt (List.rel_of_pairwise_cons hs hi)
      have hmax : ∀ i ∈ idx, i ≤ last := by
        intro i hi
        obtain ⟨tl, rfl⟩ : ∃ tl, idx = tl ++ [last] := by
          rcases List.eq_nil_or_concat idx with rfl | ⟨tl, a, rfl⟩
          · cases h2
          · rw [List.concat_eq_append] at h2 ⊢
            rw [List.getLast?_append] at h2
            simp at h2
            exact ⟨tl, by rw [h2]⟩
        rcases List.mem_append.1 hi with hi | hi
        · exact Nat.le_of_lt ((List.pairwise_append.1 hs).2.2 i hi last (by simp))
        · simp at hi; omega
      have := hmin last ((hm last).2 hlm)
      refine ⟨by omega, ?_, hfm.2, ?_, ?_⟩
      · intro i hi
        exact hT i (by omega) (fun hmem => by have := hmin i hmem; omega)
      · intro i h3 h4
        exact hT i h4 (fun hmem => by have := hmax i hmem; omega)
      · rw [show hit.length - (hit.length - last - 1) - 1 = last by omega]
        exact hlm.2

/-- It fails exactly when every line is blank. -/
theorem edgeWidths_none (hit : List Bool) : edgeWidths hit = none ↔ ∀ i < hit.length, hit[i]? = some true := by
  have hm : ∀ i, i ∈ (List.range hit.length).filter (fun i => !hit.getD i true) ↔
      i < hit.length ∧ hit[i]? = some false := by
    intro i
    rw [List.mem_filter, List.mem_range]
    constructor
    · rintro ⟨h1, h2⟩
      refine ⟨h1, ?_⟩
      rw [List.getD_eq_getElem _ _ h1] at h2
      rw [List.getElem?_eq_getElem h1]
      simpa using h2
    · rintro ⟨h1, h2⟩
      refine ⟨h1, ?_⟩
      rw [List.getD_eq_getElem?_getD, h2]
      rfl
  unfold edgeWidths
  simp only
  generalize (List.range hit.length).filter (fun i => !hit.getD i true) = idx at hm
  cases idx with
  | nil =>
    constructor
    · intro _ i hi
      rw [List.getElem?_eq_getElem hi]
      cases hv : hit[i]
      · exact absurd ((hm i).2 ⟨hi, by rw [List.getElem?_eq_getElem hi, hv]⟩) (by simp)
      · rfl
    · intro _; rfl
  | cons a tl =>
    constructor
    · intro h
      rw [List.getLast?_cons] at h
      cases h
    · intro h
      obtain ⟨h1, h2⟩ := (hm a).1 (by simp)
      rw [h a h1] at h2
      cases h2

/-- A row with a pixel that is not blank. -/
def RowHasData {α : Type} (blank : α → Bool) (rows : List (List α)) (y : Nat) : Prop :=
  ∃ (r : List α) (x : Nat) (v : α), rows[y]? = some r ∧ r[x]? = some v ∧ blank v = false

/-- A column with a pixel that is not blank. -/
def ColHasData {α : Type} (blank : α → Bool) (rows : List (List α)) (x : Nat) : Prop :=
  ∃ (y : Nat) (r : List α) (v : α), rows[y]? = some r ∧ r[x]? = some v ∧ blank v = false

theorem hitrows_spec {α : Type} (blank : α → Bool) (rows : List (List α)) (y : Nat) (hy : y < rows.length) :
    (rows.map fun r => r.all blank)[y]? = some false ↔ RowHasData blank rows y := by
  rw [List.getElem?_map, List.getElem?_eq_getElem hy, Option.map_some, Option.some.injEq, List.all_eq_false]
  constructor
  · rintro ⟨v, hv, hb⟩
    obtain ⟨x, hx, rfl⟩ := List.mem_iff_getElem.1 hv
    exact ⟨_, x, _, List.getElem?_eq_getElem hy, List.getElem?_eq_getElem hx, by simpa using hb⟩
  · rintro ⟨r, x, v, h1, h2, h3⟩
    rw [List.getElem?_eq_getElem hy] at h1
    cases h1
    exact ⟨v, List.mem_of_getElem? h2, by simp [h3]⟩

theorem hitcols_spec {α : Type} (blank : α → Bool) (rows : List (List α)) (nx x : Nat) (hx : x < nx) :
    ((List.range nx).map fun (x : Nat) => rows.all fun r => (r[x]?).all blank)[x]? = some false ↔
      ColHasData blank rows x := by
  rw [List.getElem?_map, List.getElem?_range hx, Option.map_some, Option.some.injEq, List.all_eq_false]
  constructor
  · rintro ⟨r, hr, hb⟩
    obtain ⟨y, hy, rfl⟩ := List.mem_iff_getElem.1 hr
    cases hv : (rows[y])[x]? with
    | none => rw [hv] at hb; simp at hb
    | some v =>
      rw [hv] at hb
      exact ⟨y, _, v, List.getElem?_eq_getElem hy, hv, by simpa using hb⟩
  · rintro ⟨y, r, v, h1, h2, h3⟩
    exact ⟨r, List.mem_of_getElem? h1, by rw [h2]; simp [h3]⟩

/-- C69, find_blank_edges: the widths it returns leave a box that starts and ends with lines holding data, and
everything outside is blank. -/
theorem C69_edges {α : Type} (blank : α → Bool) (rows : List (List α)) (nx : Nat) (y0 y1 x0 x1 : Nat)
    (h : findBlankEdges blank rows nx = some ((y0, y1), (x0, x1))) :
    (y0 + y1 < rows.length ∧ RowHasData blank rows y0 ∧ RowHasData blank rows (rows.length - y1 - 1) ∧
      ∀ y < rows.length, RowHasData blank rows y → y0 ≤ y ∧ y < rows.length - y1) ∧
    (x0 + x1 < nx ∧ ColHasData blank rows x0 ∧ ColHasData blank rows (nx - x1 - 1) ∧
      ∀ x < nx, ColHasData blank rows x → x0 ≤ x ∧ x < nx - x1) := by
  unfold findBlankEdges at h
  simp only at h
  cases h1 : edgeWidths (rows.map fun r => r.all blank) with
  | none => rw [h1] at h; cases h
  | some a =>
    cases h2 : edgeWidths ((List.range nx).map fun (x : Nat) => rows.all fun r => (r[x]?).all blank) with
    | none => rw [h1, h2] at h; cases h
    | some b =>
      rw [h1, h2] at h
      simp only [Option.bind_eq_bind, Option.bind_some, Option.some.injEq, Prod.mk.injEq] at h
      obtain ⟨rfl, rfl⟩ := h
      obtain ⟨a1, a2, a3, a4, a5⟩ := edgeWidths_spec _ _ _ h1
      obtain ⟨b1, b2, b3, b4, b5⟩ := edgeWidths_spec _ _ _ h2
      rw [List.length_map] at a1 a4 a5
      rw [List.length_map, List.length_range] at b1 b4 b5
      refine ⟨⟨a1, (hitrows_spec _ _ _ (by omega)).1 a3, (hitrows_spec _ _ _ (by omega)).1 a5, ?_⟩,
        ⟨b1, (hitcols_spec _ _ _ _ (by omega)).1 b3, (hitcols_spec _ _ _ _ (by omega)).1 b5, ?_⟩⟩
      · intro y hy hd
        have hd := (hitrows_spec _ _ _ hy).2 hd
        constructor
        · by_contra hc
          rw [a2 y (by omega)] at hd; cases hd
        · by_contra hc
          rw [a4 y (by omega) hy] at hd; cases hd
      · intro x hx hd
        have hd := (hitcols_spec _ _ nx _ hx).2 hd
        constructor
        · by_contra hc
          rw [b2 x (by omega)] at hd; cases hd
        · by_contra hc
          rw [b4 x (by omega) hx] at hd; cases hd

/-- C69: find_blank_edges succeeds when some pixel is not blank. -/
theorem C69_edges_total {α : Type} (blank : α → Bool) (rows : List (List α)) (nx : Nat) (hw : ∀ r ∈ rows, r.length = nx)
    (r : List α) (v : α) (hr : r ∈ rows) (hv : v ∈ r) (hb : blank v = false) :
    ∃ b, findBlankEdges blank rows nx = some b := by
  obtain ⟨y, hy, rfl⟩ := List.mem_iff_getElem.1 hr
  obtain ⟨x, hx, rfl⟩ := List.mem_iff_getElem.1 hv
  have hx' : x < nx := by rw [← hw _ hr]; exact hx
  unfold findBlankEdges
  simp only
  cases h1 : edgeWidths (rows.map fun r => r.all blank) with
  | none =>
    have := (edgeWidths_none _).1 h1 y (by simpa using hy)
    rw [(hitrows_spec blank rows y hy).2 ⟨_, x, _, List.getElem?_eq_getElem hy, List.getElem?_eq_getElem hx, hb⟩] at this
    cases this
  | some a =>
    cases h2 : edgeWidths ((List.range nx).map fun (x : Nat) => rows.all fun r => (r[x]?).all blank) with
    | none =>
      have := (edgeWidths_none _).1 h2 x (by simpa using hx')
      rw [(hitcols_spec blank rows nx x hx').2 ⟨y, _, _, List.getElem?_eq_getElem hy, List.getElem?_eq_getElem hx, hb⟩]
        at this
      cases this
    | some b => exact ⟨_, rfl⟩

/-- C69 is false for a map that is blank throughout: instead of an empty map there is an IndexError.  With the default
value="auto" this happens for every constant map. -/
theorem C69_blank_refuted {α : Type} [Zero α] (blank : α → Bool) (g : ℤ → ℤ) (m : ℤ) (rows : List (List α)) (nx : Nat)
    (h : ∀ r ∈ rows, ∀ v ∈ r, blank v = true) : autocrop blank g m rows nx = none := by
  have h1 : edgeWidths (rows.map fun r => r.all blank) = none := by
    rw [edgeWidths_none]
    intro i hi
    rw [List.length_map] at hi
    rw [List.getElem?_map, List.getElem?_eq_getElem hi, Option.map_some, Option.some.injEq, List.all_eq_true]
    intro v hv
    exact h _ (List.getElem_mem hi) v hv
  unfold autocrop findBlankEdges
  simp only
  rw [h1]
  rfl

/-- The arithmetic of autocrop for any rule that gives lengths at least as long as asked for, and any margin that is not
negative: the result has the good length, and only blank lines are cut. -/
theorem C69_axis (g : ℤ → ℤ) (hg : ∀ k, k ≤ g k) (m : ℤ) (hm : 0 ≤ m) (n b0 b1 : Nat) (hb : b0 + b1 ≤ n) :
    let a := autocropAxis g m n b0 b1
    0 ≤ a.1 ∧ 0 ≤ a.2.1 ∧ a.2.1 ≤ b0 + a.1 ∧ (n : ℤ) - b1 + a.1 ≤ a.2.2 ∧ a.2.2 ≤ n + a.1 ∧
    a.2.2 - a.2.1 = g ((n : ℤ) - (b0 + b1) + m) := by
  simp only [autocropAxis]
  have := hg ((n : ℤ) - (b0 + b1) + m)
  omega

theorem npGet_between {α : Type} (l : List α) (a b : ℤ) (h0 : 0 ≤ a) (h1 : a ≤ b) (h2 : b ≤ l.length) :
    npGet l ⟨some a, some b, none⟩ = some ((l.drop a.toNat).take (b.toNat - a.toNat)) := by
  apply PySpec.npGet_unit
  · simp only [PySpec.lo, PySpec.adjust]
    split_ifs <;> omega
  · simp only [PySpec.hi, PySpec.adjust]
    split_ifs <;> omega
  · omega

/-- Padding and cutting in terms of lists. -/
theorem padcrop_eq {α : Type} [Zero α] (rows : List (List α)) (nx : Nat) (hw : ∀ r ∈ rows, r.length = nx)
    (ay ax : ℤ × ℤ × ℤ) (hy : 0 ≤ ay.1 ∧ 0 ≤ ay.2.1 ∧ ay.2.1 ≤ ay.2.2 ∧ ay.2.2 ≤ rows.length + ay.1)
    (hx : 0 ≤ ax.1 ∧ 0 ≤ ax.2.1 ∧ ax.2.1 ≤ ax.2.2 ∧ ax.2.2 ≤ nx + ax.1) :
    padcrop rows nx ay ax = some ((((List.replicate ay.1.toNat (List.replicate (nx + ax.1.toNat) 0) ++
      rows.map (fun r => List.replicate ax.1.toNat 0 ++ r)).drop ay.2.1.toNat).take (ay.2.2.toNat - ay.2.1.toNat)).map
        fun (r : List α) => (r.drop ax.2.1.toNat).take (ax.2.2.toNat - ax.2.1.toNat)) := by
  unfold padcrop
  rw [mapM_total rows _ (fun r => List.replicate ax.1.toNat 0 ++ r) (fun r _ => by rw [C04_pad]; simp)]
  simp only [Option.bind_eq_bind, Option.bind_some, C04_pad, List.replicate_zero, List.append_nil]
  rw [npGet_between _ _ _ hy.2.1 hy.2.2.1 (by simp; omega), Option.bind_some]
  apply mapM_total
  intro r hr
  have hr := List.mem_of_mem_drop (List.mem_of_mem_take hr)
  apply npGet_between _ _ _ hx.2.1 hx.2.2.1
  have : r.length = nx + ax.1.toNat := by
    rcases List.mem_append.1 hr with h | h
    · rw [(List.mem_replicate.1 h).2]; simp
    · obtain ⟨r', h', rfl⟩ := List.mem_map.1 h
      simp [hw r' h']
      omega
  omega

/-- C69 (method "plain", no margin) for every map that is not blank throughout: the result is the part of the map
between rows y0 and y1 and columns x0 and x1; these first and last lines hold data, and all lines outside are blank. -/
theorem C69_crop_partial {α : Type} [Zero α] (blank : α → Bool) (rows : List (List α)) (nx : Nat)
    (hw : ∀ r ∈ rows, r.length = nx) (r : List α) (v : α) (hr : r ∈ rows) (hv : v ∈ r) (hb : blank v = false) :
    ∃ y0 y1 x0 x1, y0 < y1 ∧ y1 ≤ rows.length ∧ x0 < x1 ∧ x1 ≤ nx ∧
      autocrop blank id 0 rows nx = some (((rows.drop y0).take (y1 - y0)).map fun r => (r.drop x0).take (x1 - x0)) ∧
      RowHasData blank rows y0 ∧ RowHasData blank rows (y1 - 1) ∧
      ColHasData blank rows x0 ∧ ColHasData blank rows (x1 - 1) ∧
      (∀ y < rows.length, RowHasData blank rows y → y0 ≤ y ∧ y < y1) ∧
      (∀ x < nx, ColHasData blank rows x → x0 ≤ x ∧ x < x1) := by
  obtain ⟨⟨⟨y0, y1⟩, x0, x1⟩, he⟩ := C69_edges_total blank rows nx hw r v hr hv hb
  obtain ⟨⟨a1, a2, a3, a4⟩, b1, b2, b3, b4⟩ := C69_edges blank rows nx y0 y1 x0 x1 he
  refine ⟨y0, rows.length - y1, x0, nx - x1, by omega, by omega, by omega, by omega, ?_, a2, a3, b2, b3, a4, b4⟩
  have e : ∀ n p q : Nat, p + q < n → autocropAxis id 0 n p q = (0, (p : ℤ), ((n - q : Nat) : ℤ)) := by
    intro n p q h
    simp only [autocropAxis, id]
    refine Prod.ext ?_ (Prod.ext ?_ ?_) <;> simp only <;> omega
  unfold autocrop
  rw [he]
  simp only [Option.bind_eq_bind, Option.bind_some]
  rw [e _ _ _ a1, e _ _ _ b1, padcrop_eq rows nx hw _ _ (by simp; omega) (by simp; omega)]
  simp

/-- C69 (any method and margin): for every rule of good lengths that never shortens and every margin ≥ 0, the result
has the good lengths asked for and still holds every pixel that is not blank. -/
theorem C69_keeps {α : Type} [Zero α] (blank : α → Bool) (g : ℤ → ℤ) (hg : ∀ k, k ≤ g k) (m : ℤ) (hm : 0 ≤ m)
    (rows : List (List α)) (nx : Nat) (hw : ∀ r ∈ rows, r.length = nx) (r : List α) (v : α) (hr : r ∈ rows) (hv : v ∈ r)
    (hb : blank v = false) :
    ∃ out, ∃ b0 b1 c0 c1 : Nat, ∃ dy dx : ℤ, findBlankEdges blank rows nx = some ((b0, b1), (c0, c1)) ∧
      autocrop blank g m rows nx = some out ∧
      (out.length : ℤ) = g ((rows.length : ℤ) - (b0 + b1) + m) ∧
      (∀ o ∈ out, (o.length : ℤ) = g ((nx : ℤ) - (c0 + c1) + m)) ∧
      ∀ (y x : Nat) (row : List α) (p : α), rows[y]? = some row → row[x]? = some p → blank p = false →
        0 ≤ y + dy ∧ 0 ≤ x + dx ∧ ∃ orow, out[(y + dy).toNat]? = some orow ∧ orow[(x + dx).toNat]? = some p := by
  obtain ⟨⟨⟨y0, y1⟩, x0, x1⟩, he⟩ := C69_edges_total blank rows nx hw r v hr hv hb
  obtain ⟨⟨a1, a2, a3, a4⟩, b1, b2, b3, b4⟩ := C69_edges blank rows nx y0 y1 x0 x1 he
  obtain ⟨p1, p2, p3, p4, p5, p6⟩ := C69_axis g hg m hm rows.length y0 y1 (by omega)
  obtain ⟨q1, q2, q3, q4, q5, q6⟩ := C69_axis g hg m hm nx x0 x1 (by omega)
  have hcrop : autocrop blank g m rows nx = padcrop rows nx (autocropAxis g m rows.length y0 y1)
      (autocropAxis g m nx x0 x1) := by
    unfold autocrop
    rw [he]
    rfl
  generalize autocropAxis g m rows.length y0 y1 = ay at *
  generalize autocropAxis g m nx x0 x1 = ax at *
  rw [padcrop_eq rows nx hw ay ax (by omega) (by omega)] at hcrop
  refine ⟨_, y0, y1, x0, x1, ay.1 - ay.2.1, ax.1 - ax.2.1, he, hcrop, ?_, ?_, ?_⟩
  · rw [← p6]
    simp only [List.length_map, List.length_take, List.length_drop, List.length_append, List.length_replicate]
    omega
  · intro o ho
    obtain ⟨o', ho', rfl⟩ := List.mem_map.1 ho
    have ho' := List.mem_of_mem_drop (List.mem_of_mem_take ho')
    have : o'.length = nx + ax.1.toNat := by
      rcases List.mem_append.1 ho' with h | h
      · rw [(List.mem_replicate.1 h).2]; simp
      · obtain ⟨r', h', rfl⟩ := List.mem_map.1 h
        simp [hw r' h']
        omega
    rw [← q6]
    simp only [List.length_take, List.length_drop, this]
    omega
  · intro y x row p h1 h2 h3
    have hy : y < rows.length := (List.getElem?_eq_some_iff.1 h1).1
    have hx : x < nx := by
      rw [← hw row (List.mem_of_getElem? h1)]
      exact (List.getElem?_eq_some_iff.1 h2).1
    have hy' := a4 y hy ⟨row, x, p, h1, h2, h3⟩
    have hx' := b4 x hx ⟨y, row, p, h1, h2, h3⟩
    refine ⟨by omega, by omega, ((List.replicate ax.1.toNat 0 ++ row).drop ax.2.1.toNat).take
      (ax.2.2.toNat - ax.2.1.toNat), ?_, ?_⟩
    · rw [List.getElem?_map, List.getElem?_take_of_lt (by omega), List.getElem?_drop,
        List.getElem?_append_right (by simp; omega), List.getElem?_map]
      simp only [List.length_replicate]
      rw [show ay.2.1.toNat + ((y:ℤ) + (ay.1 - ay.2.1)).toNat - ay.1.toNat = y by omega, h1]
      rfl
    · rw [List.getElem?_take_of_lt (by omega), List.getElem?_drop, List.getElem?_append_right (by simp; omega)]
      simp only [List.length_replicate]
      rw [show ax.2.1.toNat + ((x:ℤ) + (ax.1 - ax.2.1)).toNat - ax.1.toNat = x by omega, h2]

/-- The rule of method "fft" never shortens. -/
theorem fft_good (k : ℤ) : k ≤ (fun k : ℤ => (((fftLen k.toNat false).getD k.toNat : Nat) : ℤ)) k := by
  simp only
  rcases le_or_gt k 0 with h | h
  · omega
  · obtain ⟨m, h1, h2, -⟩ := C32_above k.toNat [2, 3, 5, 7, 11, 13] (by omega) (by simp) (by decide)
    unfold fftLen
    rw [h1]
    simp only [Option.getD_some]
    omega

theorem mapM_mem {α β : Type} (f : α → Option β) (l : List α) (bs : List β) (h : l.mapM f = some bs) :
    (∀ x ∈ l, ∃ b ∈ bs, f x = some b) ∧ (∀ b ∈ bs, ∃ x ∈ l, f x = some b) := by
  induction l generalizing bs with
  | nil => rw [List.mapM_nil] at h; cases h; simp
  | cons a l ih =>
    rw [List.mapM_cons] at h
    cases h1 : f a with
    | none => rw [h1] at h; cases h
    | some c =>
      cases h2 : l.mapM f with
      | none => rw [h1, h2] at h; cases h
      | some cs =>
        rw [h1, h2] at h
        cases h
        obtain ⟨i1, i2⟩ := ih cs h2
        constructor
        · intro x hx
          rcases List.mem_cons.1 hx with rfl | hx
          · exact ⟨c, by simp, h1⟩
          · obtain ⟨b, hb, e⟩ := i1 x hx
            exact ⟨b, by simp [hb], e⟩
        · intro b hb
          rcases List.mem_cons.1 hb with rfl | hb
          · exact ⟨a, by simp, h1⟩
          · obtain ⟨x, hx, e⟩ := i2 b hb
            exact ⟨x, by simp [hx], e⟩

/-- C69, value "auto": the result is the one for one of the candidate values, and no other candidate gives a larger
product of blank heights and widths. -/
theorem C69_auto {α : Type} (cands : List (α → Bool)) (rows : List (List α)) (nx : Nat) (b : (Nat × Nat) × (Nat × Nat))
    (h : findBlankAuto cands rows nx = some b) :
    (∃ c ∈ cands, findBlankEdges c rows nx = some b) ∧
    ∀ c ∈ cands, ∃ b', findBlankEdges c rows nx = some b' ∧
      (b'.1.1 + b'.1.2) * (b'.2.1 + b'.2.2) ≤ (b.1.1 + b.1.2) * (b.2.1 + b.2.2) := by
  unfold findBlankAuto at h
  cases h1 : cands.mapM fun b => findBlankEdges b rows nx with
  | none => rw [h1] at h; cases h
  | some bs =>
    rw [h1] at h
    simp only [Option.bind_eq_bind, Option.bind_some] at h
    obtain ⟨hf1, hf2⟩ := mapM_mem _ _ _ h1
    set nb := bs.map fun b => (b.1.1 + b.1.2) * (b.2.1 + b.2.2) with hnb
    have hmem := List.mem_of_getElem? h
    have hmax : ∀ (l : List Nat) (a : Nat), (∀ x ∈ l, x ≤ l.foldl max a) ∧ a ≤ l.foldl max a := by
      intro l
      induction l with
      | nil => intro a; simp
      | cons x l ih =>
        intro a
        rw [List.foldl_cons]
        have := ih (max a x)
        refine ⟨?_, by have := this.2; omega⟩
        intro z hz
        rcases List.mem_cons.1 hz with rfl | hz
        · have := this.2; omega
        · exact this.1 z hz
    have hbest : (b.1.1 + b.1.2) * (b.2.1 + b.2.2) = nb.foldl max 0 := by
      have hi : nb.findIdx (· = nb.foldl max 0) < nb.length := by
        have := (List.getElem?_eq_some_iff.1 h).1
        simpa [hnb] using this
      have e : nb[nb.findIdx (· = nb.foldl max 0)] = nb.foldl max 0 := by
        have := List.findIdx_getElem (w := hi)
        simpa using this
      obtain ⟨hi', e'⟩ := List.getElem?_eq_some_iff.1 h
      rw [← e, ← e']
      simp [hnb]
    refine ⟨hf2 b hmem, fun c hc => ?_⟩
    obtain ⟨b', hb', e⟩ := hf1 c hc
    refine ⟨b', e, ?_⟩
    rw [hbest]
    exact (hmax nb 0).1 _ (List.mem_map.2 ⟨b', hb', rfl⟩)

example : autocrop (fun (x : ℤ) => decide (x = 7)) id 0 [[7, 7, 7], [7, 1, 7], [7, 7, 7], [7, 0, 7]] 3 =
    some [[1], [7], [0]] := by decide +kernel
example : autocrop (fun (x : ℤ) => decide (x = 7)) id 3 [[7, 7, 7], [7, 1, 7], [7, 7, 7], [7, 0, 7]] 3 =
    some [[0, 0, 0, 0], [0, 0, 0, 0], [0, 7, 7, 7], [0, 7, 1, 7], [0, 7, 7, 7], [0, 7, 0, 7]] := by decide +kernel
example : findBlankEdgesAuto 1 [[[some 0], [some 0]], [[some 0], [some 3]]] 2 = some ((1, 0), (1, 0)) := by decide +kernel

/-- C69: a pixel counts as blank exactly when every component of it is: both NaN, or equal to one part in a million of the
blank value. -/
theorem C69_pixel (v a : List (Option ℚ)) (hl : v.length = a.length) :
    isBlankPixel v a = true ↔ ∀ c < a.length, (v[c]? = some none ∧ a[c]? = some none) ∨
      ∃ p q : ℚ, v[c]? = some (some p) ∧ a[c]? = some (some q) ∧ |q - p| ≤ |p| / 1000000 := by
  have one : ∀ x y : Option ℚ, isBlank x y = true ↔ (x = none ∧ y = none) ∨
      ∃ p q : ℚ, x = some p ∧ y = some q ∧ |q - p| ≤ |p| / 1000000 := by
    intro x y
    cases x <;> cases y <;> simp [isBlank]
    rename_i p q
    rw [show (|p| : ℚ) / 1000000 = (10 ^ 6)⁻¹ * |p| by ring]
  unfold isBlankPixel
  rw [List.all_eq_true]
  constructor
  · intro h c hc
    have hm : isBlank (v[c]'(by omega)) a[c] ∈ List.zipWith isBlank v a := by
      rw [List.mem_iff_getElem]
      exact ⟨c, by simp; omega, by simp⟩
    have := (one _ _).1 (h _ hm)
    rw [List.getElem?_eq_getElem (by omega : c < v.length), List.getElem?_eq_getElem hc]
    simpa only [Option.some.injEq] using this
  · intro h b hb
    obtain ⟨c, hc, rfl⟩ := List.mem_iff_getElem.1 hb
    rw [List.length_zipWith] at hc
    have := h c (by omega)
    rw [List.getElem?_eq_getElem (by omega : c < v.length), List.getElem?_eq_getElem (by omega : c < a.length)] at this
    simp only [List.getElem_zipWith, id]
    exact (one _ _).2 (by simpa only [Option.some.injEq] using this)

/-- C69: the candidate blank value of an edge is NaN if the edge has a NaN (or is empty), and otherwise has at most half of the
edge's values below it and at most half above, so that a value on more than half of the edge is the candidate. -/
theorem C69_median (l : List (Option ℚ)) :
    (none ∈ l → npMedian l = none) ∧
    (∀ xs : List ℚ, l = xs.map some → xs ≠ [] → ∃ m, npMedian l = some m ∧
      2 * xs.countP (fun x => decide (x < m)) ≤ xs.length ∧ 2 * xs.countP (fun x => decide (m < x)) ≤ xs.length ∧
      ∀ v, xs.length < 2 * xs.count v → m = v) := by
  constructor
  · intro h
    have : l.mapM id = none := by
      induction l with
      | nil => simp at h
      | cons a l ih =>
        rw [List.mapM_cons]
        cases a with
        | none => rfl
        | some a =>
          rw [ih (by simpa using h)]; rfl
    unfold npMedian
    rw [this]; rfl
  · rintro xs rfl hne
    have e : (xs.map some).mapM id = some xs := by
      clear hne
      induction xs with
      | nil => rfl
      | cons a l ih => rw [List.map_cons, List.mapM_cons, ih]; rfl
    set s := sortBy (fun a b : ℚ => decide (a ≤ b)) xs with hs
    have hp : s.Perm xs := sortBy_perm _ _
    have hsort : s.Pairwise fun x y => x ≤ y := by
      have := sortBy_sorted (fun a b : ℚ => decide (a ≤ b)) (by intro a b c; simp only [decide_eq_true_eq]; exact le_trans)
        (by intro a b; simp only [decide_eq_true_eq]; exact le_total a b) xs
      simpa using this
    have hn : 0 < s.length := by rw [hp.length_eq]; exact List.length_pos_iff.2 hne
    have i1 : (s.length - 1) / 2 < s.length := by omega
    have i2 : s.length / 2 < s.length := by omega
    have mono : ∀ i j (hi : i < s.length) (hj : j < s.length), i ≤ j → s[i] ≤ s[j] := by
      intro i j hi hj hij
      rcases Nat.lt_or_eq_of_le hij with h | h
      · exact List.pairwise_iff_getElem.1 hsort i j hi hj h
      · subst h; exact le_refl _
    have hlh : s[(s.length - 1) / 2] ≤ s[s.length / 2] := mono _ _ i1 i2 (by omega)
    have split : ∀ (f : ℚ → Bool) (k : Nat), s.countP f = (s.take k).countP f + (s.drop k).countP f := by
      intro f k
      rw [← List.countP_append, List.take_append_drop]
    have below : 2 * xs.countP (fun x => decide (x < (s[(s.length - 1) / 2] + s[s.length / 2]) / 2)) ≤ xs.length := by
      rw [← hp.countP_eq, ← hp.length_eq]
      rw [split _ (s.length / 2)]
      have h1 : ∀ f : ℚ → Bool, (s.take (s.length / 2)).countP f ≤ s.length / 2 := fun f =>
        (List.countP_le_length).trans (by rw [List.length_take]; omega)
      have h2 : (s.drop (s.length / 2)).countP (fun x => decide (x < (s[(s.length - 1) / 2] + s[s.length / 2]) / 2)) = 0 := by
        rw [List.countP_eq_zero]
        intro x hx
        obtain ⟨j, hj, rfl⟩ := List.mem_iff_getElem.1 hx
        rw [List.length_drop] at hj
        have := mono (s.length / 2) (s.length / 2 + j) i2 (by omega) (by omega)
        simp only [List.getElem_drop, decide_eq_true_eq, not_lt]
        linarith
      have h1' := h1 (fun x => decide (x < (s[(s.length - 1) / 2] + s[s.length / 2]) / 2))
      omega
    have above : 2 * xs.countP (fun x => decide ((s[(s.length - 1) / 2] + s[s.length / 2]) / 2 < x)) ≤ xs.length := by
      rw [← hp.countP_eq, ← hp.length_eq]
      rw [split _ ((s.length - 1) / 2 + 1)]
      have h1 : ∀ f : ℚ → Bool, (s.drop ((s.length - 1) / 2 + 1)).countP f ≤ s.length - ((s.length - 1) / 2 + 1) := fun f =>
        (List.countP_le_length).trans (by rw [List.length_drop])
      have h2 : (s.take ((s.length - 1) / 2 + 1)).countP
          (fun x => decide ((s[(s.length - 1) / 2] + s[s.length / 2]) / 2 < x)) = 0 := by
        rw [List.countP_eq_zero]
        intro x hx
        obtain ⟨j, hj, rfl⟩ := List.mem_iff_getElem.1 hx
        rw [List.length_take] at hj
        have := mono j ((s.length - 1) / 2) (by omega) i1 (by omega)
        simp only [List.getElem_take, decide_eq_true_eq, not_lt]
        linarith
      have h1' := h1 (fun x => decide ((s[(s.length - 1) / 2] + s[s.length / 2]) / 2 < x))
      omega
    refine ⟨(s[(s.length - 1) / 2] + s[s.length / 2]) / 2, ?_, below, above, ?_⟩
    · unfold npMedian
      rw [e]
      simp only [Option.bind_eq_bind, Option.bind_some]
      rw [← hs, List.getElem?_eq_getElem i1, List.getElem?_eq_getElem i2]
      rfl
    · intro v hv
      by_contra hne
      have mon : ∀ f : ℚ → Bool, f v = true → xs.count v ≤ xs.countP f := by
        intro f hf
        rw [List.count]
        apply List.countP_mono_left
        intro x _ hx
        have : x = v := by simpa using hx
        rw [this]; exact hf
      rcases lt_or_gt_of_ne hne with h | h
      · have := mon (fun x => decide ((s[(s.length - 1) / 2] + s[s.length / 2]) / 2 < x)) (by simpa using h)
        omega
      · have := mon (fun x => decide (x < (s[(s.length - 1) / 2] + s[s.length / 2]) / 2)) (by simpa using h)
        omega

/-- The four edges of a map: first and last column, first and last row. -/
def IsEdge (rows : List (List (List (Option ℚ)))) (line : List (List (Option ℚ))) : Prop :=
  (line = rows.map fun r => r.headD []) ∨ (line = rows.map fun r => r.getLastD []) ∨
  rows.head? = some line ∨ rows.getLast? = some line

/-- C69, value "auto" from the map: the result is that of taking as blank value the component medians of one of the four edges,
and no other edge gives a larger product of blank heights and widths. -/
theorem C69_auto_edges (nc : Nat) (rows : List (List (List (Option ℚ)))) (nx : Nat) (b : (Nat × Nat) × (Nat × Nat))
    (hne : rows ≠ []) (h : findBlankEdgesAuto nc rows nx = some b) :
    (∃ line v, IsEdge rows line ∧ (∀ c < nc, v[c]? = some (npMedian (line.map fun p => p.getD c none))) ∧ v.length = nc ∧
      findBlankEdges (isBlankPixel v) rows nx = some b) ∧
    ∀ line v, IsEdge rows line → (∀ c < nc, v[c]? = some (npMedian (line.map fun p => p.getD c none))) → v.length = nc →
      ∃ b', findBlankEdges (isBlankPixel v) rows nx = some b' ∧
        (b'.1.1 + b'.1.2) * (b'.2.1 + b'.2.2) ≤ (b.1.1 + b.1.2) * (b.2.1 + b.2.2) := by
  obtain ⟨h1, h2⟩ := C69_auto _ rows nx b h
  have key : ∀ v, v ∈ edgeMedians nc rows ↔ ∃ line, IsEdge rows line ∧
      v = (List.range nc).map fun c => npMedian (line.map fun p => p.getD c none) := by
    intro v
    obtain ⟨r, rs, rfl⟩ := List.exists_cons_of_ne_nil hne
    have hl : (r :: rs).getLastD [] = (r :: rs).getLast (by simp) := List.getLastD_eq_getLast?.trans (by
      rw [List.getLast?_eq_some_getLast (by simp)]; rfl)
    unfold edgeMedians IsEdge
    simp only [List.mem_cons, List.not_mem_nil, or_false]
    rw [hl, List.getLast?_eq_some_getLast (by simp : r :: rs ≠ [])]
    constructor
    · rintro (h | h | h | h)
      · exact ⟨_, .inl rfl, h⟩
      · exact ⟨_, .inr (.inl rfl), h⟩
      · exact ⟨_, .inr (.inr (.inl rfl)), h⟩
      · exact ⟨_, .inr (.inr (.inr rfl)), h⟩
    · rintro ⟨line, h | h | h | h, rfl⟩
      · subst h; exact .inl rfl
      · subst h; exact .inr (.inl rfl)
      · cases h; exact .inr (.inr (.inl rfl))
      · cases h; exact .inr (.inr (.inr rfl))
  have same : ∀ (line : List (List (Option ℚ))) (v : List (Option ℚ)),
      (∀ c < nc, v[c]? = some (npMedian (line.map fun p => p.getD c none))) → v.length = nc →
      v = (List.range nc).map fun c => npMedian (line.map fun p => p.getD c none) := by
    intro line v hv hl
    apply List.ext_getElem?
    intro c
    by_cases hc : c < nc
    · rw [hv c hc, List.getElem?_map, List.getElem?_range hc]; rfl
    · rw [List.getElem?_eq_none (by omega), List.getElem?_eq_none (by simp; omega)]
  constructor
  · obtain ⟨c, hc, e⟩ := h1
    obtain ⟨v, hv, rfl⟩ := List.mem_map.1 hc
    obtain ⟨line, hline, rfl⟩ := (key v).1 hv
    refine ⟨line, _, hline, ?_, by simp, e⟩
    intro c hc
    rw [List.getElem?_map, List.getElem?_range hc]; rfl
  · intro line v hline hv hl
    exact h2 _ (List.mem_map.2 ⟨v, (key v).2 ⟨line, hline, same line v hv hl⟩, rfl⟩)

/-- C69, refuted for value "auto" on a map that is blank along one side only: because the product of the blank heights and widths
decides, the blank last row, whose own median would crop it, is not found. -/
theorem C69_auto_strip_refuted :
    let rows : List (List (List (Option ℚ))) :=
      [[[some 1], [some 2], [some 3]], [[some 4], [some 3], [some 6]], [[some 5], [some 8], [some 7]], [[some 0], [some 0], [some 0]]]
    edgeMedians 1 rows = [[some (5/2)], [some (9/2)], [some 2], [some 0]] ∧
    findBlankEdges (isBlankPixel [some 0]) rows 3 = some ((0, 1), (0, 0)) ∧
    findBlankEdgesAuto 1 rows 3 = some ((0, 0), (0, 0)) := by decide +kernel

example : npMedian [some 3, some 0, some 0] = some 0 ∧ npMedian [some 3, some 0] = some (3/2) ∧ npMedian [some 3, none] = none := by
  decide +kernel

/-- With value="auto" a constant map fails. -/
theorem C69_auto_refuted : findBlankEdgesAuto 1 [[[some 0], [some 0]], [[some 0], [some 0]]] 2 = none := by decide +kernel

end Pixell
