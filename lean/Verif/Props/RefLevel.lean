import Verif.Model.RefLevel
import Verif.Lemmas.Index
import Verif.Props.Crop
import Mathlib.Tactic.Linarith
import Mathlib.Tactic.FieldSimp
import Mathlib.Tactic.Ring

/-
C199: unions, tables interpolated row by row, masked medians and reference levels.
-/
namespace Pixell

/-! ### union -/

/-- C199: the union of two or more arrays has every value of any of them once, in rising order. -/
theorem C199_union_partial (a b : List ℤ) (rest : List (List ℤ)) :
    ∃ vals, unionAll (a :: b :: rest) = some vals ∧ vals.Pairwise (· < ·) ∧
      ∀ v, v ∈ vals ↔ ∃ arr ∈ a :: b :: rest, v ∈ arr := by
  have hmem : ∀ (l : List (List ℤ)) (s : List ℤ) (v : ℤ), v ∈ l.foldl union1d s ↔ v ∈ s ∨ ∃ arr ∈ l, v ∈ arr := by
    intro l
    induction l with
    | nil => simp
    | cons x l ih =>
      intro s v
      rw [List.foldl_cons, ih, union1d, mem_npUnique]
      simp only [List.mem_append, List.mem_cons, exists_eq_or_imp]
      tauto
  have hs : ∀ (l : List (List ℤ)) (s : List ℤ), s.Pairwise (· < ·) → (l.foldl union1d s).Pairwise (· < ·) := by
    intro l
    induction l with
    | nil => intro s h; exact h
    | cons x l ih => intro s _; exact ih _ (npUnique_sorted _)
  refine ⟨_, rfl, hs rest _ (npUnique_sorted _), fun v => ?_⟩
  have := hmem (b :: rest) a v
  simpa only [List.foldl_cons, List.mem_cons, exists_eq_or_imp] using this

example : unionAll [[3, 1, 3], [2, 1], [5]] = some [1, 2, 3, 5] := by decide +kernel

/-- C199 refuted for one array: if it is not in rising order, or has a value twice, neither is mended; no arrays raise. -/
theorem C199_union_refuted (a : List ℤ) (h : ¬ a.Pairwise (· < ·)) :
    (¬ ∃ vals, unionAll [a] = some vals ∧ vals.Pairwise (· < ·)) ∧
    ∃ vals, unionAll [a, []] = some vals ∧ vals ≠ a ∧ unionAll [a] = some a ∧ unionAll [] = none := by
  constructor
  · rintro ⟨vals, e, hp⟩
    have : a = vals := by simpa [unionAll] using e
    exact h (this ▸ hp)
  · obtain ⟨vals, e, hp, _⟩ := C199_union_partial a [] []
    exact ⟨vals, e, fun c => h (c ▸ hp), rfl, rfl⟩

example : ¬ ([2, 1, 2] : List ℤ).Pairwise (· < ·) := by decide

/-! ### interp -/

/-- `v` is the value at `x` of the broken line through the points `(xp[k], row[k])`, with `left` and `right` of it
the given values or those of the ends. -/
def OnLine (xp row : List ℚ) (left right : Option ℚ) (x v : ℚ) : Prop :=
  (∀ (k : ℕ) (x0 y0 : ℚ), xp[k]? = some x0 → row[k]? = some y0 → x = x0 → v = y0) ∧
  (∀ (k : ℕ) (x0 x1 y0 y1 : ℚ), xp[k]? = some x0 → xp[k + 1]? = some x1 → row[k]? = some y0 → row[k + 1]? = some y1 → x0 ≤ x → x ≤ x1 →
    (v - y0) * (x1 - x0) = (y1 - y0) * (x - x0)) ∧
  (∀ x0 y0 : ℚ, xp[0]? = some x0 → row[0]? = some y0 → x < x0 → v = left.getD y0) ∧
  (∀ x0 y0 : ℚ, xp[xp.length - 1]? = some x0 → row[xp.length - 1]? = some y0 → x0 < x → v = right.getD y0)

theorem interpFrom_spec (right left : Option ℚ) (x : ℚ) : ∀ (xp row : List ℚ), xp.Pairwise (· < ·) → row.length = xp.length →
    (∀ x0, xp[0]? = some x0 → x0 ≤ x) → OnLine xp row left right x (interpFrom (xp.zip row) right x)
  | [], row, _, _, _ => by
    refine ⟨?_, ?_, ?_, ?_⟩ <;> simp
  | [a], [], _, h, _ => by simp at h
  | [a], [y], _, _, hx => by
    have hx := hx a rfl
    refine ⟨?_, ?_, ?_, ?_⟩
    · intro k x0 y0 h1 h2 e
      cases k with
      | succ k => simp at h1
      | zero =>
        simp at h1 h2
        subst h1; subst h2; subst e
        simp [interpFrom]
    · intro k x0 x1 y0 y1 _ h1
      simp at h1
    · intro x0 y0 h1 _ hlt
      simp at h1; subst h1
      linarith
    · intro x0 y0 h1 h2 hlt
      simp at h1 h2; subst h1; subst h2
      simp [interpFrom, hlt]
  | [a], y :: z :: r, _, h, _ => by simp at h
  | a :: b :: xs, [], _, h, _ => by simp at h
  | a :: b :: xs, [y], _, h, _ => by simp at h
  | a :: b :: xs, y :: z :: ys, hp, hl, hx => by
    have hx := hx a rfl
    have hp' := hp
    rw [List.pairwise_cons] at hp
    have hab : a < b := hp.1 b (by simp)
    have hpb := List.pairwise_cons.1 hp.2
    have hbig : ∀ (k : Nat) c, (b :: xs)[k]? = some c → b ≤ c := by
      intro k c hc
      have := List.mem_of_getElem? hc
      rcases List.mem_cons.1 this with e | e
      · exact e.ge
      · exact (hpb.1 c e).le
    have hne : b - a ≠ 0 := by linarith
    by_cases hlt : x < b
    · have ev : interpFrom ((a :: b :: xs).zip (y :: z :: ys)) right x = y + (z - y) / (b - a) * (x - a) := by
        simp [interpFrom, hlt]
      rw [ev]
      refine ⟨?_, ?_, ?_, ?_⟩
      · intro k x0 y0 h1 h2 e
        cases k with
        | zero => simp at h1 h2; subst h1; subst h2; subst e; simp
        | succ k =>
          rw [List.getElem?_cons_succ] at h1
          have := hbig k x0 h1
          linarith
      · intro k x0 x1 y0 y1 h1 h2 h3 h4 g1 g2
        cases k with
        | zero =>
          simp at h1 h2 h3 h4; subst h1; subst h2; subst h3; subst h4
          field_simp
          ring
        | succ k =>
          rw [List.getElem?_cons_succ] at h1
          have := hbig k x0 h1
          linarith
      · intro x0 y0 h1 _ g
        simp at h1; subst h1; linarith
      · intro x0 y0 h1 _ g
        have e : (a :: b :: xs).length - 1 = xs.length + 1 := by simp
        rw [e, List.getElem?_cons_succ] at h1
        have := hbig _ x0 h1
        linarith
    · have hb : b ≤ x := not_lt.1 hlt
      have ih := interpFrom_spec right left x (b :: xs) (z :: ys) hp.2 (by simpa using hl) (by
        intro x0 h; simp at h; subst h; exact hb)
      have ev : interpFrom ((a :: b :: xs).zip (y :: z :: ys)) right x = interpFrom ((b :: xs).zip (z :: ys)) right x := by
        simp [interpFrom, hlt]
      rw [ev]
      obtain ⟨i1, i2, i3, i4⟩ := ih
      refine ⟨?_, ?_, ?_, ?_⟩
      · intro k x0 y0 h1 h2 e
        cases k with
        | zero => simp at h1; subst h1; linarith
        | succ k => exact i1 k x0 y0 (by simpa using h1) (by simpa using h2) e
      · intro k x0 x1 y0 y1 h1 h2 h3 h4 g1 g2
        cases k with
        | zero =>
          simp at h1 h2 h3 h4; subst h1; subst h2; subst h3; subst h4
          have hxb : x = b := le_antisymm g2 hb
          have := i1 0 b z rfl rfl hxb
          rw [this, hxb]
        | succ k => exact i2 k x0 x1 y0 y1 (by simpa using h1) (by simpa using h2) (by simpa using h3) (by simpa using h4) g1 g2
      · intro x0 y0 h1 _ g
        simp at h1; subst h1; linarith
      · intro x0 y0 h1 h2 g
        have e : (a :: b :: xs).length - 1 = xs.length + 1 := by simp
        have e' : (b :: xs).length - 1 = xs.length := by simp
        rw [e] at h1 h2
        rw [e'] at i4
        exact i4 x0 y0 (by simpa using h1) (by simpa using h2) g

theorem interpOne_spec (xp row : List ℚ) (left right : Option ℚ) (x : ℚ) (hp : xp.Pairwise (· < ·)) (hne : xp ≠ [])
    (hl : row.length = xp.length) : OnLine xp row left right x (interpOne (xp.zip row) left right x) := by
  obtain ⟨a, xs, rfl⟩ := List.exists_cons_of_ne_nil hne
  obtain ⟨y, ys, rfl⟩ : ∃ y ys, row = y :: ys := by
    cases row with
    | nil => simp at hl
    | cons y ys => exact ⟨y, ys, rfl⟩
  have hbig : ∀ (k : Nat) c, (a :: xs)[k]? = some c → a ≤ c := by
    intro k c hc
    rcases List.mem_cons.1 (List.mem_of_getElem? hc) with e | e
    · exact e.ge
    · exact ((List.pairwise_cons.1 hp).1 c e).le
  by_cases h : x < a
  · have ev : interpOne ((a :: xs).zip (y :: ys)) left right x = left.getD y := if_pos h
    rw [ev]
    refine ⟨?_, ?_, ?_, ?_⟩
    · intro k x0 y0 h1 _ e
      have := hbig k x0 h1; linarith
    · intro k x0 x1 y0 y1 h1 _ _ _ g _
      have := hbig k x0 h1; linarith
    · intro x0 y0 h1 h2 _
      simp at h2; subst h2; rfl
    · intro x0 y0 h1 _ g
      have := hbig _ x0 h1; linarith
  · have ev : interpOne ((a :: xs).zip (y :: ys)) left right x = interpFrom ((a :: xs).zip (y :: ys)) right x := if_neg h
    rw [ev]
    have := interpFrom_spec right left x (a :: xs) (y :: ys) hp hl (by
      intro x0 e; simp at e; subst e; exact not_lt.1 h)
    exact this

theorem interpRows_ok (whole : Bool) (xs xp : List ℚ) (fp : List (List ℚ)) (left right : Option ℚ) (hne : xp ≠ [])
    (hl : ∀ row ∈ fp, row.length = xp.length) :
    interpRows whole xs xp fp left right = some (fp.map fun row => xs.map fun x =>
      if whole then dropFraction (interpOne (xp.zip row) left right x) else interpOne (xp.zip row) left right x) := by
  unfold interpRows
  rw [if_neg hne, if_neg]
  simpa using hl

/-- C199: for tables of floats every row of the result is the broken line through that row of the table, at every
position, in the order given. -/
theorem C199_interp_partial (xs xp : List ℚ) (fp : List (List ℚ)) (left right : Option ℚ) (hp : xp.Pairwise (· < ·))
    (hne : xp ≠ []) (hl : ∀ row ∈ fp, row.length = xp.length) :
    ∃ f, interpRows false xs xp fp left right = some f ∧
      List.Forall₂ (fun row out => List.Forall₂ (fun x v => OnLine xp row left right x v) xs out) fp f := by
  refine ⟨_, interpRows_ok false xs xp fp left right hne hl, ?_⟩
  rw [List.forall₂_map_right_iff, List.forall₂_same]
  intro row hrow
  rw [List.forall₂_map_right_iff, List.forall₂_same]
  intro x _
  simpa using interpOne_spec xp row left right x hp hne (hl row hrow)

example : interpRows false [1 / 2, 2, 5, -1] [0, 1, 3] [[0, 1, 2], [4, 0, 0]] none (some 9) =
    some [[1 / 2, 3 / 2, 9, 0], [2, 0, 9, 4]] := by decide +kernel

/-- C199 refuted for tables of whole numbers: between two neighbours that differ by one the result is the lower one
all along, although the line is not. -/
theorem C199_interp_refuted (xs xp row : List ℚ) (left right : Option ℚ) (hp : xp.Pairwise (· < ·))
    (hl : row.length = xp.length) (j k a : ℕ) (x x0 x1 : ℚ) (hj : xs[j]? = some x) (h0 : xp[k]? = some x0)
    (h1 : xp[k + 1]? = some x1) (r0 : row[k]? = some (a : ℚ)) (r1 : row[k + 1]? = some ((a : ℚ) + 1)) (g0 : x0 < x)
    (g1 : x < x1) :
    ∃ out : List ℚ, interpRows true xs xp [row] left right = some [out] ∧ out[j]? = some (a : ℚ) ∧
      ¬ OnLine xp row left right x a := by
  have hne : xp ≠ [] := by rintro rfl; simp at h0
  refine ⟨_, by rw [interpRows_ok true xs xp [row] left right hne (by simpa using hl)]; rfl, ?_, ?_⟩
  · rw [List.getElem?_map, hj, Option.map_some, if_pos rfl]
    have := (interpOne_spec xp row left right x hp hne hl).2.1 k x0 x1 _ _ h0 h1 r0 r1 g0.le g1.le
    set v := interpOne (xp.zip row) left right x
    have d : 0 < x1 - x0 := by linarith
    have e : (v - a) * (x1 - x0) = x - x0 := by rw [this]; ring
    have v0 : (a : ℚ) ≤ v := by
      by_contra c
      have : (v - a) * (x1 - x0) < 0 := mul_neg_of_neg_of_pos (by linarith) d
      linarith
    have v1 : v < a + 1 := by
      by_contra c
      have : 1 * (x1 - x0) ≤ (v - a) * (x1 - x0) := mul_le_mul_of_nonneg_right (by linarith) d.le
      linarith
    have f : ⌊v⌋ = (a : ℤ) := by
      rw [Int.floor_eq_iff]; push_cast; exact ⟨v0, v1⟩
    have : (0 : ℚ) ≤ v := le_trans (Nat.cast_nonneg a) v0
    rw [dropFraction, if_pos this, f]
    simp
  · intro h
    have := h.2.1 k x0 x1 _ _ h0 h1 r0 r1 g0.le g1.le
    have : x - x0 = 0 := by linarith
    linarith

example : interpRows true [1 / 2, 9 / 10, 1] [0, 1, 3] [[0, 1, 2]] none none = some [[0, 0, 1]] := by decide +kernel

/-! ### maskmed -/

/-- C199: without a mask, values without NaN give the median of those that differ from the mask value, however many are
masked, and the mask value if all are. -/
theorem C199_maskmed_partial (xs : List ℚ) (m : ℚ) :
    ((∀ x ∈ xs, x = m) → maskMed (xs.map some) none (some m) = some m) ∧
    ((∃ x ∈ xs, x ≠ m) → ∃ r, maskMed (xs.map some) none (some m) = some r ∧
      2 * xs.countP (fun x => decide (x ≠ m ∧ x < r)) ≤ xs.countP (fun x => decide (x ≠ m)) ∧
      2 * xs.countP (fun x => decide (x ≠ m ∧ r < x)) ≤ xs.countP (fun x => decide (x ≠ m))) := by
  have kept : ((((xs.map some).zip ((xs.map some).map fun x => differs x (some m))).filter fun p => p.2).map fun p => p.1) =
      (xs.filter fun x => decide (x ≠ m)).map some := by
    induction xs with
    | nil => rfl
    | cons a l ih =>
      have hd : differs (some a) (some m) = decide (a ≠ m) := rfl
      simp only [List.map_cons, List.zip_cons_cons, List.filter_cons, hd]
      by_cases h : a = m
      · simpa [h] using ih
      · simpa [h] using ih
  constructor
  · intro h
    unfold maskMed
    simp only [Option.getD_none]
    rw [kept, if_pos]
    simpa using h
  · rintro ⟨x, hx, hxm⟩
    have hne : (xs.filter fun x => decide (x ≠ m)) ≠ [] := by
      intro e
      have : x ∈ xs.filter fun x => decide (x ≠ m) := by simp [hx, hxm]
      rw [e] at this; simp at this
    obtain ⟨r, e, h1, h2, _⟩ := (C69_median _).2 _ rfl hne
    refine ⟨r, ?_, ?_, ?_⟩
    · unfold maskMed
      simp only [Option.getD_none]
      rw [kept, if_neg (by simpa using hne)]
      exact e
    · rw [List.countP_filter, ← List.countP_eq_length_filter] at h1
      convert h1 using 3
      funext x; rw [Bool.decide_and, Bool.and_comm]
    · rw [List.countP_filter, ← List.countP_eq_length_filter] at h2
      convert h2 using 3
      funext x; rw [Bool.decide_and, Bool.and_comm]

example : maskMed [some 0, some 5, some 0, some 1, some 7] none (some 0) = some 5 := by decide +kernel

/-- C199 refuted for NaN as the mask value: nothing is ignored, and one NaN makes the result NaN, whatever else there is. -/
theorem C199_maskmed_refuted (arr : List (Option ℚ)) (h : none ∈ arr) : maskMed arr none none = none := by
  have kept : (((arr.zip (arr.map fun x => differs x none)).filter fun p => p.2).map fun p => p.1) = arr := by
    clear h
    induction arr with
    | nil => rfl
    | cons a l ih =>
      have : differs a none = true := by cases a <;> rfl
      simp only [List.map_cons, List.zip_cons_cons, List.filter_cons, this, if_true, ih]
  unfold maskMed
  simp only [Option.getD_none]
  rw [kept, if_neg (List.ne_nil_of_mem h)]
  exact (C69_median arr).1 h

/-- What should come out: NaN as a mask value given by hand is ignored. -/
example : maskMed [some 3, none, some 1, some 2] (some [true, false, true, true]) none = some 2 ∧
    maskMed [some 3, none, some 1, some 2] none none = none := by decide +kernel

/-! ### get_ref -/

theorem everyNth_one {α : Type} (l : List α) : everyNth 1 l = l := by
  unfold everyNth
  rw [List.filter_eq_self.2 (by intro p _; simp [Nat.mod_one])]
  simp

theorem everyNth_ne_nil {α : Type} (s : Nat) (l : List α) (h : l ≠ []) : everyNth s l ≠ [] := by
  obtain ⟨a, r, rfl⟩ := List.exists_cons_of_ne_nil h
  simp [everyNth, List.zipIdx_cons]

theorem mem_everyNth {α : Type} (s : Nat) (l : List α) (x : α) (h : x ∈ everyNth s l) : x ∈ l := by
  unfold everyNth at h
  rw [List.mem_map] at h
  obtain ⟨p, hp, rfl⟩ := h
  exact List.fst_mem_of_mem_zipIdx (List.mem_of_mem_filter hp)

theorem median_hull (xs : List ℚ) (hne : xs ≠ []) :
    ∃ m, npMedian (xs.map some) = some m ∧ (∃ x ∈ xs, x ≤ m) ∧ ∃ y ∈ xs, m ≤ y := by
  obtain ⟨m, e, h1, h2, _⟩ := (C69_median _).2 xs rfl hne
  have hn : 0 < xs.length := List.length_pos_iff.2 hne
  refine ⟨m, e, ?_, ?_⟩
  · by_contra c
    push Not at c
    have : xs.countP (fun x => decide (m < x)) = xs.length := List.countP_eq_length.2 (by simpa using c)
    omega
  · by_contra c
    push Not at c
    have : xs.countP (fun x => decide (x < m)) = xs.length := List.countP_eq_length.2 (by simpa using c)
    omega

/-- C199: however long the list and however it is thinned out, the reference level is the default or a positive level between
two of the values. -/
theorem C199_ref_range (a : List ℚ) (default : ℚ) (n : Nat) :
    getRef a default n = default ∨ ∃ x ∈ a, ∃ y ∈ a, 0 < x ∧ x ≤ getRef a default n ∧ getRef a default n ≤ y := by
  have pass : ∀ ref m, refPass a n ref = some m → ∃ x ∈ a, ∃ y ∈ a, ref < x ∧ x ≤ m ∧ m ≤ y := by
    intro ref m h
    unfold refPass at h
    simp only at h
    split_ifs at h with hv
    obtain ⟨m', e, ⟨x, hx, hxm⟩, y, hy, hym⟩ := median_hull _ (everyNth_ne_nil
      (max 1 ((a.filter fun x => decide (ref < x)).length / n)) _ hv)
    rw [h, Option.some.injEq] at e
    subst e
    have hx := mem_everyNth _ _ _ hx
    have hy := mem_everyNth _ _ _ hy
    simp only [List.mem_filter, decide_eq_true_eq] at hx hy
    exact ⟨x, hx.1, y, hy.1, hx.2, hxm, hym⟩
  unfold getRef
  cases e1 : refPass a n 0 with
  | none => left; rfl
  | some r1 =>
    simp only
    cases e2 : refPass a n r1 with
    | none => left; rfl
    | some r2 =>
      right
      obtain ⟨x0, _, _, _, p0, q0, _⟩ := pass _ _ e1
      obtain ⟨x, hx, y, hy, p, q, s⟩ := pass _ _ e2
      exact ⟨x, hx, y, hy, by linarith, q, s⟩

/-- C199: if there are fewer than `2 * n` positive values, the reference level is the median of those values that are above the
median of the positive ones, if there are any. -/
theorem C199_ref_partial (a : List ℚ) (default : ℚ) (n : Nat) (hn : 0 < n) (hpos : ∃ x ∈ a, 0 < x)
    (hlen : a.countP (fun x => decide (0 < x)) < 2 * n) :
    ∃ m, 0 < m ∧ 2 * a.countP (fun x => decide (0 < x ∧ x < m)) ≤ a.countP (fun x => decide (0 < x)) ∧
      2 * a.countP (fun x => decide (m < x)) ≤ a.countP (fun x => decide (0 < x)) ∧
      ((∃ x ∈ a, m < x) → m < getRef a default n ∧
        2 * a.countP (fun x => decide (m < x ∧ x < getRef a default n)) ≤ a.countP (fun x => decide (m < x)) ∧
        2 * a.countP (fun x => decide (getRef a default n < x)) ≤ a.countP (fun x => decide (m < x))) := by
  have pass : ∀ ref, 0 ≤ ref → (∃ x ∈ a, ref < x) → ∃ m, refPass a n ref = some m ∧ ref < m ∧
      2 * a.countP (fun x => decide (ref < x ∧ x < m)) ≤ a.countP (fun x => decide (ref < x)) ∧
      2 * a.countP (fun x => decide (m < x)) ≤ a.countP (fun x => decide (ref < x)) := by
    rintro ref h0 ⟨x, hx, hxr⟩
    have hne : (a.filter fun x => decide (ref < x)) ≠ [] := by
      apply List.ne_nil_of_mem (a := x)
      simp [hx, hxr]
    have hle : a.countP (fun x => decide (ref < x)) ≤ a.countP (fun x => decide (0 < x)) :=
      List.countP_mono_left (by intro y _ h; simp at h ⊢; linarith)
    have step : max 1 ((a.filter fun x => decide (ref < x)).length / n) = 1 := by
      rw [← List.countP_eq_length_filter]
      have : a.countP (fun x => decide (ref < x)) / n < 2 := (Nat.div_lt_iff_lt_mul hn).2 (by omega)
      omega
    obtain ⟨m, e, h1, h2, _⟩ := (C69_median _).2 _ rfl hne
    obtain ⟨m', e', ⟨z, hz, hzm⟩, _⟩ := median_hull _ hne
    rw [e, Option.some.injEq] at e'
    subst e'
    simp only [List.mem_filter, decide_eq_true_eq] at hz
    have hrm : ref < m := lt_of_lt_of_le hz.2 hzm
    refine ⟨m, ?_, hrm, ?_, ?_⟩
    · unfold refPass
      simp only
      rw [if_neg hne, step, everyNth_one]
      exact e
    · rw [List.countP_filter, ← List.countP_eq_length_filter] at h1
      convert h1 using 3
      funext x; rw [Bool.decide_and, Bool.and_comm]
    · rw [List.countP_filter, ← List.countP_eq_length_filter] at h2
      convert h2 using 3
      funext x
      by_cases h : m < x
      · have : ref < x := lt_trans hrm h
        simp [h, this]
      · simp [h]
  obtain ⟨m, e, hm, h1, h2⟩ := pass 0 le_rfl hpos
  refine ⟨m, hm, h1, h2, fun hx => ?_⟩
  obtain ⟨r, e', hr, g1, g2⟩ := pass m hm.le hx
  have : getRef a default n = r := by
    unfold getRef
    rw [e]
    simp [e']
  rw [this]
  exact ⟨hr, g1, g2⟩

example : getRef [0, 1, 2, 3, 4, 5, -7] 0 1000 = 9 / 2 := by decide +kernel

/-- C199 refuted: if the positive values are all equal the reference level is not that value but the default, as if there were
none. -/
theorem C199_ref_refuted (a : List ℚ) (default c : ℚ) (n : Nat) (h : ∀ x ∈ a, 0 < x → x = c) :
    getRef a default n = default := by
  rcases C199_ref_range a default n with e | _
  · exact e
  unfold getRef
  cases e1 : refPass a n 0 with
  | none => rfl
  | some r1 =>
    simp only
    have : refPass a n r1 = none := by
      unfold refPass at e1
      simp only at e1
      split_ifs at e1 with hv
      obtain ⟨m', e, ⟨x, hx, hxm⟩, y, hy, hym⟩ := median_hull _ (everyNth_ne_nil
        (max 1 ((a.filter fun x => decide (0 < x)).length / n)) _ hv)
      rw [e1, Option.some.injEq] at e
      subst e
      have hx := mem_everyNth _ _ _ hx
      simp only [List.mem_filter, decide_eq_true_eq] at hx
      have xc := h x hx.1 hx.2
      unfold refPass
      simp only
      rw [if_pos]
      rw [List.filter_eq_nil_iff]
      intro z hz
      simp only [decide_eq_true_eq]
      intro hlt
      have zc := h z hz (by linarith [hx.2])
      linarith
    rw [this]; rfl

example : getRef [0, 3, 3, 3, -1] 0 1000 = 0 ∧ getRef [0, 3, 3, 4, -1] 0 1000 = 4 := by decide +kernel

end Pixell
