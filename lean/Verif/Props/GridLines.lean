import Verif.Model.GridLines
import Verif.Lemmas.Sort
import Verif.Props.Angles
import Mathlib.Tactic.Linarith
import Mathlib.Tactic.FieldSimp
import Mathlib.Tactic.Ring
import Mathlib.Tactic.NormNum
import Mathlib.Tactic.IntervalCases

/-!
C187: the lines of a coordinate grid and their labels.
-/
namespace Pixell

/-! ### Splitting lines -/

/-- Adjacent elements of a list. -/
def Adjacent {α : Type} (x y : α) (l : List α) : Prop := ∃ a b, l = a ++ x :: y :: b

theorem splitJumps_ne (j : GridPt → GridPt → Bool) (l : List GridPt) : splitJumps j l ≠ [] := by
  match l with
  | [] => simp [splitJumps]
  | [x] => simp [splitJumps]
  | x :: y :: t =>
    rw [splitJumps]
    split
    · simp
    · split <;> simp

theorem splitJumps_flatten (j : GridPt → GridPt → Bool) (l : List GridPt) : (splitJumps j l).flatten = l := by
  match l with
  | [] => simp [splitJumps]
  | [x] => simp [splitJumps]
  | x :: y :: t =>
    have ih := splitJumps_flatten j (y :: t)
    rw [splitJumps]
    split
    · simp [ih]
    · split
      · case h_1 s r h => rw [h] at ih; simpa using ih
      · case h_2 h => exact absurd h (splitJumps_ne j _)

/-- The first segment begins with the first point. -/
theorem splitJumps_head (j : GridPt → GridPt → Bool) (y : GridPt) (t : List GridPt) :
    ∃ s r, splitJumps j (y :: t) = (y :: s) :: r := by
  match t with
  | [] => exact ⟨[], [], rfl⟩
  | z :: t =>
    obtain ⟨s, r, h⟩ := splitJumps_head j z t
    rw [splitJumps]
    split
    · exact ⟨_, _, rfl⟩
    · rw [h]; exact ⟨_, _, rfl⟩

theorem splitJumps_pieces (j : GridPt → GridPt → Bool) (l : List GridPt) (hl : l ≠ []) : ∀ s ∈ splitJumps j l, s ≠ [] := by
  match l with
  | [x] => simp [splitJumps]
  | x :: y :: t =>
    have ih := splitJumps_pieces j (y :: t) (by simp)
    rw [splitJumps]
    split
    · intro s hs
      rcases List.mem_cons.mp hs with h | h
      · simp [h]
      · exact ih s h
    · split
      · case h_1 s r h =>
        rw [h] at ih
        intro s' hs
        rcases List.mem_cons.mp hs with h | h
        · simp [h]
        · exact ih s' (by simp [h])
      · case h_2 h => exact absurd h (splitJumps_ne j _)

/-- Inside the segments there is no jump. -/
theorem splitJumps_inside (j : GridPt → GridPt → Bool) (l : List GridPt) :
    ∀ s ∈ splitJumps j l, ∀ x y, Adjacent x y s → j x y = false := by
  match l with
  | [] =>
    intro s hs x y ⟨a, b, h⟩
    simp only [splitJumps, List.mem_singleton] at hs
    subst hs
    cases a <;> simp at h
  | [z] =>
    intro s hs x y ⟨a, b, h⟩
    simp only [splitJumps, List.mem_singleton] at hs
    subst hs
    rcases a with - | ⟨a, - | ⟨a', a⟩⟩ <;> simp at h
  | z :: w :: t =>
    have ih := splitJumps_inside j (w :: t)
    obtain ⟨s0, r0, h0⟩ := splitJumps_head j w t
    rw [splitJumps]
    split
    · intro s hs x y ⟨a, b, h⟩
      rcases List.mem_cons.mp hs with hs | hs
      · subst hs
        rcases a with - | ⟨a, - | ⟨a', a⟩⟩ <;> simp at h
      · exact ih s hs x y ⟨a, b, h⟩
    · case isFalse hj =>
      rw [h0] at ih ⊢
      intro s hs x y ⟨a, b, h⟩
      rcases List.mem_cons.mp hs with hs | hs
      · subst hs
        rcases a with - | ⟨a, as⟩
        · simp only [List.nil_append, List.cons.injEq] at h
          rw [← h.1, ← h.2.1]
          simpa using hj
        · simp only [List.cons_append, List.cons.injEq] at h
          exact ih (w :: s0) (by simp) x y ⟨as, b, h.2⟩
      · exact ih s (by simp [hs]) x y ⟨a, b, h⟩

/-- Between consecutive segments there is a jump. -/
theorem splitJumps_between (j : GridPt → GridPt → Bool) (l : List GridPt) :
    ∀ s t, Adjacent s t (splitJumps j l) → ∃ a x y b, s = a ++ [x] ∧ t = y :: b ∧ j x y = true := by
  match l with
  | [] =>
    intro s t ⟨a, b, h⟩
    rcases a with - | ⟨a, - | ⟨a', a⟩⟩ <;> simp [splitJumps] at h
  | [z] =>
    intro s t ⟨a, b, h⟩
    rcases a with - | ⟨a, - | ⟨a', a⟩⟩ <;> simp [splitJumps] at h
  | z :: w :: t' =>
    have ih := splitJumps_between j (w :: t')
    obtain ⟨s0, r0, h0⟩ := splitJumps_head j w t'
    rw [splitJumps]
    split
    · case isTrue hj =>
      intro s t ⟨a, b, h⟩
      rcases a with - | ⟨a, as⟩
      · rw [h0] at h
        simp only [List.nil_append, List.cons.injEq] at h
        exact ⟨[], z, w, s0, by simp [h.1], by simp [h.2.1], hj⟩
      · simp only [List.cons_append, List.cons.injEq] at h
        exact ih s t ⟨as, b, h.2⟩
    · rw [h0] at ih ⊢
      intro s t ⟨a, b, h⟩
      rcases a with - | ⟨a, as⟩
      · simp only [List.nil_append, List.cons.injEq] at h
        obtain ⟨a, x, y, c, h1, h2, h3⟩ := ih (w :: s0) t ⟨[], b, by simp [h.2]⟩
        exact ⟨z :: a, x, y, c, by rw [← h.1, h1]; simp, h2, h3⟩
      · simp only [List.cons_append, List.cons.injEq] at h
        exact ih s t ⟨(w :: s0) :: as, b, by simp [h.2]⟩

/-- What calc_line_segs should cut a line into: pieces that together are the line, none empty, with no step longer than the limit
inside a piece, and a longer one between pieces. -/
structure IsCut (len : ℚ × ℚ → ℚ × ℚ → ℚ) (lim : ℚ) (line : List (ℚ × ℚ)) (pieces : List (List (ℚ × ℚ))) : Prop where
  whole : pieces.flatten = line
  nonempty : ∀ s ∈ pieces, s ≠ []
  inside : ∀ s ∈ pieces, ∀ x y, Adjacent x y s → len x y ≤ lim
  between : ∀ s t, Adjacent s t pieces → ∃ a x y b, s = a ++ [x] ∧ t = y :: b ∧ lim < len x y

/-- A piece with the points added: one before it unless it is the first, one behind it unless it is the last, both on the
straight line through the two points nearest to the end; a single point is left alone. -/
def Extended (e : ℚ) (first last : Bool) (s : List (ℚ × ℚ)) (r : List GridPt) : Prop :=
  (s.length < 2 ∧ r = s.map some) ∨
  ∃ x y m z w, (Adjacent z w s ∧ s.getLast? = some w) ∧ s = x :: y :: m ∧
    r = (if first then [] else [some (x.1 + (x.1 - y.1) * e, x.2 + (x.2 - y.2) * e)]) ++ s.map some ++
      (if last then [] else [some (w.1 + (w.1 - z.1) * e, w.2 + (w.2 - z.2) * e)])

theorem lift_some (l : List GridPt) (h : ∀ x ∈ l, x ≠ none) : ∃ m : List (ℚ × ℚ), l = m.map some := by
  induction l with
  | nil => exact ⟨[], rfl⟩
  | cons x l ih =>
    obtain ⟨m, hm⟩ := ih fun y hy => h y (by simp [hy])
    obtain ⟨v, hv⟩ := Option.ne_none_iff_exists'.mp (h x (by simp))
    exact ⟨v :: m, by simp [hv, hm]⟩

theorem extrapSeg_end (e : ℚ) (m : List GridPt) (z w : GridPt) :
    extrapSeg e (m ++ [z, w]) = m ++ [z, w, beyond e z w] := by
  unfold extrapSeg
  have h : ¬ (m ++ [z, w]).length < 2 := by simp
  rw [if_neg h]
  have e1 : (m ++ [z, w]).length - 2 = m.length := by simp
  have e2 : (m ++ [z, w]).length - 1 = m.length + 1 := by simp
  rw [e1, e2]
  simp [List.getD_eq_getElem?_getD]

theorem two_ends {α : Type} (x y : α) (m : List α) : ∃ m' z w, x :: y :: m = m' ++ [z, w] := by
  induction m generalizing x y with
  | nil => exact ⟨[], x, y, rfl⟩
  | cons a m ih =>
    obtain ⟨m', z, w, h⟩ := ih y a
    exact ⟨x :: m', z, w, by rw [h]; rfl⟩

theorem extended_seg (e : ℚ) (s : List (ℚ × ℚ)) (first last : Bool) :
    Extended e first last s
      (let s1 := if last then s.map some else extrapSeg e (s.map some)
       if first then s1 else (extrapSeg e s1.reverse).reverse) := by
  rcases s with - | ⟨x, - | ⟨y, m⟩⟩
  · left
    cases first <;> cases last <;> simp [extrapSeg]
  · left
    cases first <;> cases last <;> simp [extrapSeg]
  · right
    obtain ⟨m', z, w, h⟩ := two_ends x y m
    refine ⟨x, y, m, z, w, ⟨⟨m', [], by rw [h]⟩, by rw [h]; simp⟩, rfl, ?_⟩
    have h1 : ∀ r : List GridPt, (extrapSeg e (some x :: some y :: r).reverse).reverse
        = some (x.1 + (x.1 - y.1) * e, x.2 + (x.2 - y.2) * e) :: some x :: some y :: r := by
      intro r
      have : (some x :: some y :: r).reverse = r.reverse ++ [some y, some x] := by simp
      rw [this, extrapSeg_end]
      simp [beyond]
    have h2 : extrapSeg e ((x :: y :: m).map some)
        = (x :: y :: m).map some ++ [some (w.1 + (w.1 - z.1) * e, w.2 + (w.2 - z.2) * e)] := by
      rw [h, List.map_append]
      show extrapSeg e (m'.map some ++ [some z, some w]) = _
      rw [extrapSeg_end]
      simp [beyond]
    cases first <;> cases last
    · simp only [Bool.false_eq_true, if_false, h2]
      exact h1 _
    · simp only [Bool.false_eq_true, if_false, if_true]
      rw [List.append_nil]
      exact h1 _
    · simp only [Bool.false_eq_true, if_false, if_true, h2]
      simp
    · simp

theorem stepLens_some (len : ℚ × ℚ → ℚ × ℚ → ℚ) (line : List (ℚ × ℚ)) :
    ∃ l : List ℚ, stepLens len (line.map some) = l.map some ∧ l.length = line.length - 1 ∧ ∀ x ∈ l, ∃ p q, x = len p q := by
  match line with
  | [] => exact ⟨[], rfl, rfl, by simp⟩
  | [x] => exact ⟨[], rfl, rfl, by simp⟩
  | x :: y :: t =>
    obtain ⟨l, h, h2, h3⟩ := stepLens_some len (y :: t)
    refine ⟨len x y :: l, ?_, by simp at h2 ⊢; omega, by
      intro z hz
      rcases List.mem_cons.mp hz with h | h
      · exact ⟨x, y, h⟩
      · exact h3 z h⟩
    simp only [List.map_cons, stepLens] at h ⊢
    rw [h]
    rfl

/-- The median of numbers is a number, and at most half of the numbers are above it. -/
theorem npMedian_half (l : List ℚ) (hl : l ≠ []) :
    ∃ t, npMedian (l.map some) = some t ∧ 2 * l.countP (fun x => decide (t < x)) ≤ l.length ∧ ∃ x ∈ l, x ≤ t := by
  have hm : (l.map some).mapM id = some l := by
    clear hl
    induction l with
    | nil => rfl
    | cons x l ih => simp [List.mapM_cons, ih]
  obtain ⟨s, hs⟩ : ∃ s, s = sortBy (fun a b : ℚ => decide (a ≤ b)) l := ⟨_, rfl⟩
  have hperm : s.Perm l := hs ▸ sortBy_perm _ l
  have hlen : s.length = l.length := hperm.length_eq
  have hpos : 0 < l.length := List.length_pos_iff.mpr hl
  have hsort : s.Pairwise fun x y => decide (x ≤ y) = true := by
    rw [hs]
    exact sortBy_sorted _ (fun a b c h1 h2 => by simp at *; linarith) (fun a b => by simpa using le_total a b) l
  have i1 : (s.length - 1) / 2 < s.length := by omega
  have i2 : s.length / 2 < s.length := by omega
  have hle : s[(s.length - 1) / 2] ≤ s[s.length / 2] := by
    rcases Nat.lt_or_ge ((s.length - 1) / 2) (s.length / 2) with h | h
    · have := List.pairwise_iff_getElem.mp hsort _ _ i1 i2 h
      simpa using this
    · have : (s.length - 1) / 2 = s.length / 2 := by omega
      simp [this]
  refine ⟨(s[(s.length - 1) / 2] + s[s.length / 2]) / 2, ?_, ?_, s[(s.length - 1) / 2],
    hperm.mem_iff.mp (List.getElem_mem i1), by linarith⟩
  · unfold npMedian
    simp only [hm, Option.bind_eq_bind, Option.bind_some, ← hs]
    rw [List.getElem?_eq_getElem i1, List.getElem?_eq_getElem i2]
    rfl
  · obtain ⟨t, ht⟩ : ∃ t, t = (s[(s.length - 1) / 2] + s[s.length / 2]) / 2 := ⟨_, rfl⟩
    rw [← ht, ← hperm.countP_eq]
    have hsplit : s = s.take ((s.length - 1) / 2 + 1) ++ s.drop ((s.length - 1) / 2 + 1) := (List.take_append_drop _ _).symm
    have h0 : (s.take ((s.length - 1) / 2 + 1)).countP (fun x => decide (t < x)) = 0 := by
      rw [List.countP_eq_zero]
      intro x hx
      obtain ⟨i, hi, rfl⟩ := List.getElem_of_mem hx
      rw [List.length_take] at hi
      rw [List.getElem_take]
      have : s[i]'(by omega) ≤ s[(s.length - 1) / 2] := by
        rcases Nat.lt_or_ge i ((s.length - 1) / 2) with h | h
        · have := List.pairwise_iff_getElem.mp hsort i _ (by omega) i1 h
          simpa using this
        · have : i = (s.length - 1) / 2 := by omega
          simp [this]
      simp only [decide_eq_true_eq, not_lt]
      linarith
    have h1 := List.countP_le_length (p := fun x => decide (t < x)) (l := s.drop ((s.length - 1) / 2 + 1))
    rw [List.length_drop] at h1
    have h2 : s.countP (fun x => decide (t < x)) = (s.take ((s.length - 1) / 2 + 1)).countP (fun x => decide (t < x))
        + (s.drop ((s.length - 1) / 2 + 1)).countP (fun x => decide (t < x)) := by
      conv_lhs => rw [hsplit, List.countP_append]
    omega

/-- The number of pieces is one more than the number of jumps. -/
theorem splitJumps_length (len : ℚ × ℚ → ℚ × ℚ → ℚ) (lim : ℚ) (j : GridPt → GridPt → Bool)
    (hj : ∀ p q, j (some p) (some q) = decide (lim < len p q)) (line : List (ℚ × ℚ)) (l : List ℚ)
    (hl : stepLens len (line.map some) = l.map some) :
    (splitJumps j (line.map some)).length = l.countP (fun x => decide (lim < x)) + 1 := by
  match line with
  | [] =>
    cases l with
    | nil => rfl
    | cons a l => simp [stepLens] at hl
  | [x] =>
    cases l with
    | nil => rfl
    | cons a l => simp [stepLens] at hl
  | x :: y :: t =>
    cases l with
    | nil => simp [stepLens] at hl
    | cons a l =>
      simp only [List.map_cons, stepLens, List.cons.injEq] at hl
      have ih := splitJumps_length len lim j hj (y :: t) l hl.2
      have ha : len x y = a := by simpa using hl.1
      obtain ⟨s0, r0, h0⟩ := splitJumps_head j (some y) (t.map some)
      simp only [List.map_cons] at ih ⊢
      rw [splitJumps, hj, ha]
      by_cases h : lim < a
      · simp [h, ih]
      · simp only [h, decide_false, Bool.false_eq_true, if_false, h0, List.countP_cons]
        rw [h0] at ih
        simpa using ih

theorem adjacent_map {α β : Type} (f : α → β) {x y : α} {l : List α} (h : Adjacent x y l) : Adjacent (f x) (f y) (l.map f) := by
  obtain ⟨a, b, rfl⟩ := h
  exact ⟨a.map f, b.map f, by simp⟩

/-- **C187_cut.** A line whose points are all numbers is cut into pieces that together are the line, with a typical step `t` (the
median) such that steps inside pieces are at most steplim·t long and those between pieces longer; each piece comes out with its
ends extended along the straight line towards the cuts, and single points as they are. If steplim is at least one and lengths
are not negative, at most half of the steps are cut. -/
theorem C187_cut (len : ℚ × ℚ → ℚ × ℚ → ℚ) (steplim e : ℚ) (line : List (ℚ × ℚ)) (h2 : 2 ≤ line.length) :
    ∃ t pieces, npMedian (stepLens len (line.map some)) = some t ∧ IsCut len (t * steplim) line pieces ∧
      (lineSegs len steplim e (line.map some)).length = pieces.length ∧
      (∀ i (s : List (ℚ × ℚ)), pieces[i]? = some s → ∃ r, (lineSegs len steplim e (line.map some))[i]? = some r ∧
        Extended e (i = 0) (i + 1 = pieces.length) s r) ∧
      (1 ≤ steplim → (∀ p q, 0 ≤ len p q) → 2 * (pieces.length - 1) ≤ line.length - 1) := by
  obtain ⟨l, hl, hlen, hlens⟩ := stepLens_some len line
  obtain ⟨t, ht, hhalf, x0, hx0, hx0t⟩ := npMedian_half l (by intro h; rw [h] at hlen; simp at hlen; omega)
  rw [← hl] at ht
  set j := isJump len (some t) steplim with hj
  have hj' : ∀ p q, j (some p) (some q) = decide (t * steplim < len p q) := fun p q => rfl
  have hfl := splitJumps_flatten j (line.map some)
  have hin := splitJumps_inside j (line.map some)
  have hbt := splitJumps_between j (line.map some)
  have hne := splitJumps_pieces j (line.map some) (by intro h; rw [List.map_eq_nil_iff] at h; simp [h] at h2)
  have hcount := splitJumps_length len (t * steplim) j hj' line l hl
  obtain ⟨P, hP⟩ : ∃ P, P = splitJumps j (line.map some) := ⟨_, rfl⟩
  rw [← hP] at hfl hin hbt hne hcount
  obtain ⟨pieces, hpieces⟩ : ∃ pieces : List (List (ℚ × ℚ)), P = pieces.map fun s => s.map some := by
    have hs : ∀ s ∈ P, ∃ m : List (ℚ × ℚ), s = m.map some := by
      intro s hs
      apply lift_some
      intro x hx hn
      have : x ∈ line.map some := by rw [← hfl]; exact List.mem_flatten.mpr ⟨s, hs, hx⟩
      rw [hn] at this
      simp at this
    clear hfl hin hbt hne hcount hP
    induction P with
    | nil => exact ⟨[], rfl⟩
    | cons s P ih =>
      obtain ⟨m, hm⟩ := hs s (by simp)
      obtain ⟨ps, hps⟩ := ih fun s h => hs s (by simp [h])
      exact ⟨m :: ps, by simp [hm, hps]⟩
  have hsegs : lineSegs len steplim e (line.map some)
      = (P.mapIdx fun i s => if i + 1 < P.length then extrapSeg e s else s).mapIdx
          fun i s => if 1 ≤ i then (extrapSeg e s.reverse).reverse else s := by
    unfold lineSegs
    simp only [ht]
    rw [← hj, ← hP]
  refine ⟨t, pieces, ht, ⟨?_, ?_, ?_, ?_⟩, ?_, ?_, ?_⟩
  · have : (pieces.flatten).map some = line.map some := by
      rw [← hfl, hpieces, List.map_flatten]
    exact (List.map_injective_iff.mpr (Option.some_injective _)) this
  · intro s hs h
    refine hne (s.map some) (by rw [hpieces]; exact List.mem_map_of_mem hs) (by simp [h])
  · intro s hs x y hxy
    have := hin (s.map some) (by rw [hpieces]; exact List.mem_map_of_mem hs) (some x) (some y) (adjacent_map some hxy)
    rw [hj'] at this
    simpa using this
  · intro s t' hst
    obtain ⟨a, x, y, b, h1, h2, h3⟩ := hbt (s.map some) (t'.map some) (by
      rw [hpieces]; exact adjacent_map (fun s : List (ℚ × ℚ) => s.map some) hst)
    obtain ⟨a', x', rfl, h4, h5⟩ := List.map_eq_append_iff.mp h1
    obtain ⟨x1, rest, rfl, rfl, h6⟩ := List.map_eq_cons_iff.mp h5
    obtain ⟨y1, b', rfl, rfl, rfl⟩ := List.map_eq_cons_iff.mp h2
    rw [List.map_eq_nil_iff] at h6
    subst h6
    refine ⟨a', x1, y1, b', rfl, rfl, ?_⟩
    rw [hj'] at h3
    simpa using h3
  · rw [hsegs]; simp [hpieces]
  · intro i s hi
    refine ⟨_, ?_, extended_seg e s (i = 0) (i + 1 = pieces.length)⟩
    have hlt : i < pieces.length := by
      by_contra h
      rw [List.getElem?_eq_none (by omega)] at hi
      simp at hi
    rw [hsegs, List.getElem?_mapIdx, List.getElem?_mapIdx, hpieces, List.getElem?_map, hi]
    simp only [Option.map_some, List.length_map, decide_eq_true_eq]
    congr 1
    by_cases h0 : i = 0
    · by_cases h1 : i + 1 = pieces.length
      · have h1' : ¬ i + 1 < pieces.length := by omega
        have h0' : ¬ 1 ≤ i := by omega
        simp only [h0', h1', if_false]
        simp [h0]
        omega
      · have h1' : i + 1 < pieces.length := by omega
        have h0' : ¬ 1 ≤ i := by omega
        rw [if_neg h0', if_pos h1', if_pos h0, if_neg h1]
    · by_cases h1 : i + 1 = pieces.length
      · have h1' : ¬ i + 1 < pieces.length := by omega
        have h0' : 1 ≤ i := by omega
        rw [if_pos h0', if_neg h1', if_neg h0, if_pos h1]
      · have h1' : i + 1 < pieces.length := by omega
        have h0' : 1 ≤ i := by omega
        rw [if_pos h0', if_pos h1', if_neg h0, if_neg h1]
  · intro hlim hpos
    have h1 : pieces.length = l.countP (fun x => decide (t * steplim < x)) + 1 := by
      rw [← hcount, hpieces, List.length_map]
    have h3 : l.countP (fun x => decide (t * steplim < x)) ≤ l.countP (fun x => decide (t < x)) := by
      apply List.countP_mono_left
      intro x _ h
      obtain ⟨p, q, hpq⟩ := hlens x0 hx0
      have ht0 : 0 ≤ t := by rw [hpq] at hx0t; exact (hpos p q).trans hx0t
      have : t ≤ t * steplim := le_mul_of_one_le_right ht0 hlim
      simp only [decide_eq_true_eq] at h ⊢
      linarith
    omega

theorem stepLens_none (len : ℚ × ℚ → ℚ × ℚ → ℚ) (pixs : List GridPt) (h2 : 2 ≤ pixs.length) (hn : none ∈ pixs) :
    none ∈ stepLens len pixs := by
  match pixs with
  | x :: y :: t =>
    rw [stepLens]
    rcases x with - | x
    · simp
    rcases y with - | y
    · simp
    right
    have hn' : none ∈ t := by simpa using hn
    match t with
    | z :: t => exact stepLens_none len (some y :: z :: t) (by simp) (by simpa using hn')

theorem npMedian_none (l : List (Option ℚ)) (h : none ∈ l) : npMedian l = none := by
  have : l.mapM id = none := by
    induction l with
    | nil => simp at h
    | cons x l ih =>
      rcases x with - | x
      · rfl
      · have := ih (by simpa using h)
        simp [List.mapM_cons, this]
  simp [npMedian, this]

theorem splitJumps_no (j : GridPt → GridPt → Bool) (hj : ∀ p q, j p q = false) (l : List GridPt) : splitJumps j l = [l] := by
  match l with
  | [] => rfl
  | [x] => rfl
  | x :: y :: t => rw [splitJumps, hj, splitJumps_no j hj (y :: t)]; rfl

/-- **C187_nan_refuted.** A single point that is not a number keeps a line from being cut anywhere, however long its jumps. -/
theorem C187_nan_refuted (len : ℚ × ℚ → ℚ × ℚ → ℚ) (steplim e : ℚ) (pixs : List GridPt) (h2 : 2 ≤ pixs.length)
    (hn : none ∈ pixs) : lineSegs len steplim e pixs = [pixs] := by
  unfold lineSegs
  simp only
  rw [npMedian_none _ (stepLens_none len pixs h2 hn),
    splitJumps_no _ (by intro p q; unfold isJump; cases p <;> cases q <;> rfl) pixs]
  simp

/-- **C187_repeated_refuted.** A line that stands still for half of its steps is cut at every other step, however short: here a
step of one pixel between points that are repeated. -/
theorem C187_repeated_refuted (steplim e : ℚ) :
    (lineSegs (fun p q => |q.1 - p.1| + |q.2 - p.2|) steplim e [some (0, 0), some (0, 0), some (0, 0), some (1, 0)]).length = 2 := by
  have h : npMedian (stepLens (fun p q => |q.1 - p.1| + |q.2 - p.2|) [some (0, 0), some (0, 0), some (0, 0), some (1, 0)])
      = some 0 := by decide +kernel
  simp only [lineSegs, h]
  simp [splitJumps, isJump]

/-! ### Which lines are drawn -/

theorem mem_arangeQ (x v : ℚ) : v ∈ arangeQ x ↔ ∃ i : ℕ, (i : ℚ) < x ∧ v = i := by
  unfold arangeQ
  simp only [List.mem_map, List.mem_range]
  constructor
  · rintro ⟨i, hi, rfl⟩
    refine ⟨i, ?_, rfl⟩
    have h2 : (i : ℤ) < ⌈x⌉ := by omega
    have := Int.lt_ceil.mp h2
    exact_mod_cast this
  · rintro ⟨i, hi, rfl⟩
    refine ⟨i, ?_, rfl⟩
    have : (i : ℤ) < ⌈x⌉ := Int.lt_ceil.mpr (by exact_mod_cast hi)
    omega

/-- **C187_plain.** On a plain map the lines are at multiples of the step; all multiples inside the box are there, and at most
one more, less than a step in front of it. -/
theorem C187_plain (b0 b1 step : ℚ) (hs : 0 < step) (v : ℚ) :
    v ∈ plainLines b0 b1 step ↔ (∃ k : ℤ, v = k * step) ∧ b0 - step < v ∧ v ≤ b1 := by
  unfold plainLines
  simp only [List.mem_map, mem_arangeQ]
  have f0 := Int.floor_le (b0 / step)
  have f1 := Int.lt_floor_add_one (b0 / step)
  have g0 := Int.floor_le (b1 / step)
  have g1 := Int.lt_floor_add_one (b1 / step)
  rw [le_div_iff₀ hs] at f0 g0
  rw [div_lt_iff₀ hs] at f1 g1
  constructor
  · rintro ⟨w, ⟨i, hi, rfl⟩, rfl⟩
    have hi' : (i : ℤ) ≤ ⌊b1 / step⌋ - ⌊b0 / step⌋ := by
      have : (i : ℤ) < ⌊b1 / step⌋ - ⌊b0 / step⌋ + 1 := by exact_mod_cast hi
      omega
    have hi2 : (i : ℚ) ≤ ⌊b1 / step⌋ - ⌊b0 / step⌋ := by exact_mod_cast hi'
    have h0 : (0 : ℚ) ≤ i * step := by positivity
    refine ⟨⟨⌊b0 / step⌋ + i, by push_cast; ring⟩, by nlinarith, by nlinarith⟩
  · rintro ⟨⟨k, rfl⟩, h1, h2⟩
    have hk : ⌊b0 / step⌋ ≤ k := by
      have : (⌊b0 / step⌋ : ℚ) * step < (k + 1) * step := by nlinarith
      have := lt_of_mul_lt_mul_right this hs.le
      have : ⌊b0 / step⌋ < k + 1 := by exact_mod_cast this
      omega
    have hk2 : k ≤ ⌊b1 / step⌋ := Int.le_floor.mpr ((le_div_iff₀ hs).mpr h2)
    refine ⟨((k - ⌊b0 / step⌋).toNat : ℚ), ⟨(k - ⌊b0 / step⌋).toNat, ?_, rfl⟩, ?_⟩
    · have e : (((k - ⌊b0 / step⌋).toNat : ℤ)) = k - ⌊b0 / step⌋ := Int.toNat_of_nonneg (by omega)
      have e' : (((k - ⌊b0 / step⌋).toNat : ℚ)) = k - ⌊b0 / step⌋ := by exact_mod_cast e
      rw [e']
      have : (k : ℚ) ≤ ⌊b1 / step⌋ := by exact_mod_cast hk2
      linarith
    · have e : (((k - ⌊b0 / step⌋).toNat : ℤ)) = k - ⌊b0 / step⌋ := Int.toNat_of_nonneg (by omega)
      have e' : (((k - ⌊b0 / step⌋).toNat : ℚ)) = k - ⌊b0 / step⌋ := by exact_mod_cast e
      rw [e']
      ring

/-- **C187_latitudes_partial.** If the step divides 180 degrees, the latitudes drawn are those from pole to pole that are whole steps
from the south pole. -/
theorem C187_latitudes_partial (n : ℕ) (hn : 0 < n) (v : ℚ) :
    v ∈ latLines (180 / n) ↔ (∃ k : ℤ, v = -90 + k * (180 / n)) ∧ -90 ≤ v ∧ v ≤ 90 := by
  have hn' : (0 : ℚ) < n := by exact_mod_cast hn
  have e : (180 : ℚ) / (180 / n) = n := by field_simp
  unfold latLines
  simp only [List.mem_map, mem_arangeQ, e]
  constructor
  · rintro ⟨w, ⟨i, hi, rfl⟩, rfl⟩
    have hi' : (i : ℚ) ≤ n := by
      have : i < n + 1 := by exact_mod_cast hi
      exact_mod_cast Nat.lt_succ_iff.mp this
    refine ⟨⟨i, by push_cast; ring⟩, ?_, ?_⟩
    · have : (0 : ℚ) ≤ i * (180 / n) := by positivity
      linarith
    · have : (i : ℚ) * (180 / n) ≤ 180 := by
        rw [mul_div_assoc', div_le_iff₀ hn']
        linarith
      linarith
  · rintro ⟨⟨k, rfl⟩, h1, h2⟩
    have hd : (0 : ℚ) < 180 / n := by positivity
    have k0 : 0 ≤ k := by
      by_contra h
      have : (k : ℚ) < 0 := by exact_mod_cast not_le.mp h
      nlinarith
    have k1 : (k : ℚ) ≤ n := by
      have : (k : ℚ) * (180 / n) ≤ n * (180 / n) := by
        rw [show (n : ℚ) * (180 / n) = 180 by field_simp]
        linarith
      exact le_of_mul_le_mul_right this hd
    obtain ⟨m, rfl⟩ := Int.eq_ofNat_of_zero_le k0
    exact ⟨m, ⟨m, by push_cast at k1; linarith, rfl⟩, by push_cast; rfl⟩

/-- **C187_latitudes_refuted.** For every other step a line is drawn beyond the north pole. -/
theorem C187_latitudes_refuted (step : ℚ) (hs : 0 < step) (hnot : ∀ n : ℕ, step * n ≠ 180) : ∃ v ∈ latLines step, 90 < v := by
  unfold latLines
  simp only [List.mem_map, mem_arangeQ]
  have h0 : (0 : ℚ) < 180 / step := by positivity
  have hc0 : 0 ≤ ⌈(180 : ℚ) / step⌉ := Int.ceil_nonneg h0.le
  obtain ⟨n, hn⟩ := Int.eq_ofNat_of_zero_le hc0
  have hle := Int.le_ceil ((180 : ℚ) / step)
  have hlt := Int.ceil_lt_add_one ((180 : ℚ) / step)
  rw [hn] at hle hlt
  push_cast at hle hlt
  refine ⟨-90 + n * step, ⟨n, ⟨n, hlt, rfl⟩, rfl⟩, ?_⟩
  have hne : (180 : ℚ) / step ≠ n := by
    intro h
    apply hnot n
    rw [← h]
    field_simp
  have : (180 : ℚ) / step < n := lt_of_le_of_ne hle hne
  rw [div_lt_iff₀ hs] at this
  linarith

/-- **C187_longitudes.** Each longitude is drawn with a label from -180 (included) to 180 degrees that is whole turns from it. -/
theorem C187_longitudes (step : ℚ) (l : ℚ × ℚ) (hl : l ∈ lonLines step false) :
    -180 ≤ l.2 ∧ l.2 < 180 ∧ ∃ k : ℤ, l.2 = l.1 + k * 360 := by
  unfold lonLines at hl
  simp only [List.mem_map, Bool.false_eq_true, if_false] at hl
  obtain ⟨i, _, rfl⟩ := hl
  obtain ⟨h1, h2, h3⟩ := C18_rewind (0 + i * step) 0 (period := 360) (by norm_num)
  exact ⟨by simp only; linarith, by simp only; linarith, h3⟩

/-- **C187_longitudes_refuted.** The meridians are not drawn once each at equal distances: if the step divides 360 degrees the first
one is drawn again at 360 degrees with the same label, and otherwise a line is drawn past the full turn, between two others. -/
theorem C187_longitudes_refuted (step : ℚ) (hs : 0 < step) :
    (∀ n : ℕ, step * n = 360 → (0, 0) ∈ lonLines step false ∧ (360, 0) ∈ lonLines step false) ∧
    ((∀ n : ℕ, step * n ≠ 360) → ∃ l ∈ lonLines step false, 360 < l.1 ∧ l.1 < 360 + step) := by
  have h0 : (0 : ℚ) < 360 / step := by positivity
  unfold lonLines
  simp only [List.mem_map, mem_arangeQ, Bool.false_eq_true, if_false]
  constructor
  · intro n hn
    constructor
    · refine ⟨0, ⟨0, by push_cast; linarith, by simp⟩, ?_⟩
      have : rewind (0 + 0 * step) 0 360 = 0 := by
        rw [show (0 : ℚ) + 0 * step = 0 by ring]
        decide +kernel
      rw [this]; simp
    · refine ⟨n, ⟨n, ?_, rfl⟩, ?_⟩
      · rw [← hn]
        rw [mul_div_cancel_left₀ _ hs.ne']
        linarith
      · have e : 0 + (n : ℚ) * step = 360 := by linarith
        rw [e]
        have : rewind 360 0 360 = 0 := by decide +kernel
        rw [this]
  · intro hnot
    have hc0 : 0 ≤ ⌈(360 : ℚ) / step⌉ := Int.ceil_nonneg h0.le
    obtain ⟨n, hn⟩ := Int.eq_ofNat_of_zero_le hc0
    have hle := Int.le_ceil ((360 : ℚ) / step)
    have hlt := Int.ceil_lt_add_one ((360 : ℚ) / step)
    rw [hn] at hle hlt
    push_cast at hle hlt
    refine ⟨_, ⟨n, ⟨n, hlt, rfl⟩, rfl⟩, ?_, ?_⟩
    · have hne : (360 : ℚ) / step ≠ n := by
        intro h
        apply hnot n
        rw [← h]
        field_simp
      have : (360 : ℚ) / step < n := lt_of_le_of_ne hle hne
      rw [div_lt_iff₀ hs] at this
      simp only
      linarith
    · have : (n : ℚ) * step < (360 / step + 1) * step := mul_lt_mul_of_pos_right hlt hs
      rw [add_mul, div_mul_cancel₀ _ hs.ne'] at this
      simp only
      linarith

/-! ### Labels -/

theorem npSign_neg {x : ℚ} (h : x < 0) : npSign x = -1 := by simp [npSign, h]
theorem npSign_zero : npSign 0 = 0 := by simp [npSign]
theorem npSign_pos {x : ℚ} (h : 0 < x) : npSign x = 1 := by simp [npSign, not_lt.mpr h.le, h.ne']

/-- A point of the straight step from p to q. -/
def OnStep (p q r : ℚ × ℚ) : Prop := ∃ t : ℚ, 0 ≤ t ∧ t ≤ 1 ∧ r = (p.1 + t * (q.1 - p.1), p.2 + t * (q.2 - p.2))

theorem crossPos_on (n : ℚ) (dim : Nat) (hdim : dim < 2) (p q : ℚ × ℚ) (hpq : coordOf dim p ≠ coordOf dim q) (c : ℚ)
    (hc : c = if coordOf dim p * coordOf dim q ≤ 0 then 0 else n) :
    coordOf dim (crossPos n dim p q) = c ∧
    (OnStep p q (crossPos n dim p q) ↔ (coordOf dim p - c) * (coordOf dim q - c) ≤ 0) := by
  have key : ∀ a0 a1 b0 b1 : ℚ, a0 ≠ a1 →
      ((∃ t : ℚ, 0 ≤ t ∧ t ≤ 1 ∧ c = a0 + t * (a1 - a0) ∧ b0 + (b1 - b0) / (a1 - a0) * (c - a0) = b0 + t * (b1 - b0))
        ↔ (a0 - c) * (a1 - c) ≤ 0) := by
    intro a0 a1 b0 b1 hne
    have hd : a1 - a0 ≠ 0 := sub_ne_zero.mpr hne.symm
    constructor
    · rintro ⟨t, h0, h1, h2, _⟩
      rw [h2]
      have : (a0 - (a0 + t * (a1 - a0))) * (a1 - (a0 + t * (a1 - a0))) = -(t * (1 - t) * (a1 - a0) ^ 2) := by ring
      rw [this]
      have : 0 ≤ t * (1 - t) * (a1 - a0) ^ 2 := mul_nonneg (mul_nonneg h0 (by linarith)) (sq_nonneg _)
      linarith
    · intro h
      refine ⟨(c - a0) / (a1 - a0), ?_, ?_, by field_simp; ring, by field_simp⟩
      · rcases lt_or_gt_of_ne hd with hd | hd
        · apply div_nonneg_of_nonpos _ hd.le
          by_contra h2
          nlinarith
        · apply div_nonneg _ hd.le
          by_contra h2
          nlinarith
      · rcases lt_or_gt_of_ne hd with hd | hd
        · rw [div_le_one_of_neg hd]
          by_contra h2
          nlinarith
        · rw [div_le_one hd]
          by_contra h2
          nlinarith
  have hk := key (coordOf dim p) (coordOf dim q) (coordOf (1 - dim) p) (coordOf (1 - dim) q) hpq
  rw [← hk]
  subst hc
  interval_cases dim
  · exact ⟨rfl, by simp only [OnStep, crossPos, coordOf, if_true, Prod.mk.injEq, Nat.sub_zero, one_ne_zero, if_false]⟩
  · refine ⟨rfl, ?_⟩
    simp only [OnStep, crossPos, coordOf, if_true, Prod.mk.injEq, Nat.sub_self, one_ne_zero, if_false]
    constructor
    · rintro ⟨t, h0, h1, h2, h3⟩
      exact ⟨t, h0, h1, h3, h2⟩
    · rintro ⟨t, h0, h1, h2, h3⟩
      exact ⟨t, h0, h1, h3, h2⟩

theorem crossesEdge_ne {n : ℚ} {dim : Nat} {p q : ℚ × ℚ} (h : crossesEdge n dim p q = true) : coordOf dim p ≠ coordOf dim q := by
  intro he
  simp [crossesEdge, he] at h

/-- The edge lengths of the image by axis. -/
def sideLen (nx ny : ℚ) (dim : Nat) : ℚ := if dim = 0 then nx else ny

theorem mem_stepLabels (nx ny : ℚ) (curve : List (ℚ × ℚ)) (l : ℚ × ℚ) :
    l ∈ stepLabels nx ny curve ↔ ∃ p q, Adjacent p q curve ∧ ∃ dim < 2, crossesEdge (sideLen nx ny dim) dim p q = true ∧
      0 ≤ coordOf (1 - dim) p ∧ coordOf (1 - dim) p ≤ sideLen nx ny (1 - dim) ∧ l = crossPos (sideLen nx ny dim) dim p q := by
  match curve with
  | [] =>
    simp only [stepLabels, List.not_mem_nil, false_iff]
    rintro ⟨p, q, ⟨a, b, h⟩, _⟩
    simp at h
  | [x] =>
    simp only [stepLabels, List.not_mem_nil, false_iff]
    rintro ⟨p, q, ⟨a, b, h⟩, _⟩
    rcases a with - | ⟨a, - | ⟨a', a⟩⟩ <;> simp at h
  | x :: y :: t =>
    have ih := mem_stepLabels nx ny (y :: t) l
    rw [stepLabels, List.mem_append, ih]
    have hadj : ∀ p q, Adjacent p q (x :: y :: t) ↔ (p = x ∧ q = y) ∨ Adjacent p q (y :: t) := by
      intro p q
      constructor
      · rintro ⟨a, b, h⟩
        rcases a with - | ⟨a, as⟩
        · simp only [List.nil_append, List.cons.injEq] at h
          exact Or.inl ⟨h.1.symm, h.2.1.symm⟩
        · simp only [List.cons_append, List.cons.injEq] at h
          exact Or.inr ⟨as, b, h.2⟩
      · rintro (⟨rfl, rfl⟩ | ⟨a, b, h⟩)
        · exact ⟨[], t, rfl⟩
        · exact ⟨x :: a, b, by rw [h]; rfl⟩
    have hhead : (l ∈ ([0, 1].filterMap fun dim =>
        if crossesEdge (if dim = 0 then nx else ny) dim x y && !(coordOf (1 - dim) x < 0 || (if dim = 0 then ny else nx) < coordOf (1 - dim) x)
          then some (crossPos (if dim = 0 then nx else ny) dim x y) else none)) ↔
        ∃ dim < 2, crossesEdge (sideLen nx ny dim) dim x y = true ∧ 0 ≤ coordOf (1 - dim) x ∧
          coordOf (1 - dim) x ≤ sideLen nx ny (1 - dim) ∧ l = crossPos (sideLen nx ny dim) dim x y := by
      rw [List.mem_filterMap]
      constructor
      · rintro ⟨dim, hd, h⟩
        have hd2 : dim < 2 := by simp at hd; omega
        refine ⟨dim, hd2, ?_⟩
        rw [Option.ite_none_right_eq_some] at h
        obtain ⟨hc, h⟩ := h
        simp only [Bool.and_eq_true, Bool.not_eq_true', Bool.or_eq_false_iff, decide_eq_false_iff_not, not_lt] at hc
        refine ⟨hc.1, hc.2.1, ?_, (Option.some.inj h).symm⟩
        have := hc.2.2
        interval_cases dim <;> simpa [sideLen] using this
      · rintro ⟨dim, hd, h1, h2, h3, h4⟩
        refine ⟨dim, by interval_cases dim <;> simp, ?_⟩
        rw [if_pos]
        · rw [h4]; rfl
        · simp only [Bool.and_eq_true, Bool.not_eq_true', Bool.or_eq_false_iff, decide_eq_false_iff_not, not_lt]
          refine ⟨h1, h2, ?_⟩
          interval_cases dim <;> simpa [sideLen] using h3
    rw [hhead]
    constructor
    · rintro (h | ⟨p, q, h1, h2⟩)
      · exact ⟨x, y, (hadj x y).mpr (Or.inl ⟨rfl, rfl⟩), h⟩
      · exact ⟨p, q, (hadj p q).mpr (Or.inr h1), h2⟩
    · rintro ⟨p, q, h1, h2⟩
      rcases (hadj p q).mp h1 with ⟨rfl, rfl⟩ | h
      · exact Or.inl h2
      · exact Or.inr ⟨p, q, h, h2⟩

/-- **C187_labels_partial.** Every label at an edge belongs to a step of the curve that begins beside the image and changes sides of
an edge. It is put on the lower edge (coordinate 0), and then it is a point of the step, or on the upper one (coordinate n); there
it is on the step only if the step reaches the coordinate n. -/
theorem C187_labels_partial (nx ny : ℚ) (curve : List (ℚ × ℚ)) (l : ℚ × ℚ) (hl : l ∈ stepLabels nx ny curve) :
    ∃ p q, Adjacent p q curve ∧ ∃ dim < 2, 0 ≤ coordOf (1 - dim) p ∧ coordOf (1 - dim) p ≤ sideLen nx ny (1 - dim) ∧
      ((coordOf dim l = 0 ∧ OnStep p q l) ∨ (coordOf dim l = sideLen nx ny dim ∧
        (OnStep p q l ↔ (coordOf dim p - sideLen nx ny dim) * (coordOf dim q - sideLen nx ny dim) ≤ 0))) := by
  obtain ⟨p, q, ha, dim, hd, hc, h1, h2, rfl⟩ := (mem_stepLabels nx ny curve l).mp hl
  obtain ⟨e1, e2⟩ := crossPos_on (sideLen nx ny dim) dim hd p q (crossesEdge_ne hc) _ rfl
  refine ⟨p, q, ha, dim, hd, h1, h2, ?_⟩
  by_cases h : coordOf dim p * coordOf dim q ≤ 0
  · rw [if_pos h] at e1 e2
    exact Or.inl ⟨e1, e2.mpr (by simpa using h)⟩
  · rw [if_neg h] at e1 e2
    exact Or.inr ⟨e1, e2⟩

/-- **C187_entering.** A step that goes through the lower edge, beginning beside the image, gets a label on the edge and on the
step. -/
theorem C187_entering (nx ny : ℚ) (curve : List (ℚ × ℚ)) (p q : ℚ × ℚ) (ha : Adjacent p q curve) (dim : Nat) (hd : dim < 2)
    (hs : coordOf dim p * coordOf dim q < 0) (h1 : 0 ≤ coordOf (1 - dim) p) (h2 : coordOf (1 - dim) p ≤ sideLen nx ny (1 - dim)) :
    ∃ l ∈ stepLabels nx ny curve, coordOf dim l = 0 ∧ OnStep p q l := by
  have hc : crossesEdge (sideLen nx ny dim) dim p q = true := by
    unfold crossesEdge
    rw [Bool.or_eq_true]
    left
    rcases mul_neg_iff.mp hs with ⟨a, b⟩ | ⟨a, b⟩
    · rw [npSign_pos a, npSign_neg b]; decide
    · rw [npSign_neg a, npSign_pos b]; decide
  obtain ⟨e1, e2⟩ := crossPos_on (sideLen nx ny dim) dim hd p q (crossesEdge_ne hc) _ rfl
  rw [if_pos hs.le] at e1 e2
  exact ⟨_, (mem_stepLabels nx ny curve _).mpr ⟨p, q, ha, dim, hd, hc, h1, h2, rfl⟩, e1, e2.mpr (by simpa using hs.le)⟩

/-- **C187_inside.** A curve that stays inside the image gets one label, at its first point. -/
theorem C187_inside (nx ny : ℚ) (p : ℚ × ℚ) (r : List (ℚ × ℚ))
    (hin : ∀ q ∈ p :: r, 0 < q.1 ∧ q.1 < nx - 1 ∧ 0 < q.2 ∧ q.2 < ny - 1) : curveLabels nx ny (p :: r) = [p] := by
  have h0 : stepLabels nx ny (p :: r) = [] := by
    rw [List.eq_nil_iff_forall_not_mem]
    intro l hl
    obtain ⟨x, y, ⟨a, b, hab⟩, dim, hd, hc, -⟩ := (mem_stepLabels nx ny _ l).mp hl
    obtain ⟨x1, x2, x3, x4⟩ := hin x (by rw [hab]; simp)
    obtain ⟨y1, y2, y3, y4⟩ := hin y (by rw [hab]; simp)
    have : crossesEdge (sideLen nx ny dim) dim x y = false := by
      interval_cases dim
      · simp only [crossesEdge, coordOf, sideLen, if_true]
        rw [npSign_pos x1, npSign_pos y1, npSign_pos (by linarith), npSign_pos (by linarith)]
        decide
      · simp only [crossesEdge, coordOf, sideLen, one_ne_zero, if_false]
        rw [npSign_pos x3, npSign_pos y3, npSign_pos (by linarith), npSign_pos (by linarith)]
        decide
    rw [this] at hc
    exact absurd hc (by decide)
  obtain ⟨h1, h2, h3, h4⟩ := hin p (by simp)
  unfold curveLabels
  rw [h0]
  simp only
  rw [if_pos ⟨h1.le, h3.le, by linarith, by linarith⟩]

/-- **C187_labels_refuted.** A step that leaves the last pixel without reaching the coordinate n is labelled at n, which is off the
step. -/
theorem C187_labels_refuted (nx ny : ℚ) (curve : List (ℚ × ℚ)) (p q : ℚ × ℚ) (ha : Adjacent p q curve)
    (h0 : 0 < p.1) (h1 : p.1 < nx - 1) (h2 : nx - 1 < q.1) (h3 : q.1 < nx) (h4 : 0 ≤ p.2) (h5 : p.2 ≤ ny) :
    ∃ l ∈ stepLabels nx ny curve, l.1 = nx ∧ ¬ OnStep p q l := by
  have hc : crossesEdge (sideLen nx ny 0) 0 p q = true := by
    simp only [crossesEdge, coordOf, sideLen, if_true, Bool.or_eq_true]
    right
    rw [npSign_neg (by linarith), npSign_pos (by linarith)]
    decide
  obtain ⟨e1, e2⟩ := crossPos_on (sideLen nx ny 0) 0 (by norm_num) p q (crossesEdge_ne hc) _ rfl
  have hpos : ¬ coordOf 0 p * coordOf 0 q ≤ 0 := by
    simp only [coordOf, if_true, not_le]
    exact mul_pos h0 (by linarith)
  rw [if_neg hpos] at e1 e2
  refine ⟨_, (mem_stepLabels nx ny curve _).mpr ⟨p, q, ha, 0, by norm_num, hc, h4, h5, rfl⟩, e1, ?_⟩
  rw [e2]
  simp only [coordOf, sideLen, if_true, not_le]
  exact mul_pos_of_neg_of_neg (by linarith) (by linarith)

/-- **C187_twice_refuted.** Labels are not one per crossing: a curve with a point exactly on the edge is labelled twice at the same
place, and a step across the whole image once although it crosses two edges. -/
theorem C187_twice_refuted (nx ny b : ℚ) (hx : 2 < nx) (h0 : 0 ≤ b) (h1 : b ≤ ny) :
    curveLabels nx ny [(-1, b), (0, b), (1 / 2, b)] = [(0, b), (0, b)] ∧ curveLabels nx ny [(-1, b), (nx, b)] = [(0, b)] := by
  have c1 : crossesEdge nx 0 (-1, b) (0, b) = true := by simp [crossesEdge, coordOf, npSign]
  have c2 : crossesEdge nx 0 (0, b) (1 / 2, b) = true := by simp [crossesEdge, coordOf, npSign]; norm_num
  have c3 : ∀ x y, crossesEdge ny 1 (x, b) (y, b) = false := by intro x y; simp [crossesEdge, coordOf]
  have c4 : crossesEdge nx 0 (-1, b) (nx, b) = true := by
    simp only [crossesEdge, coordOf, if_true, Bool.or_eq_true]
    left
    rw [@npSign_neg (-1) (by norm_num), @npSign_pos nx (by linarith)]
    decide
  have hstep : ∀ x y r, crossesEdge nx 0 (x, b) (y, b) = true →
      stepLabels nx ny ((x, b) :: (y, b) :: r) = crossPos nx 0 (x, b) (y, b) :: stepLabels nx ny ((y, b) :: r) := by
    intro x y r h
    rw [stepLabels]
    simp [h, c3, coordOf, h0, h1]
  have hend : ∀ x, stepLabels nx ny [(x, b)] = [] := fun _ => rfl
  have hneg : -1 * nx ≤ 0 := by linarith
  constructor
  · unfold curveLabels
    rw [hstep _ _ _ c1, hstep _ _ _ c2, hend]
    simp [crossPos, coordOf]
  · unfold curveLabels
    rw [hstep _ _ _ c4, hend]
    simp only [crossPos, coordOf, if_true, if_pos hneg]
    simp

/-! ### Cases that meet the hypotheses -/

/-- A line that wraps around: cut once, both ends extended by twice the last step. -/
example : lineSegs (fun p q => |q.1 - p.1| + |q.2 - p.2|) 10 2
    [some (0, 0), some (1, 0), some (2, 0), some (3, 0), some (100, 0), some (101, 0), some (102, 0)]
    = [[some (0, 0), some (1, 0), some (2, 0), some (3, 0), some (5, 0)],
       [some (98, 0), some (100, 0), some (101, 0), some (102, 0)]] := by decide +kernel
/-- The same line with a point that is not a number is not cut. -/
example : lineSegs (fun p q => |q.1 - p.1| + |q.2 - p.2|) 10 2
    [some (0, 0), some (1, 0), none, some (3, 0), some (100, 0), some (101, 0), some (102, 0)]
    = [[some (0, 0), some (1, 0), none, some (3, 0), some (100, 0), some (101, 0), some (102, 0)]] := by decide +kernel
/-- Lines every 50 degrees: the last latitude is 110. -/
example : latLines 50 = [-90, -40, 10, 60, 110] := by decide +kernel
/-- Lines every 90 degrees of longitude: zero twice. -/
example : lonLines 90 false = [(0, 0), (90, 90), (180, -180), (270, -90), (360, 0)] := by decide +kernel
/-- A line entering and leaving an image of 10 by 10 pixels. -/
example : curveLabels 10 10 [(-1, 4), (3, 5), (8, 6), (12, 8)] = [(0, 17 / 4), (10, 7)] := by decide +kernel

end Pixell
