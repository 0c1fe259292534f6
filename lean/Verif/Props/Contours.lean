import Mathlib.Tactic.Linarith
import Mathlib.Tactic.FieldSimp
import Mathlib.Tactic.Ring
import Verif.Model.Contours
import Verif.Lemmas.Sort
import Verif.Props.SysText
import Verif.Props.ColorScheme

/-
Property C190: contours are at the levels asked for, and are drawn where the map crosses them.
-/
namespace Pixell

/-! ### Levels -/

/-- The levels of a uniform spacing in a range: all of them, in order. -/
structure UniformIn (c0 c1 base step : ℚ) (l : List ℚ) : Prop where
  mem : ∀ v, v ∈ l ↔ c0 ≤ v ∧ v ≤ c1 ∧ ∃ n : ℤ, v = base + n * step
  sorted : l.Pairwise (· < ·)

theorem uniform_levels (c0 c1 base step : ℚ) (hs : 0 < step) :
    UniformIn c0 c1 base step ((List.range (⌊(c1 - base) / step⌋ + 1 - ⌈(c0 - base) / step⌉).toNat).map
      fun (i : ℕ) => ((⌈(c0 - base) / step⌉ + i : ℤ) : ℚ) * step + base) := by
  constructor
  · intro v
    simp only [List.mem_map, List.mem_range]
    constructor
    · rintro ⟨i, hi, rfl⟩
      have h1 : ⌈(c0 - base) / step⌉ ≤ ⌈(c0 - base) / step⌉ + (i : ℤ) := by omega
      have h2 : ⌈(c0 - base) / step⌉ + (i : ℤ) ≤ ⌊(c1 - base) / step⌋ := by omega
      rw [Int.ceil_le, div_le_iff₀ hs] at h1
      rw [Int.le_floor, le_div_iff₀ hs] at h2
      exact ⟨by linarith, by linarith, ⌈(c0 - base) / step⌉ + i, by ring⟩
    · rintro ⟨h1, h2, n, rfl⟩
      have a : ⌈(c0 - base) / step⌉ ≤ n := by rw [Int.ceil_le, div_le_iff₀ hs]; linarith
      have b : n ≤ ⌊(c1 - base) / step⌋ := by rw [Int.le_floor, le_div_iff₀ hs]; linarith
      refine ⟨(n - ⌈(c0 - base) / step⌉).toNat, by omega, ?_⟩
      have : ⌈(c0 - base) / step⌉ + (((n - ⌈(c0 - base) / step⌉).toNat : ℕ) : ℤ) = n := by omega
      rw [this]; ring
  · rw [List.pairwise_map]
    refine List.pairwise_lt_range.imp ?_
    intro i j h
    have : (((⌈(c0 - base) / step⌉ + (i : ℤ) : ℤ)) : ℚ) < ((⌈(c0 - base) / step⌉ + (j : ℤ) : ℤ) : ℚ) := by
      exact_mod_cast (by omega : ⌈(c0 - base) / step⌉ + (i : ℤ) < ⌈(c0 - base) / step⌉ + (j : ℤ))
    nlinarith

theorem mapM_num {num : List Char → Option ℚ} : ∀ (l : List (List Char × ℚ)), (∀ p ∈ l, num p.1 = some p.2) →
    (l.map (·.1)).mapM num = some (l.map (·.2))
  | [], _ => rfl
  | p :: l, h => by
    have ih := mapM_num l (fun q hq => h q (by simp [hq]))
    simp only [List.map_cons, List.mapM_cons, h p (by simp), ih]
    rfl

/-- C190: the text "base:step" gives all values base+n*step in the range of colours, and a negative step means a fraction of the range. -/
theorem C190_uniform (num : List Char → Option ℚ) (c0 c1 b s : ℚ) (tb ts : List Char) (hb : num tb = some b) (hs : num ts = some s)
    (pb : PlainText tb) (ps : PlainText ts) (hne : 0 < s ∨ s < 0 ∧ c0 < c1) : ∃ l, calcContours num c0 c1 (tb ++ ':' :: ts) = some l ∧
      UniformIn c0 c1 b (if s < 0 then (c1 - c0) / (-s) else s) l := by
  have hpos : 0 < (if s < 0 then (c1 - c0) / (-s) else s) := by
    split_ifs with h
    · rcases hne with h' | h'
      · linarith
      · exact div_pos (by linarith) (by linarith)
    · rcases hne with h' | h'
      · exact h'
      · linarith [h'.1]
  refine ⟨_, ?_, uniform_levels c0 c1 b _ hpos⟩
  unfold calcContours
  rw [strSplit_word (w := tb ++ ':' :: ts) (by simp [pb.2, ps.2]), strSplit_join ts pb.1, strSplit_word ps.1]
  simp only [List.length_singleton, lt_irrefl, if_false]
  have := mapM_num (num := num) [(tb, b), (ts, s)] (by simp [hb, hs])
  simp only [List.map_cons, List.map_nil] at this
  rw [this]
  simp only [Option.bind_eq_bind, Option.bind_some, uniformLevels]
  rw [if_neg hpos.ne']

/-- Texts joined by commas. -/
def commaText : List (List Char) → List Char
  | [] => []
  | [w] => w
  | w :: v :: l => w ++ ',' :: commaText (v :: l)

theorem strSplit_comma : ∀ (l : List (List Char)), l ≠ [] → (∀ w ∈ l, ',' ∉ w) → strSplit ',' (commaText l) = l
  | [], h, _ => absurd rfl h
  | [w], _, h => strSplit_word (h w (by simp))
  | w :: v :: l, _, h => by
    have ih := strSplit_comma (v :: l) (by simp) (fun u hu => h u (by simp at hu ⊢; tauto))
    simp only [commaText]
    rw [strSplit_join _ (h w (by simp)), ih]

/-- C190: two or more numbers with commas between them are the levels, in this order, whatever the range; a comma at the end adds
nothing, so that "v," is the single level v. -/
theorem C190_list (num : List Char → Option ℚ) (c0 c1 : ℚ) (l : List (List Char × ℚ)) (h : ∀ p ∈ l, num p.1 = some p.2)
    (hp : ∀ p ∈ l, ',' ∉ p.1 ∧ p.1 ≠ []) :
    (2 ≤ l.length → calcContours num c0 c1 (commaText (l.map (·.1))) = some (l.map (·.2))) ∧
    (1 ≤ l.length → calcContours num c0 c1 (commaText (l.map (·.1) ++ [[]])) = some (l.map (·.2))) := by
  have hm : ∀ w ∈ l.map (·.1), ',' ∉ w := by
    intro w hw; obtain ⟨p, hp', rfl⟩ := List.mem_map.1 hw; exact (hp p hp').1
  have hf : (l.map (·.1)).filter (fun v => decide (0 < v.length)) = l.map (·.1) := by
    rw [List.filter_eq_self]
    intro w hw
    obtain ⟨p, hp', rfl⟩ := List.mem_map.1 hw
    exact decide_eq_true (List.length_pos_iff.2 (hp p hp').2)
  constructor
  · intro h2
    unfold calcContours
    rw [strSplit_comma _ (by intro e; simp at e; subst e; simp at h2) hm]
    simp only [List.length_map]
    rw [if_pos (by omega), hf, mapM_num l h]
  · intro h1
    unfold calcContours
    rw [strSplit_comma _ (by simp) (by
      intro w hw
      rcases List.mem_append.1 hw with h' | h'
      · exact hm w h'
      · simp at h'; subst h'; simp)]
    simp only [List.length_append, List.length_map, List.length_singleton]
    rw [if_pos (by omega), List.filter_append, hf]
    simp only [List.length_nil, lt_irrefl, decide_false, Bool.false_eq_true, not_false_eq_true, List.filter_cons_of_neg, List.filter_nil,
      List.append_nil]
    exact mapM_num l h

/-- C190 fails for a single level: a number alone gives all its multiples in the range of colours, zero among them, not the level. -/
theorem C190_single_refuted (num : List Char → Option ℚ) (c0 c1 s : ℚ) (t : List Char) (ht : num t = some s) (pt : PlainText t)
    (hs : 0 < s) : ∃ l, calcContours num c0 c1 t = some l ∧ UniformIn c0 c1 0 s l ∧ (c0 ≤ 0 → 0 ≤ c1 → 0 ∈ l ∧ l ≠ [s]) ∧
      (c1 < s → s ∉ l) := by
  have hu := uniform_levels c0 c1 0 s hs
  refine ⟨_, ?_, hu, ?_, ?_⟩
  · unfold calcContours
    rw [strSplit_word pt.2, strSplit_word pt.1]
    simp only [List.length_singleton, lt_irrefl, if_false]
    have := mapM_num (num := num) [(t, s)] (by simp [ht])
    simp only [List.map_cons, List.map_nil] at this
    rw [this]
    simp only [Option.bind_eq_bind, Option.bind_some, uniformLevels]
    rw [if_neg (by linarith : ¬ s < 0), if_neg hs.ne']
  · intro h0 h1
    have h0' := (hu.mem 0).2 ⟨h0, h1, 0, by simp⟩
    refine ⟨h0', fun e => ?_⟩
    rw [e] at h0'
    simp at h0'
    linarith
  · intro h hm
    have := (hu.mem s).1 hm
    linarith [this.2.1]

example : calcContours digitNum (-1) 9 "5".toList = some [0, 5] ∧ calcContours digitNum (-1) 9 "5,".toList = some [5] ∧
    calcContours digitNum 0 9 "1:4".toList = some [1, 5, 9] ∧ calcContours digitNum 0 9 "3,1".toList = some [3, 1] := by decide +kernel

/-! ### Where they are drawn -/

/-- The level l separates the values a and b. -/
def Separates (l a b : ℚ) : Prop := min a b < l ∧ l ≤ max a b

theorem contourBin_eq (vals : List ℚ) (v : ℚ) : contourBin vals (some v) = vals.findIdx (fun w => decide (v < w)) + 1 := by
  unfold contourBin
  cases vals with
  | nil => simp
  | cons w l =>
    simp only
    by_cases h : v < w
    · simp [h, List.findIdx_cons]
    · simp [h]

/-- The levels at or below a value are those before its bin. -/
theorem bin_spec (vals : List ℚ) (hs : vals.Pairwise (· ≤ ·)) (v : ℚ) (j : ℕ) (l : ℚ) (hj : vals[j]? = some l) :
    l ≤ v ↔ j + 1 < contourBin vals (some v) := by
  rw [contourBin_eq]
  obtain ⟨hjl, rfl⟩ := List.getElem?_eq_some_iff.1 hj
  constructor
  · intro h
    by_contra hc
    have hle : vals.findIdx (fun w => decide (v < w)) ≤ j := by omega
    have hlt : vals.findIdx (fun w => decide (v < w)) < vals.length := by omega
    have hp := List.findIdx_getElem (w := hlt)
    simp only [decide_eq_true_eq] at hp
    rcases eq_or_lt_of_le hle with e | e
    · have : vals[vals.findIdx (fun w => decide (v < w))] = vals[j] := by congr 1
      linarith
    · have := List.pairwise_iff_getElem.1 hs _ j hlt hjl e
      linarith
  · intro h
    have := List.not_of_lt_findIdx (p := fun w => decide (v < w)) (xs := vals) (i := j) (by omega)
    simpa using this

theorem bin_le (vals : List ℚ) (v : ℚ) : 1 ≤ contourBin vals (some v) ∧ contourBin vals (some v) ≤ vals.length + 1 := by
  rw [contourBin_eq]
  have := List.findIdx_le_length (p := fun w => decide (v < w)) (xs := vals)
  omega

/-- The lower of two different bins is the number of the lowest level that separates the values. -/
theorem bin_separates (vals : List ℚ) (hs : vals.Pairwise (· ≤ ·)) (a b : ℚ)
    (h : contourBin vals (some a) ≠ contourBin vals (some b)) :
    ∃ k l, min (contourBin vals (some a)) (contourBin vals (some b)) = k + 1 ∧ vals[k]? = some l ∧ Separates l a b ∧
      ∀ j l', j < k → vals[j]? = some l' → ¬ Separates l' a b := by
  have ha := bin_le vals a
  have hb := bin_le vals b
  have key : ∀ a b : ℚ, contourBin vals (some a) < contourBin vals (some b) → contourBin vals (some b) ≤ vals.length + 1 →
      1 ≤ contourBin vals (some a) → ∃ k l, contourBin vals (some a) = k + 1 ∧ vals[k]? = some l ∧ a < l ∧ l ≤ b ∧
        ∀ j l', j < k → vals[j]? = some l' → l' ≤ a ∧ l' ≤ b := by
    intro a b hab hbl ha1
    have hk : contourBin vals (some a) - 1 < vals.length := by omega
    refine ⟨contourBin vals (some a) - 1, vals[contourBin vals (some a) - 1], by omega, List.getElem?_eq_getElem hk, ?_, ?_, ?_⟩
    · by_contra hc
      have := (bin_spec vals hs a _ _ (List.getElem?_eq_getElem hk)).1 (not_lt.1 hc)
      omega
    · exact (bin_spec vals hs b _ _ (List.getElem?_eq_getElem hk)).2 (by omega)
    · intro j l' hj hl'
      exact ⟨(bin_spec vals hs a j l' hl').2 (by omega), (bin_spec vals hs b j l' hl').2 (by omega)⟩
  rcases lt_or_gt_of_ne h with hab | hab
  · obtain ⟨k, l, h1, h2, h3, h4, h5⟩ := key a b hab hb.2 ha.1
    refine ⟨k, l, by omega, h2, ⟨min_lt_of_left_lt h3, le_max_of_le_right h4⟩, fun j l' hj hl' hsep => ?_⟩
    have := h5 j l' hj hl'
    exact absurd hsep.1 (not_lt.2 (le_min this.1 this.2))
  · obtain ⟨k, l, h1, h2, h3, h4, h5⟩ := key b a hab ha.2 hb.1
    refine ⟨k, l, by omega, h2, ⟨min_lt_of_right_lt h3, le_max_of_le_left h4⟩, fun j l' hj hl' hsep => ?_⟩
    have := h5 j l' hj hl'
    exact absurd hsep.1 (not_lt.2 (le_min this.2 this.1))

theorem bin_same (vals : List ℚ) (hs : vals.Pairwise (· ≤ ·)) (a b : ℚ)
    (h : contourBin vals (some a) = contourBin vals (some b)) (l : ℚ) (hl : l ∈ vals) : ¬ Separates l a b := by
  obtain ⟨j, hj, rfl⟩ := List.mem_iff_getElem.1 hl
  have h1 := bin_spec vals hs a j _ (List.getElem?_eq_getElem hj)
  have h2 := bin_spec vals hs b j _ (List.getElem?_eq_getElem hj)
  rw [h] at h1
  rintro ⟨s1, s2⟩
  by_cases hc : j + 1 < contourBin vals (some b)
  · exact absurd s1 (not_lt.2 (le_min (h1.2 hc) (h2.2 hc)))
  · have a1 : ¬ (vals[j] ≤ a) := fun e => hc (h1.1 e)
    have a2 : ¬ (vals[j] ≤ b) := fun e => hc (h2.1 e)
    exact absurd s2 (not_le.2 (max_lt (not_le.1 a1) (not_le.1 a2)))

/-- C190: away from the last row and column and from NaN, a pixel gets the number of a level that separates it from the next pixel in one
of the directions, the lowest such level for this direction; and gets none only if no level separates it from either. -/
theorem C190_drawn_partial (vals : List ℚ) (hs : vals.Pairwise (· ≤ ·)) (ny nx : ℕ) (m : ℕ → ℕ → Option ℚ) (y x : ℕ)
    (hy : y + 1 < ny) (hx : x + 1 < nx) (a b c : ℚ) (ha : m y x = some a) (hb : m (y + 1) x = some b) (hc : m y (x + 1) = some c) :
    (findContours vals ny nx m y x = 0 ∧ ∀ l ∈ vals, ¬ Separates l a b ∧ ¬ Separates l a c) ∨
    ∃ k l d, findContours vals ny nx m y x = k + 1 ∧ vals[k]? = some l ∧ (d = b ∨ d = c) ∧ Separates l a d ∧
      ∀ j l', j < k → vals[j]? = some l' → ¬ Separates l' a d := by
  unfold findContours
  simp only [ha, hb, hc]
  rw [if_pos ⟨hy, hx⟩]
  split_ifs with h1 h2
  · right
    obtain ⟨k, l, e, hl, hsep, hlow⟩ := bin_separates vals hs a b h1
    exact ⟨k, l, b, e, hl, Or.inl rfl, hsep, hlow⟩
  · right
    obtain ⟨k, l, e, hl, hsep, hlow⟩ := bin_separates vals hs a c h2
    exact ⟨k, l, c, e, hl, Or.inr rfl, hsep, hlow⟩
  · left
    exact ⟨rfl, fun l hl => ⟨bin_same vals hs a b (not_not.1 h1) l hl, bin_same vals hs a c (not_not.1 h2) l hl⟩⟩

theorem filterMap_getElem? {α : Type} (l : List α) : ∀ (inds : List ℕ), (∀ i ∈ inds, i < l.length) →
    ∀ (k : ℕ), (inds.filterMap fun (i : ℕ) => l[i]?)[k]? = inds[k]? >>= fun i => l[i]?
  | [], _, k => by simp
  | i :: inds, h, k => by
    have hi : l[i]? = some (l[i]'(h i (by simp))) := List.getElem?_eq_getElem (h i (by simp))
    rw [List.filterMap_cons_some hi]
    cases k with
    | zero => simp [hi]
    | succ k =>
      simp only [List.getElem?_cons_succ]
      exact filterMap_getElem? l inds (fun j hj => h j (by simp [hj])) k

/-- C190: levels can be given in any order: what is drawn has the colour of the place of its level in the list, the first one 0 and
the last one 1. -/
theorem C190_colour_partial (contours : List ℚ) (ny nx : ℕ) (m : ℕ → ℕ → Option ℚ) (y x : ℕ)
    (hy : y + 1 < ny) (hx : x + 1 < nx) (a b c : ℚ) (ha : m y x = some a) (hb : m (y + 1) x = some b) (hc : m y (x + 1) = some c) :
    (drawContours contours ny nx m y x = none ∧ ∀ l ∈ contours, ¬ Separates l a b ∧ ¬ Separates l a c) ∨
    ∃ (i : ℕ) (l : ℚ), contours[i]? = some l ∧ (Separates l a b ∨ Separates l a c) ∧
      drawContours contours ny nx m y x = some (if 1 < contours.length then (i : ℚ) / ((contours.length : ℚ) - 1) else 0) := by
  let le := fun (a b : ℚ) => decide (a ≤ b)
  have hlt : ∀ i ∈ argsort le contours, i < contours.length := fun i hi => (mem_argsort le contours i).1 hi
  have hget := filterMap_getElem? contours (argsort le contours) hlt
  have hsorted : ((argsort le contours).filterMap fun (i : ℕ) => contours[i]?).Pairwise (· ≤ ·) := by
    rw [List.pairwise_filterMap]
    refine (argsort_sorted le (by intro a b c; simp only [le, decide_eq_true_eq]; exact le_trans)
      (by intro a b; simp only [le, decide_eq_true_eq]; exact le_total a b) contours).imp ?_
    intro i j h u hu v hv
    have := h u v hu hv
    simpa [le] using this
  have hmem : ∀ l, l ∈ contours ↔ l ∈ ((argsort le contours).filterMap fun (i : ℕ) => contours[i]?) := by
    intro l
    rw [List.mem_filterMap]
    constructor
    · intro h
      obtain ⟨i, hi⟩ := List.mem_iff_getElem?.1 h
      exact ⟨i, (mem_argsort le contours i).2 (List.getElem?_eq_some_iff.1 hi).1, hi⟩
    · rintro ⟨i, _, hi⟩; exact List.mem_of_getElem? hi
  rcases C190_drawn_partial _ hsorted ny nx m y x hy hx a b c ha hb hc with ⟨h0, hn⟩ | ⟨k, l, d, hk, hl, hd, hsep, -⟩
  · left
    refine ⟨?_, fun l hl => hn l ((hmem l).1 hl)⟩
    unfold drawContours
    simp only
    rw [if_pos h0]
  · right
    rw [hget k] at hl
    simp only [Option.bind_eq_bind, Option.bind_eq_some_iff] at hl
    obtain ⟨i, hi, hil⟩ := hl
    refine ⟨i, l, hil, by rcases hd with rfl | rfl <;> simp [hsep], ?_⟩
    have hi0 : i < contours.length := (List.getElem?_eq_some_iff.1 hil).1
    have hv : (if 1 < contours.length then (i : ℚ) / ((contours.length : ℚ) - 1) else 0) =
        if 1 < contours.length then (i : ℚ) / ((contours.length : ℚ) - 1) else i := by
      split_ifs with h1
      · rfl
      · have : i = 0 := by omega
        rw [this]; rfl
    rw [hv]
    unfold drawContours
    simp only
    rw [hk, if_neg (by omega)]
    simp only [Nat.add_sub_cancel]
    rw [hi]

example : drawContours [3, 1, 2] 2 2 (fun y x => some ((y + 2 * x : ℕ) : ℚ)) 0 0 = some (1 / 2) ∧
    drawContours [5, 1] 2 2 (fun y _ => some (y : ℚ)) 0 0 = some 1 := by decide +kernel

/-- C190 fails in the last row and column, where no contour is drawn whatever the map; so a map of one row or one column has none. -/
theorem C190_edge_refuted (vals : List ℚ) (ny nx : ℕ) (m : ℕ → ℕ → Option ℚ) :
    (∀ x, findContours vals ny nx m (ny - 1) x = 0) ∧ (∀ y, findContours vals ny nx m y (nx - 1) = 0) := by
  constructor
  · intro x; unfold findContours; simp only; rw [if_neg (by omega)]
  · intro y; unfold findContours; simp only; rw [if_neg (by omega)]

/-- C190 fails for steep maps: where the next pixel is beyond several levels, only the lowest is drawn, whatever the others; and a level
crossed in one direction is not drawn if another one is crossed in the other. -/
theorem C190_steep_refuted (l1 : ℚ) (rest : List ℚ) (hs : (l1 :: rest).Pairwise (· < ·)) (hr : rest ≠ []) (a : ℚ) (ha : a < l1) :
    (∃ b, (∀ l ∈ l1 :: rest, Separates l a b) ∧
      findContours (l1 :: rest) 2 2 (fun y _ => if y = 0 then some a else some b) 0 0 = 1) ∧
    ∃ b c, (∃ l ∈ rest, Separates l a c) ∧ (∀ l ∈ rest, ¬ Separates l a b) ∧
      findContours (l1 :: rest) 2 2 (fun y x => if y = 0 then (if x = 0 then some a else some c) else some b) 0 0 = 1 := by
  have hle : (l1 :: rest).Pairwise (· ≤ ·) := hs.imp le_of_lt
  obtain ⟨l2, rest', rfl⟩ := List.exists_cons_of_ne_nil hr
  have h12 : l1 < l2 := (List.pairwise_cons.1 hs).1 l2 (by simp)
  have h0 : contourBin (l1 :: l2 :: rest') (some a) = 1 := by simp [contourBin, ha]
  -- a value at or above all levels
  obtain ⟨b, hb⟩ : ∃ b : ℚ, ∀ l ∈ l1 :: l2 :: rest', l ≤ b := by
    refine ⟨(l1 :: l2 :: rest').getLast (by simp), fun l hl => ?_⟩
    obtain ⟨i, hi, rfl⟩ := List.mem_iff_getElem.1 hl
    rw [List.getLast_eq_getElem]
    rcases eq_or_lt_of_le (show i ≤ (l1 :: l2 :: rest').length - 1 by omega) with e | e
    · subst e; exact le_refl _
    · exact List.pairwise_iff_getElem.1 hle _ _ _ _ e
  have hge : ∀ v, l1 ≤ v → contourBin (l1 :: l2 :: rest') (some v) ≥ 2 := by
    intro v hv
    have := (bin_spec _ hle v 0 l1 rfl).1 hv
    omega
  have low : ∀ l ∈ l1 :: l2 :: rest', l1 ≤ l := by
    intro l hl
    rcases List.mem_cons.1 hl with rfl | h
    · exact le_refl _
    · exact ((List.pairwise_cons.1 hs).1 l h).le
  refine ⟨⟨b, fun l hl => ⟨min_lt_of_left_lt (by linarith [low l hl]), le_max_of_le_right (hb l hl)⟩, ?_⟩, l1, b, ?_, ?_, ?_⟩
  · have := hge b (hb l1 (by simp))
    unfold findContours
    simp only [zero_add, Nat.one_lt_ofNat, and_self, if_true, one_ne_zero, if_false, h0]
    rw [if_pos (by omega)]; omega
  · exact ⟨l2, by simp, min_lt_of_left_lt (by linarith), le_max_of_le_right (hb l2 (by simp))⟩
  · intro l hl hsep
    have h1l := (List.pairwise_cons.1 hs).1 l hl
    have := hsep.2
    rw [max_eq_right ha.le] at this
    linarith
  · have := hge l1 (le_refl _)
    unfold findContours
    simp only [zero_add, Nat.one_lt_ofNat, and_self, if_true, one_ne_zero, if_false, h0]
    rw [if_pos (by omega)]; omega

/-- C190 fails at NaN, which counts as lower than all levels: the first contour is drawn along its edge wherever the map is at or above the
first level. -/
theorem C190_nan_refuted (l1 : ℚ) (rest : List ℚ) (hs : (l1 :: rest).Pairwise (· ≤ ·)) (v : ℚ) (hv : l1 ≤ v) (ny nx : ℕ)
    (m : ℕ → ℕ → Option ℚ) (y x : ℕ) (hy : y + 1 < ny) (hx : x + 1 < nx) (h0 : m y x = none) (h1 : m (y + 1) x = some v) :
    findContours (l1 :: rest) ny nx m y x = 1 := by
  have := (bin_spec _ hs v 0 l1 rfl).1 hv
  have hb : contourBin (l1 :: rest) none = 1 := rfl
  unfold findContours
  simp only [h0, h1, hb]
  rw [if_pos ⟨hy, hx⟩, if_pos (by omega)]
  omega

end Pixell
