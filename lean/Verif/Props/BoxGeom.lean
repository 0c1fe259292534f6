import Verif.Model.BoxGeom
import Mathlib.Tactic.Linarith
import Mathlib.Tactic.FieldSimp
import Mathlib.Tactic.Ring
import Mathlib.Tactic.NormNum
import Mathlib.Data.Nat.Bitwise
import Mathlib.Tactic.FinCases

/-
Properties C113 (boxes) and C114 (unwrapping of ranges).
-/
namespace Pixell

/-! ### Bounding boxes -/

theorem foldl_min_spec (l : List ℚ) (x : ℚ) : (∀ y ∈ x :: l, l.foldl min x ≤ y) ∧ l.foldl min x ∈ x :: l := by
  induction l generalizing x with
  | nil => simp
  | cons a l ih =>
    obtain ⟨h1, h2⟩ := ih (min x a)
    rw [List.foldl_cons]
    constructor
    · intro y hy
      have hm := h1 (min x a) (by simp)
      rcases List.mem_cons.1 hy with rfl | hy
      · exact hm.trans (min_le_left _ _)
      rcases List.mem_cons.1 hy with rfl | hy
      · exact hm.trans (min_le_right _ _)
      · exact h1 y (List.mem_cons_of_mem _ hy)
    · rcases List.mem_cons.1 h2 with h | h
      · rw [h]
        rcases min_choice x a with h | h <;> rw [h] <;> simp
      · exact List.mem_cons_of_mem _ (List.mem_cons_of_mem _ h)

theorem foldl_max_spec (l : List ℚ) (x : ℚ) : (∀ y ∈ x :: l, y ≤ l.foldl max x) ∧ l.foldl max x ∈ x :: l := by
  induction l generalizing x with
  | nil => simp
  | cons a l ih =>
    obtain ⟨h1, h2⟩ := ih (max x a)
    rw [List.foldl_cons]
    constructor
    · intro y hy
      have hm := h1 (max x a) (by simp)
      rcases List.mem_cons.1 hy with rfl | hy
      · exact (le_max_left _ _).trans hm
      rcases List.mem_cons.1 hy with rfl | hy
      · exact (le_max_right _ _).trans hm
      · exact h1 y (List.mem_cons_of_mem _ hy)
    · rcases List.mem_cons.1 h2 with h | h
      · rw [h]
        rcases max_choice x a with h | h <;> rw [h] <;> simp
      · exact List.mem_cons_of_mem _ (List.mem_cons_of_mem _ h)

theorem colMin_spec {l : List ℚ} (h : l ≠ []) : ∃ m, colMin l = some m ∧ m ∈ l ∧ ∀ y ∈ l, m ≤ y := by
  cases l with
  | nil => exact absurd rfl h
  | cons x xs => exact ⟨_, rfl, (foldl_min_spec xs x).2, (foldl_min_spec xs x).1⟩

theorem colMax_spec {l : List ℚ} (h : l ≠ []) : ∃ m, colMax l = some m ∧ m ∈ l ∧ ∀ y ∈ l, y ≤ m := by
  cases l with
  | nil => exact absurd rfl h
  | cons x xs => exact ⟨_, rfl, (foldl_max_spec xs x).2, (foldl_max_spec xs x).1⟩

/-- C113: the bounding box of points contains them all, and lies in every box that does. -/
theorem C113_bounding_points (pts : List ℚ) (h : pts ≠ []) :
    ∃ lo hi, boundingBoxPoints pts = some (lo, hi) ∧ (∀ x ∈ pts, lo ≤ x ∧ x ≤ hi) ∧
      ∀ lo' hi', (∀ x ∈ pts, lo' ≤ x ∧ x ≤ hi') → lo' ≤ lo ∧ hi ≤ hi' := by
  obtain ⟨a, ha, ham, hal⟩ := colMin_spec h
  obtain ⟨b, hb, hbm, hbl⟩ := colMax_spec h
  refine ⟨a, b, by unfold boundingBoxPoints; rw [ha, hb]; rfl, fun x hx => ⟨hal x hx, hbl x hx⟩, ?_⟩
  intro lo' hi' h'
  exact ⟨(h' a ham).1, (h' b hbm).2⟩

example : boundingBoxPoints [3, 1, 2] = some (1, 3) := by decide +kernel

/-- C113: the bounding box of ascending boxes contains them all, and lies in every box that does. -/
theorem C113_bounding_boxes_partial (boxes : List (ℚ × ℚ)) (h : boxes ≠ []) (hord : ∀ b ∈ boxes, b.1 ≤ b.2) :
    ∃ lo hi, boundingBoxBoxes boxes = some (lo, hi) ∧ (∀ b ∈ boxes, ∀ x, b.1 ≤ x → x ≤ b.2 → lo ≤ x ∧ x ≤ hi) ∧
      ∀ lo' hi', (∀ b ∈ boxes, ∀ x, b.1 ≤ x → x ≤ b.2 → lo' ≤ x ∧ x ≤ hi') → lo' ≤ lo ∧ hi ≤ hi' := by
  obtain ⟨a, ha, ham, hal⟩ := colMin_spec (l := boxes.map Prod.fst) (by simpa using h)
  obtain ⟨b, hb, hbm, hbl⟩ := colMax_spec (l := boxes.map Prod.snd) (by simpa using h)
  refine ⟨a, b, by unfold boundingBoxBoxes; rw [ha, hb]; rfl, ?_, ?_⟩
  · intro c hc x h1 h2
    exact ⟨(hal _ (List.mem_map_of_mem hc)).trans h1, h2.trans (hbl _ (List.mem_map_of_mem hc))⟩
  · intro lo' hi' h'
    obtain ⟨c, hc, rfl⟩ := List.mem_map.1 ham
    obtain ⟨e, he, rfl⟩ := List.mem_map.1 hbm
    exact ⟨(h' c hc c.1 (le_refl _) (hord c hc)).1, (h' e he e.2 (hord e he) (le_refl _)).2⟩

example : boundingBoxBoxes [(3, 5), (1, 2)] = some (1, 5) := by decide +kernel

/-- C113 fails for descending boxes (as those of right ascension): the bounding box of [3,1] and [6,5] is [3,5], which
contains neither. -/
theorem C113_bounding_refuted : boundingBoxBoxes [(3, 1), (6, 5)] = some (3, 5) ∧ boundingBoxBoxes [] = none := by
  constructor
  · decide +kernel
  · rfl

/-! ### Corners -/

/-- A number below `2^d` with the given bits. -/
theorem exists_bits (d : Nat) (c : Fin d → Bool) : ∃ i < 2 ^ d, ∀ b : Fin d, i.testBit b = c b := by
  induction d with
  | zero => exact ⟨0, by simp, fun b => b.elim0⟩
  | succ d ih =>
    obtain ⟨i, hi, hb⟩ := ih fun b => c b.castSucc
    refine ⟨i + 2 ^ d * (c (Fin.last d)).toNat, ?_, ?_⟩
    · rw [pow_succ]; cases c (Fin.last d) <;> simp <;> omega
    · intro b
      induction b using Fin.lastCases with
      | last =>
        rw [Fin.val_last, add_comm, Nat.testBit_two_pow_mul_add _ hi, if_neg (by omega)]
        cases c (Fin.last d) <;> simp
      | cast b =>
        rw [Fin.val_castSucc, add_comm, Nat.testBit_two_pow_mul_add _ hi, if_pos b.2, hb b]

/-- C113: box2corners lists 2^ndim points; for each choice of a side in every dimension there is exactly one index with that
corner. -/
theorem C113_corners {d : Nat} (b : GBox d) :
    (box2corners b).length = 2 ^ d ∧ (∀ c : Fin d → Bool, (fun k => if c k then b.hi k else b.lo k) ∈ box2corners b) ∧
    (∀ p ∈ box2corners b, ∀ k, p k = b.lo k ∨ p k = b.hi k) ∧ ((∀ k, b.lo k ≠ b.hi k) → (box2corners b).Nodup) := by
  refine ⟨by simp [box2corners], ?_, ?_, ?_⟩
  · intro c
    obtain ⟨i, hi, hb⟩ := exists_bits d c
    refine List.mem_map.2 ⟨i, List.mem_range.2 hi, ?_⟩
    funext k
    rw [hb k]
  · intro p hp k
    obtain ⟨i, _, rfl⟩ := List.mem_map.1 hp
    by_cases h : i.testBit k
    · right; simp [h]
    · left; simp [h]
  · intro hne
    refine List.Nodup.map_on ?_ List.nodup_range
    intro x hx y hy hxy
    apply Nat.eq_of_testBit_eq
    intro k
    rcases Nat.lt_or_ge k d with hk | hk
    · have := congrFun hxy ⟨k, hk⟩
      simp only [] at this
      have hn := hne ⟨k, hk⟩
      cases hx' : x.testBit k <;> cases hy' : y.testBit k <;> simp [hx', hy'] at this ⊢
      · exact hn this
      · exact hn this.symm
    · have hle : 2 ^ d ≤ 2 ^ k := Nat.pow_le_pow_right (by norm_num) hk
      rw [Nat.testBit_lt_two_pow (lt_of_lt_of_le (List.mem_range.1 hx) hle), Nat.testBit_lt_two_pow (lt_of_lt_of_le (List.mem_range.1 hy) hle)]

example : box2corners (d := 2) ⟨![0, 10], ![1, 20]⟩ = [![0, 10], ![1, 10], ![0, 20], ![1, 20]] := by
  simp only [box2corners, show List.range (2 ^ 2) = [0, 1, 2, 3] from rfl, List.map_cons, List.map_nil]
  congr 1 <;> [skip; congr 1 <;> [skip; congr 1 <;> [skip; congr 1]]] <;>
  · funext k
    fin_cases k <;> rfl

/-- C113: all points of the contour lie on edges of the box: all coordinates but one are at a side of the box, and the
other one between the sides. -/
theorem C113_contour_on_edge {d : Nat} (b : GBox d) (hord : ∀ k, b.lo k ≤ b.hi k) (n : Nat) (hn : 2 ≤ n) (p : Fin d → ℚ) (hp : p ∈ box2contour b n) :
    ∃ i, (b.lo i ≤ p i ∧ p i ≤ b.hi i) ∧ ∀ k, k ≠ i → p k = b.lo k ∨ p k = b.hi k := by
  unfold box2contour at hp
  obtain ⟨i, _, hp⟩ := List.mem_flatMap.1 hp
  obtain ⟨j, _, hp⟩ := List.mem_flatMap.1 hp
  obtain ⟨x, hx, rfl⟩ := List.mem_map.1 hp
  obtain ⟨t, ht, rfl⟩ := List.mem_map.1 hx
  refine ⟨i, ?_, ?_⟩
  · have htn : (t : ℚ) ≤ n - 1 := by
      have h : t + 1 ≤ n := List.mem_range.1 ht
      have : ((t + 1 : Nat) : ℚ) ≤ n := by exact_mod_cast h
      push_cast at this; linarith
    have hn1 : (0 : ℚ) < n - 1 := by
      have : (2 : ℚ) ≤ n := by exact_mod_cast hn
      linarith
    have h0 : (0 : ℚ) ≤ (t : ℚ) / (n - 1) := by positivity
    have h1 : (t : ℚ) / (n - 1) ≤ 1 := (div_le_one hn1).2 htn
    have hd : 0 ≤ b.hi i - b.lo i := by have := hord i; linarith
    simp only [if_true]
    rw [mul_div_assoc]
    generalize (t : ℚ) / (n - 1) = y at *
    constructor <;> nlinarith
  · intro k hk
    simp only [if_neg hk]
    by_cases h : j.testBit k
    · right; simp [h]
    · left; simp [h]

/-- C113: all corners belong to the contour. -/
theorem C113_contour_corners {d : Nat} (b : GBox d) (n : Nat) (hn : 2 ≤ n) (hd : 0 < d) (c : Fin d → Bool) :
    (fun k => if c k then b.hi k else b.lo k) ∈ box2contour b n := by
  unfold box2contour
  let i : Fin d := ⟨0, hd⟩
  obtain ⟨j, hj, hb⟩ := exists_bits d (Function.update c i false)
  refine List.mem_flatMap.2 ⟨i, List.mem_finRange i, List.mem_flatMap.2 ⟨j, ?_, ?_⟩⟩
  · rw [List.mem_filter]
    exact ⟨List.mem_range.2 hj, by rw [hb i]; simp⟩
  refine List.mem_map.2 ⟨if c i then b.hi i else b.lo i, ?_, ?_⟩
  · have hn1 : (n : ℚ) - 1 ≠ 0 := by
      have : (2 : ℚ) ≤ n := by exact_mod_cast hn
      intro h; linarith
    unfold linspaceQ
    by_cases h : c i = true
    · refine List.mem_map.2 ⟨n - 1, List.mem_range.2 (by omega), ?_⟩
      rw [if_pos h, Nat.cast_sub (by omega)]; push_cast; field_simp; ring
    · refine List.mem_map.2 ⟨0, List.mem_range.2 (by omega), ?_⟩
      rw [if_neg h]; push_cast; ring
  · funext k
    by_cases hk : k = i
    · rw [if_pos hk, hk]
    · rw [if_neg hk, hb k, Function.update_of_ne hk]

/-- C113: the documentation says that box2contour with two points for each edge equals box2corners; it has twice as many
points in two dimensions. -/
theorem C113_contour_refuted (b : GBox 2) : (box2contour b 2).length = 8 ∧ (box2corners b).length = 4 := by
  constructor <;> rfl

/-! ### Overlaps -/

/-- C113: the overlap of two boxes in two dimensions, the first one ascending in both, is the product of the lengths of the
intersections. -/
theorem C113_overlap_partial (a b : GBox 2) (ha : ∀ i, a.lo i ≤ a.hi i) (hb : ∀ i, b.lo i ≤ b.hi i) :
    boxOverlap a b = some (∏ i, max 0 (min (a.hi i) (b.hi i) - max (a.lo i) (b.lo i))) := by
  unfold boxOverlap boxSlice boxArea
  rw [if_pos rfl, Option.map_some]
  congr 1
  have key : ∀ i, min (max 0 (b.hi i - a.lo i)) (a.hi i - a.lo i) - min (max 0 (b.lo i - a.lo i)) (a.hi i - a.lo i) =
      max 0 (min (a.hi i) (b.hi i) - max (a.lo i) (b.lo i)) := by
    intro i
    have h1 := ha i
    have h2 := hb i
    generalize a.lo i = p at *
    generalize a.hi i = q at *
    generalize b.lo i = r at *
    generalize b.hi i = s at *
    rcases le_or_gt q r with h3 | h3
    · rw [min_eq_right ((by linarith : q - p ≤ s - p).trans (le_max_right _ _)), min_eq_right ((by linarith : q - p ≤ r - p).trans (le_max_right _ _)), sub_self,
        max_eq_left]
      have := min_le_left q s
      have := le_max_right p r
      linarith
    rcases le_or_gt s p with h4 | h4
    · rw [max_eq_left (by linarith : s - p ≤ 0), max_eq_left (by linarith : r - p ≤ 0), sub_self, max_eq_left]
      have := min_le_right q s
      have := le_max_left p r
      linarith
    have e1 : min (max 0 (r - p)) (q - p) = max p r - p := by
      rw [min_eq_left (max_le (by linarith) (by linarith))]
      rcases le_total p r with h | h
      · rw [max_eq_right h, max_eq_right (by linarith)]
      · rw [max_eq_left h, max_eq_left (by linarith)]; ring
    have e2 : min (max 0 (s - p)) (q - p) = min q s - p := by
      rw [max_eq_right (by linarith)]
      rcases le_total q s with h | h
      · rw [min_eq_left h, min_eq_right (by linarith)]
      · rw [min_eq_right h, min_eq_left (by linarith)]
    rw [e1, e2, max_eq_right (a := 0)]
    · ring
    · have := max_le h1 h3.le
      have := max_le h4.le h2
      rcases le_total q s with h | h
      · rw [min_eq_left h]; linarith
      · rw [min_eq_right h]; linarith
  simp only [key]
  exact abs_of_nonneg (Finset.prod_nonneg fun i _ => le_max_left _ _)

/-- C113: for ascending boxes the overlap is symmetric, and that of a box with itself is its area. -/
theorem C113_overlap_symm_partial (a b : GBox 2) (ha : ∀ i, a.lo i ≤ a.hi i) (hb : ∀ i, b.lo i ≤ b.hi i) :
    boxOverlap a b = boxOverlap b a ∧ boxOverlap a a = some (boxArea a) := by
  rw [C113_overlap_partial a b ha hb, C113_overlap_partial b a hb ha, C113_overlap_partial a a ha ha]
  constructor
  · simp only [min_comm, max_comm]
  · unfold boxArea
    rw [abs_of_nonneg (Finset.prod_nonneg fun i _ => by have := ha i; linarith)]
    congr 1
    refine Finset.prod_congr rfl fun i _ => ?_
    rw [min_self, max_self, max_eq_right]; have := ha i; linarith

example : boxOverlap (d := 2) ⟨![2, 5], ![10, 10]⟩ ⟨![0, 0], ![5, 7]⟩ = some 6 := by
  simp [boxOverlap, boxSlice, boxArea]
  norm_num

/-- C113 fails when the first box descends in some dimension: the overlap is zero with every box, also with itself. -/
theorem C113_overlap_refuted (a b : GBox 2) (i : Fin 2) (h : a.hi i < a.lo i) : boxOverlap a b = some 0 := by
  unfold boxOverlap boxSlice boxArea
  rw [if_pos rfl, Option.map_some]
  congr 1
  rw [abs_eq_zero]
  apply Finset.prod_eq_zero (Finset.mem_univ i)
  simp only []
  rw [min_eq_right, min_eq_right, sub_self]
  · exact (by linarith : a.hi i - a.lo i ≤ 0).trans (le_max_left _ _)
  · exact (by linarith : a.hi i - a.lo i ≤ 0).trans (le_max_left _ _)

/-- Documented for boxes of any dimension, but only two dimensions are possible. -/
theorem C113_overlap_ndim_refuted {d : Nat} (hd : d ≠ 2) (a b : GBox d) : boxOverlap a b = none := by
  unfold boxOverlap boxSlice; rw [if_neg hd]; rfl

/-! ### Padding -/

/-- C113: pad_box moves both sides outwards by the padding in every dimension of nonzero width, ascending or descending. -/
theorem C113_pad_partial {d : Nat} (b : GBox d) (p : Fin d → ℚ) (i : Fin d) (hne : b.lo i ≠ b.hi i) :
    min ((padBox b p).lo i) ((padBox b p).hi i) = min (b.lo i) (b.hi i) - p i ∧ max ((padBox b p).lo i) ((padBox b p).hi i) = max (b.lo i) (b.hi i) + p i ∨
    2 * p i < -|b.hi i - b.lo i| := by
  by_cases hbig : 2 * p i < -|b.hi i - b.lo i|
  · right; exact hbig
  left
  rw [not_lt] at hbig
  unfold padBox signQ
  simp only []
  rcases lt_or_gt_of_ne hne with h | h
  · rw [if_neg (by linarith), if_neg (by intro h0; linarith)]
    rw [abs_of_pos (by linarith)] at hbig
    rw [min_eq_left (by linarith), min_eq_left h.le, max_eq_right (by linarith), max_eq_right h.le]
    constructor <;> ring
  · rw [if_pos (by linarith)]
    rw [abs_of_neg (by linarith)] at hbig
    rw [min_eq_right (by linarith), min_eq_right h.le, max_eq_left (by linarith), max_eq_left h.le]
    constructor <;> ring

/-- C113: pad_box keeps the direction of every dimension, and padding twice is padding by the sum. -/
theorem C113_pad_twice {d : Nat} (b : GBox d) (p q : Fin d → ℚ) (hp : ∀ i, 0 ≤ p i) :
    padBox (padBox b p) q = padBox b (fun i => p i + q i) := by
  have key : ∀ i, signQ ((padBox b p).hi i - (padBox b p).lo i) = signQ (b.hi i - b.lo i) := by
    intro i
    have h := hp i
    show signQ (b.hi i + p i * signQ (b.hi i - b.lo i) - (b.lo i - p i * signQ (b.hi i - b.lo i))) = _
    generalize hx : b.hi i - b.lo i = x
    have e : b.hi i + p i * signQ x - (b.lo i - p i * signQ x) = x + 2 * p i * signQ x := by rw [← hx]; ring
    rw [e]
    rcases lt_trichotomy x 0 with h0 | h0 | h0
    · have e1 : signQ x = -1 := by unfold signQ; rw [if_pos h0]
      rw [e1]; unfold signQ; rw [if_pos (by linarith)]
    · have e1 : signQ x = 0 := by unfold signQ; rw [h0]; simp
      rw [e1, mul_zero, add_zero, e1]
    · have e1 : signQ x = 1 := by unfold signQ; rw [if_neg (by linarith), if_neg h0.ne']
      rw [e1]; unfold signQ; rw [if_neg (by linarith), if_neg (by intro h1; linarith)]
  ext i
  · show b.lo i - p i * _ - q i * signQ ((padBox b p).hi i - (padBox b p).lo i) = b.lo i - (p i + q i) * signQ (b.hi i - b.lo i)
    rw [key i]; ring
  · show b.hi i + p i * _ + q i * signQ ((padBox b p).hi i - (padBox b p).lo i) = b.hi i + (p i + q i) * signQ (b.hi i - b.lo i)
    rw [key i]; ring

/-- C113 fails for a box of zero width, for example around one point: it is not padded. -/
theorem C113_pad_refuted {d : Nat} (b : GBox d) (p : Fin d → ℚ) (i : Fin d) (h : b.lo i = b.hi i) :
    (padBox b p).lo i = b.lo i ∧ (padBox b p).hi i = b.hi i := by
  unfold padBox signQ
  simp only []
  rw [if_neg (by linarith), if_pos (by linarith)]
  constructor <;> ring

/-- C113: widen_box with an absolute margin, and with a relative margin for ascending dimensions, adds half of the margin
at both sides. -/
theorem C113_widen_partial {d : Nat} (b : GBox d) (m : Fin d → ℚ) (hm : ∀ i, 0 ≤ m i) (i : Fin d) :
    (min ((widenBox b m false).lo i) ((widenBox b m false).hi i) = min (b.lo i) (b.hi i) - m i / 2 ∧
      max ((widenBox b m false).lo i) ((widenBox b m false).hi i) = max (b.lo i) (b.hi i) + m i / 2) ∧
    (b.lo i ≤ b.hi i → (widenBox b m true).lo i = b.lo i - (b.hi i - b.lo i) * m i / 2 ∧ (widenBox b m true).hi i = b.hi i + (b.hi i - b.lo i) * m i / 2) := by
  have h := hm i
  unfold widenBox
  simp only [Bool.false_eq_true, if_false, if_true]
  refine ⟨?_, ?_⟩
  · by_cases hd : b.lo i > b.hi i
    · rw [if_pos hd, min_eq_right (by linarith), min_eq_right hd.le, max_eq_left (by linarith), max_eq_left hd.le]
      constructor <;> ring
    · rw [if_neg hd, min_eq_left (by linarith), min_eq_left (by linarith), max_eq_right (by linarith), max_eq_right (by linarith)]
      exact ⟨rfl, rfl⟩
  · intro ho
    rw [if_neg (by linarith)]
    exact ⟨rfl, rfl⟩

/-- C113 fails for relative margins (the default) and descending dimensions: the box shrinks. -/
theorem C113_widen_refuted {d : Nat} (b : GBox d) (m : Fin d → ℚ) (i : Fin d) (hm : 0 < m i) (h : b.hi i < b.lo i) :
    (widenBox b m true).lo i < b.lo i ∧ b.hi i < (widenBox b m true).hi i := by
  unfold widenBox
  simp only [if_true]
  rw [if_pos h]
  have : 0 < (b.lo i - b.hi i) * m i := mul_pos (by linarith) hm
  constructor <;> nlinarith

/-! ### Ranges of angles -/

/-- C114: unwrap_range changes both ends by whole periods, returns an ascending range shorter than one period, whose end is
in [0, period), and which contains 0 if any shift by whole periods does. -/
theorem C114_unwrap (a b n : ℚ) (hn : 0 < n) :
    ∃ a' b', unwrapRange (a, b) n = (a', b') ∧ (∃ k l : ℤ, a' = a + k * n ∧ b' = b + l * n) ∧ a' ≤ b' ∧ b' - a' < n ∧ 0 ≤ b' ∧ b' < n ∧
      ∀ k : ℤ, a' + k * n ≤ 0 → 0 ≤ b' + k * n → a' ≤ 0 := by
  have h1 := Int.floor_le ((b - a) / n)
  have h2 := Int.lt_floor_add_one ((b - a) / n)
  rw [le_div_iff₀ hn] at h1
  rw [div_lt_iff₀ hn] at h2
  obtain ⟨r1, hr1⟩ : ∃ r1, b - ⌊(b - a) / n⌋ * n = r1 := ⟨_, rfl⟩
  have h3 := Int.floor_le (r1 / n)
  have h4 := Int.lt_floor_add_one (r1 / n)
  rw [le_div_iff₀ hn] at h3
  rw [div_lt_iff₀ hn] at h4
  refine ⟨a - ⌊r1 / n⌋ * n, r1 - ⌊r1 / n⌋ * n, ?_, ⟨-⌊r1 / n⌋, -⌊(b - a) / n⌋ - ⌊r1 / n⌋, ?_, ?_⟩, ?_, ?_, ?_, ?_, ?_⟩
  · unfold unwrapRange
    simp only []
    rw [hr1]
  · push_cast; ring
  · rw [← hr1]; push_cast; ring
  · linarith
  · linarith
  · linarith
  · linarith
  · intro k hk1 hk2
    by_contra hc
    rw [not_le] at hc
    have hk : -1 < (k : ℚ) := by
      by_contra h
      rw [not_lt] at h
      have : (k : ℚ) * n ≤ -1 * n := mul_le_mul_of_nonneg_right h hn.le
      linarith
    have hk' : (0 : ℤ) ≤ k := by
      have : (-1 : ℤ) < k := by exact_mod_cast hk
      omega
    have : (0 : ℚ) ≤ k * n := by
      have : (0 : ℚ) ≤ k := by exact_mod_cast hk'
      positivity
    linarith

example : unwrapRange (350, 10) 360 = (-10, 10) := by decide +kernel

/-- C114 fails for a whole period: the documentation promises range[1] > range[0], but the range becomes empty. -/
theorem C114_full_circle_refuted (a n : ℚ) (hn : 0 < n) (r : ℚ × ℚ) (h : unwrapRange (a, a + n) n = r) : r.2 = r.1 := by
  subst h
  unfold unwrapRange
  simp only []
  have : (a + n - a) / n = 1 := by rw [add_sub_cancel_left, div_self hn.ne']
  rw [this, Int.floor_one]
  push_cast; ring

end Pixell
