import Verif.Model.Polygon
import Mathlib.Tactic.Linarith
import Mathlib.Tactic.FieldSimp
import Mathlib.Tactic.LinearCombination
import Mathlib.Tactic.Ring
import Mathlib.Tactic.NormNum

/-
Property C119: points in polygons.
-/
namespace Pixell

/-- Twice the signed area of the triangle of the origin, `a` and `b`. -/
def crossQ (a b : ℚ × ℚ) : ℚ := a.1 * b.2 - a.2 * b.1

/-- The crossing test without division: the edge passes the height of the point, and passes it on the right. -/
theorem crosses_iff (a b : ℚ × ℚ) : crosses a b = true ↔ (a.2 < 0 ∧ 0 < b.2 ∧ 0 < crossQ a b) ∨ (b.2 < 0 ∧ 0 < a.2 ∧ crossQ a b < 0) := by
  unfold crosses crossQ
  rw [Bool.and_eq_true, decide_eq_true_eq, decide_eq_true_eq, mul_neg_iff, gt_iff_lt]
  have expr : b.2 - a.2 ≠ 0 → -a.2 * (b.1 - a.1) / (b.2 - a.2) + a.1 = (a.1 * b.2 - a.2 * b.1) / (b.2 - a.2) := by
    intro h
    rw [div_add' _ _ _ h]
    congr 1; ring
  constructor
  · rintro ⟨h1, h2⟩
    rcases h1 with ⟨ha, hb⟩ | ⟨ha, hb⟩
    · right
      have hd : b.2 - a.2 < 0 := by linarith
      rw [expr hd.ne] at h2
      refine ⟨hb, ha, ?_⟩
      by_contra hc
      exact absurd h2 (not_lt_of_ge (div_nonpos_of_nonneg_of_nonpos (not_lt.1 hc) hd.le))
    · left
      have hd : 0 < b.2 - a.2 := by linarith
      rw [expr hd.ne'] at h2
      refine ⟨ha, hb, ?_⟩
      by_contra hc
      exact absurd h2 (not_lt_of_ge (div_nonpos_of_nonpos_of_nonneg (not_lt.1 hc) hd.le))
  · rintro (⟨ha, hb, h⟩ | ⟨hb, ha, h⟩)
    · have hd : 0 < b.2 - a.2 := by linarith
      refine ⟨Or.inr ⟨ha, hb⟩, ?_⟩
      rw [expr hd.ne']; exact div_pos h hd
    · have hd : b.2 - a.2 < 0 := by linarith
      refine ⟨Or.inl ⟨ha, hb⟩, ?_⟩
      rw [expr hd.ne, ← neg_div_neg_eq]
      exact div_pos (by linarith) (by linarith)

theorem crossQ_swap (a b : ℚ × ℚ) : crossQ b a = -crossQ a b := by unfold crossQ; ring

theorem crosses_comm (a b : ℚ × ℚ) : crosses a b = crosses b a := by
  rw [Bool.eq_iff_iff, crosses_iff, crosses_iff, crossQ_swap a b]
  constructor
  · rintro (⟨h1, h2, h3⟩ | ⟨h1, h2, h3⟩)
    · right; exact ⟨h1, h2, by linarith⟩
    · left; exact ⟨h1, h2, by linarith⟩
  · rintro (⟨h1, h2, h3⟩ | ⟨h1, h2, h3⟩)
    · right; exact ⟨h1, h2, by linarith⟩
    · left; exact ⟨h1, h2, by linarith⟩

/-- The parity of the crossings as an exclusive or over the edges. -/
def crossParity (prev : ℚ × ℚ) : List (ℚ × ℚ) → Bool
  | [] => false
  | v :: vs => (crosses prev v).xor (crossParity v vs)

theorem crossCount_parity (prev : ℚ × ℚ) (vs : List (ℚ × ℚ)) : decide (crossCount prev vs % 2 = 1) = crossParity prev vs := by
  induction vs generalizing prev with
  | nil => rfl
  | cons v vs ih =>
    rw [crossParity, ← ih v, crossCount]
    cases crosses prev v
    · simp
    · simp only [Bool.toNat_true, Bool.true_xor]
      rcases Nat.mod_two_eq_zero_or_one (crossCount v vs) with h | h
      · rw [decide_eq_true (by omega), decide_eq_false (by omega)]; rfl
      · rw [decide_eq_false (by omega), decide_eq_true (by omega)]; rfl

theorem crossParity_append (prev v : ℚ × ℚ) (l m : List (ℚ × ℚ)) :
    crossParity prev (l ++ v :: m) = (crossParity prev (l ++ [v])).xor (crossParity v m) := by
  induction l generalizing prev with
  | nil => simp [crossParity]
  | cons a l ih => simp only [List.cons_append, crossParity, ih a, Bool.xor_assoc]

theorem pip_cons (p v : ℚ × ℚ) (vs : List (ℚ × ℚ)) :
    pointInPolygon p (v :: vs) = crossParity (v.1 - p.1, v.2 - p.2) (relVerts p (vs ++ [v])) := by
  rcases List.eq_nil_or_concat vs with rfl | ⟨i, z, rfl⟩
  · unfold pointInPolygon
    simp only [relVerts, List.map_cons, List.map_nil, List.getLast?_singleton, List.nil_append]
    rw [crossCount_parity]
  · have e1 : relVerts p (v :: (i.concat z)) = (v.1 - p.1, v.2 - p.2) :: (relVerts p i ++ [(z.1 - p.1, z.2 - p.2)]) := by simp [relVerts]
    have e2 : relVerts p (i.concat z ++ [v]) = relVerts p i ++ (z.1 - p.1, z.2 - p.2) :: [(v.1 - p.1, v.2 - p.2)] := by simp [relVerts]
    unfold pointInPolygon
    rw [e1, e2, ← List.cons_append, List.getLast?_concat]
    simp only []
    rw [crossCount_parity, List.cons_append, crossParity_append, crossParity]
    simp only [crossParity, Bool.xor_false]
    rw [Bool.xor_comm]

/-- C119: it does not matter at which vertex the list of vertices starts. -/
theorem C119_rotate (p : ℚ × ℚ) (l m : List (ℚ × ℚ)) : pointInPolygon p (l ++ m) = pointInPolygon p (m ++ l) := by
  cases l with
  | nil => simp
  | cons a l =>
    cases m with
    | nil => simp
    | cons b m =>
      rw [List.cons_append, List.cons_append, pip_cons, pip_cons]
      have e1 : relVerts p (l ++ b :: m ++ [a]) = relVerts p l ++ (b.1 - p.1, b.2 - p.2) :: (relVerts p (m ++ [a])) := by simp [relVerts]
      have e2 : relVerts p (m ++ a :: l ++ [b]) = relVerts p m ++ (a.1 - p.1, a.2 - p.2) :: (relVerts p (l ++ [b])) := by simp [relVerts]
      have e3 : relVerts p (m ++ [a]) = relVerts p m ++ [(a.1 - p.1, a.2 - p.2)] := by simp [relVerts]
      have e4 : relVerts p (l ++ [b]) = relVerts p l ++ [(b.1 - p.1, b.2 - p.2)] := by simp [relVerts]
      rw [e1, e2, crossParity_append, crossParity_append (b.1 - p.1, b.2 - p.2), e3, e4, Bool.xor_comm]

theorem crossParity_reverse (a b : ℚ × ℚ) (l : List (ℚ × ℚ)) : crossParity a (l ++ [b]) = crossParity b (l.reverse ++ [a]) := by
  induction l generalizing a with
  | nil => simp [crossParity, crosses_comm]
  | cons c l ih =>
    rw [List.cons_append, crossParity, ih c, List.reverse_cons, List.append_assoc, List.singleton_append, crossParity_append b c l.reverse [a]]
    simp only [crossParity, Bool.xor_false]
    rw [crosses_comm c a, Bool.xor_comm]

/-- C119: nor does the direction of the list. -/
theorem C119_reverse (p : ℚ × ℚ) (poly : List (ℚ × ℚ)) : pointInPolygon p poly.reverse = pointInPolygon p poly := by
  cases poly with
  | nil => rfl
  | cons v vs =>
    rw [List.reverse_cons, C119_rotate, List.singleton_append, pip_cons, pip_cons]
    have e : ∀ l, relVerts p (l ++ [v]) = relVerts p l ++ [(v.1 - p.1, v.2 - p.2)] := by intro l; simp [relVerts]
    rw [e, e, crossParity_reverse]
    have : relVerts p vs.reverse = (relVerts p vs).reverse := by unfold relVerts; rw [List.map_reverse]
    rw [this, List.reverse_reverse]

/-- C119: moving the point and the polygon together changes nothing. -/
theorem C119_translate (p d : ℚ × ℚ) (poly : List (ℚ × ℚ)) :
    pointInPolygon (p.1 + d.1, p.2 + d.2) (poly.map fun v => (v.1 + d.1, v.2 + d.2)) = pointInPolygon p poly := by
  unfold pointInPolygon
  have : relVerts (p.1 + d.1, p.2 + d.2) (poly.map fun v => (v.1 + d.1, v.2 + d.2)) = relVerts p poly := by
    unfold relVerts
    rw [List.map_map]
    apply List.map_congr_left
    intro v _
    simp
  rw [this]

/-- C119: a polygon of four or more vertices is cut by a diagonal into a triangle and the rest: the point is in the polygon
exactly if it is in an odd number of the two. -/
theorem C119_cut (p a b c : ℚ × ℚ) (l : List (ℚ × ℚ)) :
    pointInPolygon p (a :: b :: c :: l) = (pointInPolygon p [a, b, c]).xor (pointInPolygon p (a :: c :: l)) := by
  rw [pip_cons, pip_cons, pip_cons]
  simp only [relVerts, List.cons_append, List.map_cons, List.map_append, List.map_nil, List.nil_append, crossParity]
  rw [crosses_comm (a.1 - p.1, a.2 - p.2) (c.1 - p.1, c.2 - p.2)]
  cases crosses (c.1 - p.1, c.2 - p.2) (a.1 - p.1, a.2 - p.2) <;> cases crosses (a.1 - p.1, a.2 - p.2) (b.1 - p.1, b.2 - p.2) <;>
    cases crosses (b.1 - p.1, b.2 - p.2) (c.1 - p.1, c.2 - p.2) <;> simp

/-- The point is strictly inside of the triangle: on the same side of all three edges. -/
def InTriangle (p a b c : ℚ × ℚ) : Prop :=
  let A := (a.1 - p.1, a.2 - p.2)
  let B := (b.1 - p.1, b.2 - p.2)
  let C := (c.1 - p.1, c.2 - p.2)
  (0 < crossQ A B ∧ 0 < crossQ B C ∧ 0 < crossQ C A) ∨ (crossQ A B < 0 ∧ crossQ B C < 0 ∧ crossQ C A < 0)

theorem tri_bool : ∀ U V W X Y Z : Bool, ¬ (((Y == U) && (Z == V) && (X == W)) = true) → ¬ ((!(Y == U) && !(Z == V) && !(X == W)) = true) →
    ((!U && V && X || !V && U && !X) ^^ ((!V && W && Y || !W && V && !Y) ^^ (!W && U && Z || !U && W && !Z))) =
      (X && Y && Z || !X && !Y && !Z) := by decide

/-- The case distinction by signs. -/
theorem tri_signs (U V W X Y Z : Prop) (k1 k2 k3 : Bool) (c1 : k1 = true ↔ (¬U ∧ V ∧ X) ∨ (¬V ∧ U ∧ ¬X)) (c2 : k2 = true ↔ (¬V ∧ W ∧ Y) ∨ (¬W ∧ V ∧ ¬Y))
    (c3 : k3 = true ↔ (¬W ∧ U ∧ Z) ∨ (¬U ∧ W ∧ ¬Z)) (h1 : ¬ ((Y ↔ U) ∧ (Z ↔ V) ∧ (X ↔ W))) (h2 : ¬ (¬(Y ↔ U) ∧ ¬(Z ↔ V) ∧ ¬(X ↔ W))) :
    (k1 ^^ (k2 ^^ k3)) = true ↔ (X ∧ Y ∧ Z) ∨ (¬X ∧ ¬Y ∧ ¬Z) := by
  classical
  have e1 : k1 = (!decide U && decide V && decide X || !decide V && decide U && !decide X) := by
    rw [Bool.eq_iff_iff, c1]; simp [and_assoc]
  have e2 : k2 = (!decide V && decide W && decide Y || !decide W && decide V && !decide Y) := by
    rw [Bool.eq_iff_iff, c2]; simp [and_assoc]
  have e3 : k3 = (!decide W && decide U && decide Z || !decide U && decide W && !decide Z) := by
    rw [Bool.eq_iff_iff, c3]; simp [and_assoc]
  rw [e1, e2, e3, tri_bool]
  · simp [and_assoc]
  · intro h; apply h1
    simpa [and_assoc] using h
  · intro h; apply h2
    simp only [Bool.and_eq_true, Bool.not_eq_true', beq_eq_false_iff_ne, ne_eq, decide_eq_decide] at h
    exact ⟨h.1.1, h.1.2, h.2⟩

theorem sign_prod (t s : ℚ) (ht : t ≠ 0) (hs : s ≠ 0) : 0 < t * s ↔ (0 < t ↔ 0 < s) := by
  rcases lt_or_gt_of_ne ht with h1 | h1 <;> rcases lt_or_gt_of_ne hs with h2 | h2
  · exact ⟨fun _ => ⟨fun h => by linarith, fun h => by linarith⟩, fun _ => by nlinarith⟩
  · exact ⟨fun h => by nlinarith, fun h => by have := h.2 h2; linarith⟩
  · exact ⟨fun h => by nlinarith, fun h => by have := h.1 h1; linarith⟩
  · exact ⟨fun _ => ⟨fun _ => h2, fun _ => h1⟩, fun _ => mul_pos h1 h2⟩

/-- C119: for a triangle with no vertex level with the point, and the point not on the line of an edge, the answer is right. -/
theorem C119_triangle_partial (p a b c : ℚ × ℚ) (ha : a.2 ≠ p.2) (hb : b.2 ≠ p.2) (hc : c.2 ≠ p.2)
    (hab : crossQ (a.1 - p.1, a.2 - p.2) (b.1 - p.1, b.2 - p.2) ≠ 0) (hbc : crossQ (b.1 - p.1, b.2 - p.2) (c.1 - p.1, c.2 - p.2) ≠ 0)
    (hca : crossQ (c.1 - p.1, c.2 - p.2) (a.1 - p.1, a.2 - p.2) ≠ 0) :
    pointInPolygon p [a, b, c] = true ↔ InTriangle p a b c := by
  rw [pip_cons]
  unfold InTriangle
  simp only [relVerts, List.cons_append, List.map_cons, List.map_nil, List.nil_append, crossParity, Bool.xor_false]
  have ha' : a.2 - p.2 ≠ 0 := sub_ne_zero.2 ha
  have hb' : b.2 - p.2 ≠ 0 := sub_ne_zero.2 hb
  have hc' : c.2 - p.2 ≠ 0 := sub_ne_zero.2 hc
  generalize hA : (a.1 - p.1, a.2 - p.2) = A at *
  generalize hB : (b.1 - p.1, b.2 - p.2) = B at *
  generalize hC : (c.1 - p.1, c.2 - p.2) = C at *
  rw [show a.2 - p.2 = A.2 by rw [← hA]] at ha'
  rw [show b.2 - p.2 = B.2 by rw [← hB]] at hb'
  rw [show c.2 - p.2 = C.2 by rw [← hC]] at hc'
  -- the heights of the vertices weighted by the areas cancel
  have key : crossQ B C * A.2 + crossQ C A * B.2 + crossQ A B * C.2 = 0 := by unfold crossQ; ring
  generalize hx : crossQ A B = x at *
  generalize hy : crossQ B C = y at *
  generalize hz : crossQ C A = z at *
  have c1 := crosses_iff A B
  have c2 := crosses_iff B C
  have c3 := crosses_iff C A
  rw [hx] at c1; rw [hy] at c2; rw [hz] at c3
  clear hx hy hz hA hB hC
  generalize crosses A B = k1 at *
  generalize crosses B C = k2 at *
  generalize crosses C A = k3 at *
  generalize A.2 = u at *
  generalize B.2 = v at *
  generalize C.2 = w at *
  -- all that matters are the signs
  have neg : ∀ t : ℚ, t ≠ 0 → (t < 0 ↔ ¬ 0 < t) := fun t ht => ⟨fun h => by linarith, fun h => lt_of_le_of_ne (not_lt.1 h) ht⟩
  have prod := sign_prod
  have k1' : ¬ ((0 < y ↔ 0 < u) ∧ (0 < z ↔ 0 < v) ∧ (0 < x ↔ 0 < w)) := by
    rw [← prod y u hbc ha', ← prod z v hca hb', ← prod x w hab hc']
    rintro ⟨h1, h2, h3⟩; linarith
  have k2' : ¬ (¬ (0 < y ↔ 0 < u) ∧ ¬ (0 < z ↔ 0 < v) ∧ ¬ (0 < x ↔ 0 < w)) := by
    rw [← prod y u hbc ha', ← prod z v hca hb', ← prod x w hab hc']
    rintro ⟨h1, h2, h3⟩
    have e1 : y * u ≠ 0 := mul_ne_zero hbc ha'
    rcases lt_or_gt_of_ne e1 with h | h
    · linarith
    · exact h1 h
  rw [neg u ha', neg v hb', neg x hab] at c1
  rw [neg v hb', neg w hc', neg y hbc] at c2
  rw [neg w hc', neg u ha', neg z hca] at c3
  rw [neg x hab, neg y hbc, neg z hca]
  clear key neg prod ha' hb' hc' hab hbc hca ha hb hc
  exact tri_signs (0 < u) (0 < v) (0 < w) (0 < x) (0 < y) (0 < z) k1 k2 k3 c1 c2 c3 k1' k2'

example : InTriangle (1, 1) (0, 0) (4, 0) (0, 5) ∧ pointInPolygon (1, 1) [(0, 0), (4, 0), (0, 5)] = true := by
  constructor
  · left; norm_num [crossQ]
  · decide +kernel

/-- C119: for an upright rectangle the answer is right, with the left edge counting as inside and the other edges as
outside. -/
theorem C119_rectangle (p : ℚ × ℚ) (x0 x1 y0 y1 : ℚ) (hx : x0 < x1) (hy : y0 < y1) :
    pointInPolygon p [(x0, y0), (x0, y1), (x1, y1), (x1, y0)] = true ↔ (x0 ≤ p.1 ∧ p.1 < x1) ∧ y0 < p.2 ∧ p.2 < y1 := by
  rw [pip_cons]
  simp only [relVerts, List.cons_append, List.map_cons, List.map_nil, List.nil_append, crossParity, Bool.xor_false]
  have flat : ∀ a b y : ℚ, crosses (a, y) (b, y) = false := by
    intro a b y
    unfold crosses
    rw [decide_eq_false (not_lt.2 (mul_self_nonneg y)), Bool.false_and]
  have up : ∀ a s t : ℚ, s < t → (crosses (a, s) (a, t) = true ↔ s < 0 ∧ 0 < t ∧ 0 < a) := by
    intro a s t hst
    rw [crosses_iff]
    unfold crossQ
    simp only []
    constructor
    · rintro (⟨h1, h2, h3⟩ | ⟨h1, h2, h3⟩)
      · refine ⟨h1, h2, ?_⟩
        by_contra hc
        rw [not_lt] at hc
        nlinarith
      · linarith
    · rintro ⟨h1, h2, h3⟩
      left
      exact ⟨h1, h2, by nlinarith⟩
  rw [flat, flat, Bool.false_xor, Bool.xor_false, crosses_comm (x1 - p.1, y1 - p.2)]
  have h1 := up (x0 - p.1) (y0 - p.2) (y1 - p.2) (by linarith)
  have h2 := up (x1 - p.1) (y0 - p.2) (y1 - p.2) (by linarith)
  simp only [sub_neg, sub_pos] at h1 h2
  have hlt : p.1 < x0 → p.1 < x1 := fun h => by linarith
  rw [← not_lt (a := p.1) (b := x0)]
  cases hk1 : crosses (x0 - p.1, y0 - p.2) (x0 - p.1, y1 - p.2) <;> cases hk2 : crosses (x1 - p.1, y0 - p.2) (x1 - p.1, y1 - p.2) <;>
    rw [hk1] at h1 <;> rw [hk2] at h2 <;> simp only [Bool.false_eq_true, false_iff, true_iff, Bool.xor_false, Bool.xor_true, Bool.not_true, Bool.not_false] at h1 h2 ⊢ <;> tauto

example : pointInPolygon (1 / 2, 1 / 2) [(0, 0), (0, 1), (1, 1), (1, 0)] = true ∧ pointInPolygon (2, 1) [(0, 0), (0, 1), (1, 1), (1, 0)] = false := by
  constructor <;> decide +kernel

/-- C119 fails when a vertex is level with the point: the centre of a diamond is declared outside, a point far from it inside. -/
theorem C119_level_refuted : pointInPolygon (0, 0) [(1, 0), (0, 1), (-1, 0), (0, -1)] = false ∧
    pointInPolygon (-5, 0) [(1, 0), (0, 1), (-1, 1), (-1, -1)] = true := by constructor <;> decide +kernel

end Pixell
