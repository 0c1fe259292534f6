import Verif.Model.MergePlots
import Mathlib.Tactic.Linarith
import Mathlib.Tactic.Ring

/-
C204: merging of finished plots.
-/
namespace Pixell

/-- What a plot shows at a position of the map that all plots share: its image begins where its bounds do. -/
def Shows {α : Type} (clear : α) (bounds : Nat → ℤ × ℤ) (p : PlotRef α) (x : ℤ) : α :=
  if (bounds p.info).1 ≤ x ∧ x < (bounds p.info).1 + p.img.w then p.img.pix (x - (bounds p.info).1) else clear

/-- The bounds that hold those of all plots and the origin. -/
def unionBounds (bs : List (ℤ × ℤ)) (b : ℤ × ℤ) : Prop :=
  b.1 ≤ 0 ∧ (∀ x ∈ bs, b.1 ≤ x.1 ∧ x.2 ≤ b.2) ∧ (b.1 = 0 ∨ ∃ x ∈ bs, b.1 = x.1) ∧ ∃ x ∈ bs, b.2 = x.2

theorem foldl_minFst : ∀ (l : List (ℤ × ℤ)) (a : ℤ), l.foldl (fun a b => min a b.1) a ≤ a ∧
    (∀ x ∈ l, l.foldl (fun a b => min a b.1) a ≤ x.1) ∧
    (l.foldl (fun a b => min a b.1) a = a ∨ ∃ x ∈ l, l.foldl (fun a b => min a b.1) a = x.1)
  | [], a => by simp
  | y :: l, a => by
    obtain ⟨h1, h2, h3⟩ := foldl_minFst l (min a y.1)
    rw [List.foldl_cons]
    refine ⟨h1.trans (min_le_left _ _), ?_, ?_⟩
    · intro x hx
      rcases List.mem_cons.1 hx with e | e
      · subst e; exact h1.trans (min_le_right _ _)
      · exact h2 x e
    · rcases h3 with h | ⟨x, hx, h⟩
      · rcases le_total a y.1 with g | g
        · left; rw [h, min_eq_left g]
        · right; exact ⟨y, List.mem_cons_self, by rw [h, min_eq_right g]⟩
      · right; exact ⟨x, List.mem_cons_of_mem _ hx, h⟩

theorem foldl_maxSnd : ∀ (l : List (ℤ × ℤ)) (a : ℤ), a ≤ l.foldl (fun a b => max a b.2) a ∧
    (∀ x ∈ l, x.2 ≤ l.foldl (fun a b => max a b.2) a) ∧
    (l.foldl (fun a b => max a b.2) a = a ∨ ∃ x ∈ l, l.foldl (fun a b => max a b.2) a = x.2)
  | [], a => by simp
  | y :: l, a => by
    obtain ⟨h1, h2, h3⟩ := foldl_maxSnd l (max a y.2)
    rw [List.foldl_cons]
    refine ⟨(le_max_left _ _).trans h1, ?_, ?_⟩
    · intro x hx
      rcases List.mem_cons.1 hx with e | e
      · subst e; exact (le_max_right _ _).trans h1
      · exact h2 x e
    · rcases h3 with h | ⟨x, hx, h⟩
      · rcases le_total y.2 a with g | g
        · left; rw [h, max_eq_left g]
        · right; exact ⟨y, List.mem_cons_self, by rw [h, max_eq_right g]⟩
      · right; exact ⟨x, List.mem_cons_of_mem _ hx, h⟩

theorem calcBounds_union (b : ℤ × ℤ) (r : List (ℤ × ℤ)) : unionBounds (b :: r) (calcBounds1 (b :: r) b.2) := by
  obtain ⟨h1, h2, h3⟩ := foldl_minFst (b :: r) 0
  obtain ⟨_, g2, g3⟩ := foldl_maxSnd (b :: r) b.2
  refine ⟨h1, fun x hx => ⟨h2 x hx, g2 x hx⟩, h3, ?_⟩
  rcases g3 with h | h
  · exact ⟨b, List.mem_cons_self, h⟩
  · exact h

theorem unionBounds_unique (bs : List (ℤ × ℤ)) (a b : ℤ × ℤ) (ha : unionBounds bs a) (hb : unionBounds bs b) : a = b := by
  have one : ∀ a b : ℤ × ℤ, unionBounds bs a → unionBounds bs b → a.1 ≤ b.1 ∧ b.2 ≤ a.2 := by
    intro a b ha hb
    constructor
    · rcases hb.2.2.1 with h | ⟨x, hx, h⟩
      · rw [h]; exact ha.1
      · rw [h]; exact (ha.2.1 x hx).1
    · obtain ⟨x, hx, h⟩ := hb.2.2.2
      rw [h]; exact (ha.2.1 x hx).2
  have h1 := one a b ha hb
  have h2 := one b a hb ha
  exact Prod.ext (le_antisymm h1.1 h2.1) (le_antisymm h2.2 h1.2)

theorem onCanvas_shows {α : Type} (clear : α) (bounds : Nat → ℤ × ℤ) (full : ℤ × ℤ) (p : PlotRef α) (x : ℤ) :
    (onCanvas clear full (bounds p.info) p.img).pix (x - full.1) = Shows clear bounds p x := by
  unfold onCanvas Shows pastedAt
  simp only
  have e : x - full.1 - (0 + ((bounds p.info).1 - full.1)) = x - (bounds p.info).1 := by ring
  rw [e]
  by_cases h : (bounds p.info).1 ≤ x ∧ x < (bounds p.info).1 + p.img.w
  · rw [if_pos h, if_pos ⟨by linarith [h.1], by linarith [h.2]⟩]
  · rw [if_neg h, if_neg]
    intro g
    exact h ⟨by linarith [g.1], by linarith [g.2]⟩

theorem foldl_composite {α : Type} (over : α → α → α) (k : ℤ) : ∀ (l : List (Img1 α)) (a : Img1 α),
    (l.foldl (composite over) a).pix k = (l.map fun i => i.pix k).foldl over (a.pix k) ∧ (l.foldl (composite over) a).w = a.w
  | [], a => by simp
  | i :: l, a => by
    obtain ⟨h1, h2⟩ := foldl_composite over k l (composite over a i)
    exact ⟨by rw [List.foldl_cons, h1]; rfl, by rw [List.foldl_cons, h2]; rfl⟩

/-- C204: the merged plot has the bounds that hold those of all plots and the origin, and shows at every position within them what
the plots show there, later ones over earlier ones. -/
theorem C204_merge {α : Type} (clear : α) (over : α → α → α) (bounds : Nat → ℤ × ℤ) (p : PlotRef α) (r : List (PlotRef α)) :
    ∃ res bounds', mergePlots clear over bounds (p :: r) = some (res, bounds') ∧
      unionBounds ((p :: r).map fun q => bounds q.info) (bounds' res.info) ∧
      res.img.w = (bounds' res.info).2 - (bounds' res.info).1 ∧
      ∀ x, (bounds' res.info).1 ≤ x → x < (bounds' res.info).2 →
        Shows clear bounds' res x = (r.map fun q => Shows clear bounds q x).foldl over (Shows clear bounds p x) := by
  set full := calcBounds1 ((p :: r).map fun q => bounds q.info) (bounds p.info).2 with hf
  set imgs := (p :: r).map fun q => onCanvas clear full (bounds q.info) q.img with hi
  refine ⟨⟨imgs.tail.foldl (composite over) (onCanvas clear full (bounds p.info) p.img), p.info⟩,
    fun i => if i = p.info then full else bounds i, ?_, ?_, ?_, ?_⟩
  · have e : standardize clear ((p :: r).map fun q => (q.img, bounds q.info)) = some (imgs, full) := by
      simp only [List.map_cons, standardize, List.map_map, Function.comp_def, hi, hf]
    unfold mergePlots
    rw [e]
    simp [hi]
  · simp only [if_true]
    exact calcBounds_union (bounds p.info) (r.map fun q => bounds q.info)
  · simp only [if_true]
    rw [(foldl_composite over 0 _ _).2]
    rfl
  · intro x h1 h2
    simp only [if_true] at h1 h2
    have hw : (imgs.tail.foldl (composite over) (onCanvas clear full (bounds p.info) p.img)).w = full.2 - full.1 := by
      rw [(foldl_composite over 0 _ _).2]; rfl
    rw [Shows]
    simp only [if_true]
    rw [hw, if_pos ⟨h1, by linarith⟩, (foldl_composite over _ _ _).1, onCanvas_shows]
    congr 1
    simp only [hi, List.map_cons, List.tail_cons, List.map_map, Function.comp_def, onCanvas_shows]

/-- C204 refuted: merging changes the first plot.  If the bounds that hold all plots begin before those of the first one, what it
shows is moved by the difference, whatever it shows, and later merges use it there. -/
theorem C204_first_refuted {α : Type} (clear : α) (over : α → α → α) (bounds : Nat → ℤ × ℤ) (p q : PlotRef α)
    (h0 : (bounds p.info).1 ≤ 0) (hq : (bounds q.info).1 < (bounds p.info).1) :
    ∃ res bounds', mergePlots clear over bounds [p, q] = some (res, bounds') ∧ (bounds' p.info).1 = (bounds q.info).1 ∧
      ∀ x, Shows clear bounds' p x = Shows clear bounds p (x + ((bounds p.info).1 - (bounds q.info).1)) := by
  refine ⟨_, _, rfl, ?_, ?_⟩
  · simp [calcBounds1, h0, hq.le]
  · intro x
    have e : (calcBounds1 [bounds p.info, bounds q.info] (bounds p.info).2).1 = (bounds q.info).1 := by
      simp [calcBounds1, h0, hq.le]
    simp only [Shows, if_true, List.map_cons, List.map_nil, e]
    have e2 : x + ((bounds p.info).1 - (bounds q.info).1) - (bounds p.info).1 = x - (bounds q.info).1 := by ring
    rw [e2]
    by_cases h : (bounds q.info).1 ≤ x ∧ x < (bounds q.info).1 + p.img.w
    · rw [if_pos h, if_pos ⟨by linarith [h.1], by linarith [h.2]⟩]
    · rw [if_neg h, if_neg]
      intro g
      exact h ⟨by linarith [g.1], by linarith [g.2]⟩

/-- Merging the same two plots twice: the second time the first one (pixel 7 at 0) is one pixel to the left. -/
example :
    let p : PlotRef Nat := ⟨⟨2, fun k => if k = 0 then 7 else 8⟩, 0⟩
    let q : PlotRef Nat := ⟨⟨3, fun _ => 0⟩, 1⟩
    let b : Nat → ℤ × ℤ := fun i => if i = 0 then (0, 2) else (-1, 2)
    let once := mergePlots 0 (fun a c => if c = 0 then a else c) b [p, q]
    let twice := once.bind fun o => mergePlots 0 (fun a c => if c = 0 then a else c) o.2 [p, q]
    (once.map fun o => [-1, 0, 1].map (Shows 0 o.2 o.1)) = some [0, 7, 8] ∧
    (twice.map fun o => [-1, 0, 1].map (Shows 0 o.2 o.1)) = some [7, 8, 0] := by decide +kernel

/-- C204: plots of which the first already has the bounds that hold them all are not changed, and nor are the others ever, unless they
share the info of the first. -/
theorem C204_first_partial {α : Type} (clear : α) (over : α → α → α) (bounds : Nat → ℤ × ℤ) (p : PlotRef α) (r : List (PlotRef α)) :
    ∃ res bounds', mergePlots clear over bounds (p :: r) = some (res, bounds') ∧
      (unionBounds ((p :: r).map fun q => bounds q.info) (bounds p.info) → bounds' = bounds) ∧
      ∀ q : PlotRef α, q.info ≠ p.info → ∀ x, Shows clear bounds' q x = Shows clear bounds q x := by
  have hs : ∃ imgs : List (Img1 α), imgs ≠ [] ∧ standardize clear ((p :: r).map fun q => (q.img, bounds q.info)) =
      some (imgs, calcBounds1 ((p :: r).map fun q => bounds q.info) (bounds p.info).2) :=
    ⟨(p :: r).map fun q => onCanvas clear (calcBounds1 ((p :: r).map fun q => bounds q.info) (bounds p.info).2) (bounds q.info) q.img,
      by simp, by simp only [List.map_cons, standardize, List.map_map, Function.comp_def]⟩
  obtain ⟨imgs, hne, e⟩ := hs
  obtain ⟨i0, it, rfl⟩ := List.exists_cons_of_ne_nil hne
  refine ⟨⟨it.foldl (composite over) i0, p.info⟩,
    fun i => if i = p.info then calcBounds1 ((p :: r).map fun q => bounds q.info) (bounds p.info).2 else bounds i, ?_, ?_, ?_⟩
  · unfold mergePlots
    rw [e]
    simp
  · intro hu
    have := unionBounds_unique _ _ _ (calcBounds_union (bounds p.info) (r.map fun q : PlotRef α => bounds q.info)) hu
    funext i
    by_cases h : i = p.info
    · rw [if_pos h, h]; exact this
    · rw [if_neg h]
  · intro q hq x
    simp [Shows, hq]

end Pixell
