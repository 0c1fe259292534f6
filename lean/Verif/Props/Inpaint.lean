import Verif.Model.Inpaint
import Mathlib.Tactic.Linarith
import Mathlib.Tactic.Ring
import Mathlib.Tactic.IntervalCases
import Mathlib.Tactic.Common

/-
C195: masked pixels are filled from the nearest good pixels.
-/
namespace Pixell

theorem mem_gridPixels {ny nx : Nat} {p : Nat × Nat} : p ∈ gridPixels ny nx ↔ p.1 < ny ∧ p.2 < nx := by
  obtain ⟨y, x⟩ := p
  simp [gridPixels]

/-- `near` gives one of the nearest points of any list that has points. -/
def GivesNearest (near : List (Nat × Nat) → Nat × Nat → Nat × Nat) : Prop :=
  ∀ l p, l ≠ [] → near l p ∈ l ∧ ∀ q ∈ l, pixSq p (near l p) ≤ pixSq p q

theorem pixSq_nonneg (p q : Nat × Nat) : 0 ≤ pixSq p q := by unfold pixSq; positivity

theorem pixSq_eq_zero {p q : Nat × Nat} (h : pixSq p q = 0) : p = q := by
  unfold pixSq at h
  have h1 : ((p.1 : ℤ) - q.1) = 0 := by nlinarith [sq_nonneg ((p.1 : ℤ) - q.1), sq_nonneg ((p.2 : ℤ) - q.2)]
  have h2 : ((p.2 : ℤ) - q.2) = 0 := by nlinarith [sq_nonneg ((p.1 : ℤ) - q.1), sq_nonneg ((p.2 : ℤ) - q.2)]
  ext <;> omega

theorem pixSq_comm (p q : Nat × Nat) : pixSq p q = pixSq q p := by unfold pixSq; ring

/-- The border is made of the good pixels next to a masked one. -/
theorem border_iff (odd mask : Nat × Nat → Bool) (ny nx : Nat) (hm : ∃ b, b ∈ gridPixels ny nx ∧ mask b = true) (p : Nat × Nat)
    (hp : p ∈ gridPixels ny nx) :
    borderPix odd mask ny nx p = true ↔ mask p = false ∧ ∃ b ∈ gridPixels ny nx, mask b = true ∧ pixSq p b = 1 := by
  obtain ⟨b0, hb0, hb0m⟩ := hm
  have hne : (gridPixels ny nx).filter mask ≠ [] := List.ne_nil_of_mem (List.mem_filter.2 ⟨hb0, hb0m⟩)
  unfold borderPix
  simp only [if_neg hne, beq_iff_eq]
  rw [List.min?_eq_some_iff]
  constructor
  · rintro ⟨h1, h2⟩
    obtain ⟨b, hb, hb1⟩ := List.mem_map.1 h1
    obtain ⟨hbg, hbm⟩ := List.mem_filter.1 hb
    refine ⟨?_, b, hbg, hbm, hb1⟩
    by_contra hc
    have := h2 (pixSq p p) (List.mem_map.2 ⟨p, List.mem_filter.2 ⟨hp, by simpa using hc⟩, rfl⟩)
    simp [pixSq] at this
  · rintro ⟨h1, b, hbg, hbm, hb1⟩
    refine ⟨List.mem_map.2 ⟨b, List.mem_filter.2 ⟨hbg, hbm⟩, hb1⟩, ?_⟩
    intro v hv
    obtain ⟨c, hc, rfl⟩ := List.mem_map.1 hv
    obtain ⟨_, hcm⟩ := List.mem_filter.1 hc
    by_contra hlt
    have h0 : pixSq p c = 0 := le_antisymm (by omega) (pixSq_nonneg p c)
    rw [pixSq_eq_zero h0, hcm] at h1
    exact absurd h1 (by simp)

/-- A pixel between two different pixels, next to the second one and nearer to the first. -/
theorem step_towards (ny nx : Nat) (b g : Nat × Nat) (hb : b ∈ gridPixels ny nx) (hg : g ∈ gridPixels ny nx) (hne : b ≠ g) :
    ∃ s ∈ gridPixels ny nx, pixSq g s = 1 ∧ pixSq b s < pixSq b g := by
  obtain ⟨b1, b2⟩ := b
  obtain ⟨g1, g2⟩ := g
  simp only [mem_gridPixels] at hb hg ⊢
  by_cases h1 : b1 = g1
  · have h2 : b2 ≠ g2 := fun h => hne (by rw [h1, h])
    rcases lt_or_gt_of_ne h2 with h | h
    · refine ⟨(g1, g2 - 1), ⟨hg.1, by simp; omega⟩, ?_, ?_⟩ <;> simp only [pixSq] <;> push_cast [Nat.cast_sub (by omega : 1 ≤ g2)]
      · ring
      · nlinarith
    · refine ⟨(g1, g2 + 1), ⟨hg.1, by simp; omega⟩, ?_, ?_⟩ <;> simp only [pixSq] <;> push_cast
      · ring
      · nlinarith
  · rcases lt_or_gt_of_ne h1 with h | h
    · refine ⟨(g1 - 1, g2), ⟨by simp; omega, hg.2⟩, ?_, ?_⟩ <;> simp only [pixSq] <;> push_cast [Nat.cast_sub (by omega : 1 ≤ g1)]
      · ring
      · nlinarith
    · refine ⟨(g1 + 1, g2), ⟨by simp; omega, hg.2⟩, ?_, ?_⟩ <;> simp only [pixSq] <;> push_cast
      · ring
      · nlinarith

/-- The good pixels nearest to a masked one all lie on the border. -/
theorem nearest_on_border (odd mask : Nat × Nat → Bool) (ny nx : Nat) (b g : Nat × Nat) (hb : b ∈ gridPixels ny nx)
    (hbm : mask b = true) (hg : g ∈ gridPixels ny nx) (hgm : mask g = false)
    (hmin : ∀ q ∈ gridPixels ny nx, mask q = false → pixSq b g ≤ pixSq b q) : borderPix odd mask ny nx g = true := by
  obtain ⟨s, hs, hs1, hs2⟩ := step_towards ny nx b g hb hg (by rintro rfl; simp [hbm] at hgm)
  refine (border_iff odd mask ny nx ⟨b, hb, hbm⟩ g hg).2 ⟨hgm, s, hs, ?_, hs1⟩
  by_contra hc
  have := hmin s hs (by simpa using hc)
  omega

theorem exists_nearest (mask : Nat × Nat → Bool) (ny nx : Nat) (b : Nat × Nat) (hg : ∃ g ∈ gridPixels ny nx, mask g = false) :
    ∃ g ∈ gridPixels ny nx, mask g = false ∧ ∀ q ∈ gridPixels ny nx, mask q = false → pixSq b g ≤ pixSq b q := by
  obtain ⟨g0, hg0, hg0m⟩ := hg
  have hne : ((gridPixels ny nx).filter fun q => !mask q) ≠ [] := List.ne_nil_of_mem (List.mem_filter.2 ⟨hg0, by simp [hg0m]⟩)
  obtain ⟨g, hg⟩ := Option.ne_none_iff_exists'.1 (fun h => hne (List.argmin_eq_none.1 h) :
    List.argmin (pixSq b) ((gridPixels ny nx).filter fun q => !mask q) ≠ none)
  have h1 := List.mem_filter.1 (List.argmin_mem hg)
  refine ⟨g, h1.1, by simpa using h1.2, fun q hq hqm => ?_⟩
  exact List.le_of_mem_argmin (List.mem_filter.2 ⟨hq, by simp [hqm]⟩) hg

/-- C195: with some pixels masked and some good, every masked pixel of every component gets the value of a good pixel of the
same component that is as near as any good pixel of the whole map, although only pixels at the border of
the mask are looked at.  The good pixels keep their values. -/
theorem C195_nearest_partial {α : Type} [Zero α] (near : List (Nat × Nat) → Nat × Nat → Nat × Nat) (hn : GivesNearest near)
    (odd mask : Nat × Nat → Bool) (n0 n1 ny nx : Nat) (swapped : Bool) (hs : swapped = true → n0 ≤ 1 ∨ n1 ≤ 1)
    (map : Nat → Nat → Nat × Nat → α) (hbad : ∃ b, b ∈ gridPixels ny nx ∧ mask b = true)
    (hgood : ∃ g ∈ gridPixels ny nx, mask g = false) (p : Nat × Nat) (hp : p.1 < ny ∧ p.2 < nx) :
    (mask p = false → ∀ i j, inpaint near odd mask n0 n1 ny nx swapped map i j p = map i j p) ∧
    (mask p = true → ∃ g : Nat × Nat, (g.1 < ny ∧ g.2 < nx) ∧ mask g = false ∧
      (∀ q : Nat × Nat, q.1 < ny ∧ q.2 < nx → mask q = false → pixSq p g ≤ pixSq p q) ∧
      ∀ i j, inpaint near odd mask n0 n1 ny nx swapped map i j p = map i j g) := by
  have key : ∀ b, b ∈ gridPixels ny nx → mask b = true → ∃ g ∈ (gridPixels ny nx).filter (borderPix odd mask ny nx),
      mask g = false ∧ ∀ q ∈ gridPixels ny nx, mask q = false → pixSq b g ≤ pixSq b q := by
    intro b hb hbm
    obtain ⟨g, hg, hgm, hmin⟩ := exists_nearest mask ny nx b hgood
    exact ⟨g, List.mem_filter.2 ⟨hg, nearest_on_border odd mask ny nx b g hb hbm hg hgm hmin⟩, hgm, hmin⟩
  have hne : (gridPixels ny nx).filter (borderPix odd mask ny nx) ≠ [] := by
    obtain ⟨b, hb, hbm⟩ := hbad
    obtain ⟨g, hg, _⟩ := key b hb hbm
    exact List.ne_nil_of_mem hg
  have hflat : flattensInPlace n0 n1 (keptStrides n0 n1 (ny * nx) swapped).1 (keptStrides n0 n1 (ny * nx) swapped).2 = true := by
    cases swapped
    · simp [flattensInPlace, keptStrides]
    · rcases hs rfl with h | h <;> simp [flattensInPlace, h]
  have hval : ∀ i j, inpaint near odd mask n0 n1 ny nx swapped map i j p =
      if mask p then map i j (near ((gridPixels ny nx).filter (borderPix odd mask ny nx)) p) else map i j p := by
    intro i j
    unfold inpaint
    simp only [if_neg hne, hflat, if_true]
  refine ⟨fun h i j => by rw [hval]; simp [h], fun h => ?_⟩
  have hpg := mem_gridPixels.2 hp
  obtain ⟨h1, h2⟩ := hn _ p hne
  obtain ⟨h3, h4⟩ := List.mem_filter.1 h1
  refine ⟨_, mem_gridPixels.1 h3, ((border_iff odd mask ny nx hbad _ h3).1 h4).1, ?_, fun i j => by rw [hval, if_pos h]⟩
  intro q hq hqm
  obtain ⟨g, hg, _, hmin⟩ := key p hpg h
  exact (h2 g hg).trans (hmin q (mem_gridPixels.2 hq) hqm)

/-- The first nearest point of a list gives the nearest points. -/
theorem first_nearest : GivesNearest fun l p => (List.argmin (pixSq p) l).getD (0, 0) := by
  intro l p hl
  obtain ⟨g, hg⟩ := Option.ne_none_iff_exists'.1 (fun h => hl (List.argmin_eq_none.1 h) : List.argmin (pixSq p) l ≠ none)
  simp only [hg, Option.getD_some]
  exact ⟨List.argmin_mem hg, fun q hq => List.le_of_mem_argmin hq hg⟩

/-- A 3 by 4 map whose middle two pixels are masked: they get the values of the pixels above them. -/
example : (List.map (inpaint (fun l p => (List.argmin (pixSq p) l).getD (0, 0)) (fun _ => false) (fun p => p == (1, 1) || p == (1, 2))
    1 1 3 4 false (fun _ _ p => ((10 * p.1 + p.2 : Nat) : ℤ)) 0 0) (gridPixels 3 4)) = [0, 1, 2, 3, 10, 1, 2, 13, 20, 21, 22, 23] := by
  decide +kernel

/-- C195: a map that is masked everywhere becomes zero. -/
theorem C195_all {α : Type} [Zero α] (near : List (Nat × Nat) → Nat × Nat → Nat × Nat) (odd mask : Nat × Nat → Bool)
    (n0 n1 ny nx : Nat) (swapped : Bool) (map : Nat → Nat → Nat × Nat → α) (hn : 0 < ny ∧ 0 < nx)
    (h : ∀ p : Nat × Nat, p.1 < ny ∧ p.2 < nx → mask p = true) (i j : Nat) (p : Nat × Nat) :
    inpaint near odd mask n0 n1 ny nx swapped map i j p = 0 := by
  have he : (gridPixels ny nx).filter (borderPix odd mask ny nx) = [] := by
    rw [List.filter_eq_nil_iff]
    intro q hq hb
    have hbad : ∃ b, b ∈ gridPixels ny nx ∧ mask b = true := ⟨(0, 0), mem_gridPixels.2 hn, h _ hn⟩
    have := ((border_iff odd mask ny nx hbad q hq).1 hb).1
    rw [h q (mem_gridPixels.1 hq)] at this
    exact absurd this (by simp)
  unfold inpaint
  simp [he]

example : inpaint (fun l _ => l.headD (0, 0)) (fun _ => true) (fun _ => true) 1 1 2 2 false (fun _ _ _ => (5 : ℤ)) 0 0 (1, 1) = 0 := by
  decide +kernel

/-- C195, refuted where nothing is masked: the map is returned as it is only if scipy's distances, which have no meaning then,
happen to be 1 somewhere.  Otherwise every map, whatever its values, becomes zero. -/
theorem C195_unmasked_refuted {α : Type} [Zero α] (near : List (Nat × Nat) → Nat × Nat → Nat × Nat) (odd mask : Nat × Nat → Bool)
    (n0 n1 ny nx : Nat) (swapped : Bool) (map : Nat → Nat → Nat × Nat → α) (h : ∀ p : Nat × Nat, p.1 < ny ∧ p.2 < nx → mask p = false)
    (i j : Nat) (p : Nat × Nat) (hp : p.1 < ny ∧ p.2 < nx) :
    ((∃ q ∈ gridPixels ny nx, odd q = true) → inpaint near odd mask n0 n1 ny nx swapped map i j p = map i j p) ∧
    ((∀ q ∈ gridPixels ny nx, odd q = false) → inpaint near odd mask n0 n1 ny nx swapped map i j p = 0) := by
  have hb : (gridPixels ny nx).filter mask = [] := by
    rw [List.filter_eq_nil_iff]
    intro q hq
    simp [h q (mem_gridPixels.1 hq)]
  have he : (gridPixels ny nx).filter (borderPix odd mask ny nx) = (gridPixels ny nx).filter odd := by
    apply List.filter_congr
    intro q _
    simp [borderPix, hb]
  unfold inpaint
  simp only [he]
  constructor
  · rintro ⟨q, hq1, hq2⟩
    have hne : (gridPixels ny nx).filter odd ≠ [] := List.ne_nil_of_mem (List.mem_filter.2 ⟨hq1, hq2⟩)
    rw [if_neg hne]
    split
    · simp [h p hp]
    · rfl
  · intro hq
    rw [if_pos]
    rw [List.filter_eq_nil_iff]
    intro q hq1
    simp [hq q hq1]

example : inpaint (fun l _ => l.headD (0, 0)) (fun _ => false) (fun _ => false) 1 1 2 2 false (fun _ _ _ => (5 : ℤ)) 0 0 (1, 1) = 0 := by
  decide +kernel

/-- C195, refuted for maps with two leading axes of more than one component that are swapped in memory, such as
`np.swapaxes(map,0,1)`: the filled values are written to a copy and lost, so that every masked pixel keeps its value. -/
theorem C195_layout_refuted {α : Type} [Zero α] (near : List (Nat × Nat) → Nat × Nat → Nat × Nat) (odd mask : Nat × Nat → Bool)
    (n0 n1 ny nx : Nat) (h0 : 2 ≤ n0) (h1 : 2 ≤ n1) (map : Nat → Nat → Nat × Nat → α)
    (hbad : ∃ b, b ∈ gridPixels ny nx ∧ mask b = true) (hgood : ∃ g ∈ gridPixels ny nx, mask g = false) :
    inpaint near odd mask n0 n1 ny nx true map = map := by
  obtain ⟨b, hb, hbm⟩ := hbad
  obtain ⟨g, hg, hgm, hmin⟩ := exists_nearest mask ny nx b hgood
  have hne : (gridPixels ny nx).filter (borderPix odd mask ny nx) ≠ [] :=
    List.ne_nil_of_mem (List.mem_filter.2 ⟨hg, nearest_on_border odd mask ny nx b g hb hbm hg hgm hmin⟩)
  have hpos : 0 < ny * nx := by
    obtain ⟨h2, h3⟩ := mem_gridPixels.1 hb
    exact Nat.mul_pos (by omega) (by omega)
  have hflat : flattensInPlace n0 n1 (keptStrides n0 n1 (ny * nx) true).1 (keptStrides n0 n1 (ny * nx) true).2 = false := by
    simp only [flattensInPlace, keptStrides, if_true, Bool.or_eq_false_iff, decide_eq_false_iff_not, beq_eq_false_iff_ne]
    refine ⟨⟨by omega, by omega⟩, ?_⟩
    intro h
    have : 4 ≤ n1 * n0 := Nat.mul_le_mul h1 h0
    nlinarith
  unfold inpaint
  simp [hne, hflat]

example : inpaint (fun l _ => l.headD (0, 0)) (fun _ => false) (fun p => p == (0, 0)) 2 2 1 2 true (fun _ _ p => if p = (0, 0) then (99 : ℤ) else 1)
    0 0 (0, 0) = 99 := by
  decide +kernel

end Pixell
