/-
C25: range arithmetic is set arithmetic.  C26: mask2range.
-/
import Verif.Lemmas.Ranges
import Verif.Lemmas.Mask2Range
import Mathlib.Data.List.Pairwise

namespace Pixell

/-- Integer `z` lies in one of the ranges. -/
def InRanges (l : List Range) (z : Int) : Prop := ∃ r ∈ l, r.1 ≤ z ∧ z < r.2

instance (l : List Range) (z : Int) : Decidable (InRanges l z) := by unfold InRanges; infer_instance

/-- The ranges of a list, in any order, do not overlap. -/
def NonOverlapping (l : List Range) : Prop := l.Pairwise fun x y => x.2 ≤ y.1 ∨ y.2 ≤ x.1

theorem nonOverlapping_apart {l : List Range} (h : NonOverlapping l) {x y : Range} (hx : x ∈ l) (hy : y ∈ l)
    (hne : x ≠ y) : x.2 ≤ y.1 ∨ y.2 ≤ x.1 := by
  haveI : Std.Symm fun x y : Range => x.2 ≤ y.1 ∨ y.2 ≤ x.1 := ⟨fun _ _ h => h.symm⟩
  exact List.Pairwise.forall h hx hy hne

/-- Sorting non-overlapping ranges by their start puts them end to end. -/
theorem sorted_chain {l : List Range} (hv : ∀ x ∈ l, x.1 ≤ x.2) (hn : NonOverlapping l)
    (ht : ∀ x ∈ l, ∀ y ∈ l, x.1 = y.1 → x = y) : Chain (sortByStart l) := by
  have hp := sortByStart_perm l
  refine ⟨fun x hx => hv x (hp.mem_iff.1 hx), ?_⟩
  have h1 : (sortByStart l).Pairwise fun x y => x.2 ≤ y.1 ∨ y.2 ≤ x.1 :=
    (hp.pairwise_iff (fun {x y} h => h.symm)).2 hn
  have h2 := sortByStart_sorted l
  have h3 : (sortByStart l).Pairwise fun x y => (x.2 ≤ y.1 ∨ y.2 ≤ x.1) ∧ x.1 ≤ y.1 := h1.and h2
  refine h3.imp_of_mem ?_
  rintro x y hx hy ⟨h | h, h'⟩
  · exact h
  · have hxl := hp.mem_iff.1 hx
    have hyl := hp.mem_iff.1 hy
    have e1 := hv y hyl
    have e2 : x = y := ht x hxl y hyl (by omega)
    subst e2
    exact h

/-- range_sub: for non-empty, non-overlapping ranges `a` and non-overlapping ranges `b` (in any order),
the result is the set difference, as sorted, disjoint, non-empty ranges each inside one range of `a`. -/
theorem C25_sub_partial (a b : List Range) (ha : ∀ x ∈ a, x.1 < x.2) (han : NonOverlapping a)
    (hb : ∀ x ∈ b, x.1 ≤ x.2) (hbn : NonOverlapping b) (hbt : ∀ x ∈ b, ∀ y ∈ b, x.1 = y.1 → x = y) :
    ∃ c, rangeSub a b = some c ∧ (∀ z, InRanges c z ↔ InRanges a z ∧ ¬ InRanges b z) ∧
      c.Pairwise (fun q r => q.2 ≤ r.1) ∧ ∀ q ∈ c, q.1 < q.2 ∧ ∃ x ∈ a, x.1 ≤ q.1 ∧ q.2 ≤ x.2 := by
  have hat : ∀ x ∈ a, ∀ y ∈ a, x.1 = y.1 → x = y := by
    intro x hx y hy h
    by_contra hne
    have h1 := nonOverlapping_apart han hx hy hne
    have := ha x hx
    have := ha y hy
    omega
  have ca := sorted_chain (fun x hx => le_of_lt (ha x hx)) han hat
  have cb := sorted_chain hb hbn hbt
  have pa := sortByStart_perm a
  have pb := sortByStart_perm b
  obtain ⟨c, hc, S⟩ := subLoop_spec (sortByStart b) cb (sortByStart a) ca.2
    (fun x hx => ha x (pa.mem_iff.1 hx)) 0 (Nat.zero_le _) (by simp)
  refine ⟨c, hc, fun z => ⟨?_, ?_⟩, S.chain, fun q hq => ?_⟩
  · rintro ⟨q, hq, hz⟩
    constructor
    · obtain ⟨x, hx, h⟩ := S.inside q hq
      exact ⟨x, pa.mem_iff.1 hx, by omega⟩
    · rintro ⟨x, hx, h⟩
      have := S.apart q hq x (pb.mem_iff.2 hx)
      omega
  · rintro ⟨⟨x, hx, h⟩, hnb⟩
    exact S.cover x (pa.mem_iff.2 hx) z h.1 h.2 (fun y hy hh => hnb ⟨y, pb.mem_iff.1 hy, hh⟩)
  · obtain ⟨x, hx, h⟩ := S.inside q hq
    exact ⟨h.2.1, x, pa.mem_iff.1 hx, h.1, h.2.2⟩

example : rangeSub [(200, 1000), (0, 100)] [(3, 4), (8, 999), (1, 2)] = some [(0, 1), (2, 3), (4, 8), (999, 1000)] := by
  decide +kernel

/-- An empty range in `a` upsets the bookkeeping: the result contains points outside `a`. -/
theorem C25_sub_refuted :
    ∃ c, rangeSub [(0, 0), (5, 10)] [(1, 2), (6, 7)] = some c ∧ InRanges c 3 ∧ ¬ InRanges [(0, 0), (5, 10)] 3 := by
  refine ⟨[(5, 6), (2, 6), (7, 10)], ?_⟩
  decide +kernel

/-- With two leading empty ranges and an empty `b` the call fails altogether. -/
theorem C25_sub_fails : rangeSub [(0, 0), (1, 1), (2, 5)] [] = none := by decide +kernel

/-- range_cut keeps the point set and leaves no range with a cut strictly inside it; the ranges are
sorted, disjoint, non-empty, and each inside one original range. -/
theorem C25_cut_partial (a : List Range) (c : List Int) (ha : ∀ x ∈ a, x.1 < x.2) (han : NonOverlapping a) :
    ∃ o, rangeCut a c = some o ∧ (∀ z, InRanges o z ↔ InRanges a z) ∧
      (∀ q ∈ o, ∀ p ∈ c, ¬ (q.1 < p ∧ p < q.2)) ∧ o.Pairwise (fun q r => q.2 ≤ r.1) ∧
      ∀ q ∈ o, q.1 < q.2 ∧ ∃ x ∈ a, x.1 ≤ q.1 ∧ q.2 ≤ x.2 := by
  have hb1 : ∀ x ∈ c.map (fun x => (x, x)), x.1 ≤ x.2 := by
    intro x hx; obtain ⟨y, _, rfl⟩ := List.mem_map.1 hx; exact le_refl _
  have hbn : NonOverlapping (c.map fun x => (x, x)) := by
    unfold NonOverlapping
    rw [List.pairwise_map]
    exact List.pairwise_of_forall (fun x y => le_total x y)
  have hbt : ∀ x ∈ c.map (fun x => (x, x)), ∀ y ∈ c.map (fun x => (x, x)), x.1 = y.1 → x = y := by
    intro x hx y hy h
    obtain ⟨u, _, rfl⟩ := List.mem_map.1 hx
    obtain ⟨v, _, rfl⟩ := List.mem_map.1 hy
    simpa using h
  have hat : ∀ x ∈ a, ∀ y ∈ a, x.1 = y.1 → x = y := by
    intro x hx y hy h
    by_contra hne
    have h1 := nonOverlapping_apart han hx hy hne
    have := ha x hx
    have := ha y hy
    omega
  have ca := sorted_chain (fun x hx => le_of_lt (ha x hx)) han hat
  have cb := sorted_chain hb1 hbn hbt
  have pa := sortByStart_perm a
  have pb := sortByStart_perm (c.map fun x => (x, x))
  obtain ⟨o, ho, S⟩ := subLoop_spec _ cb (sortByStart a) ca.2
    (fun x hx => ha x (pa.mem_iff.1 hx)) 0 (Nat.zero_le _) (by simp)
  refine ⟨o, ho, fun z => ⟨?_, ?_⟩, fun q hq p hp => ?_, S.chain, fun q hq => ?_⟩
  · rintro ⟨q, hq, hz⟩
    obtain ⟨x, hx, h⟩ := S.inside q hq
    exact ⟨x, pa.mem_iff.1 hx, by omega⟩
  · rintro ⟨x, hx, h⟩
    refine S.cover x (pa.mem_iff.2 hx) z h.1 h.2 (fun y hy hh => ?_)
    obtain ⟨u, _, rfl⟩ := List.mem_map.1 (pb.mem_iff.1 hy)
    dsimp only at hh; omega
  · have := S.apart q hq (p, p) (pb.mem_iff.2 (List.mem_map.2 ⟨p, hp, rfl⟩))
    dsimp only at this; omega
  · obtain ⟨x, hx, h⟩ := S.inside q hq
    exact ⟨h.2.1, x, pa.mem_iff.1 hx, h.1, h.2.2⟩

example : rangeCut [(0, 10), (20, 100)] [0, 2, 7, 30, 200] = some [(0, 2), (2, 7), (7, 10), (20, 30), (30, 100)] := by
  decide +kernel

/-- range_union: the union of the point sets, as sorted ranges with gaps between them; every input range
lies inside one output range. -/
theorem C25_union (a : List Range) (ha : ∀ x ∈ a, x.1 ≤ x.2) :
    (∀ z, InRanges (rangeUnion a) z ↔ InRanges a z) ∧ (rangeUnion a).Pairwise (fun q r => q.2 < r.1) ∧
    (∀ q ∈ rangeUnion a, q.1 ≤ q.2) ∧ ∀ x ∈ a, ∃ q ∈ rangeUnion a, q.1 ≤ x.1 ∧ x.2 ≤ q.2 := by
  have p := sortByStart_perm a
  obtain ⟨h1, h2, h3, h4⟩ := unionLoop_spec (sortByStart a) (sortByStart_sorted a) (fun x hx => ha x (p.mem_iff.1 hx))
  refine ⟨fun z => ?_, h2, fun q hq => (h3 q hq).1, fun x hx => h4 x (p.mem_iff.2 hx)⟩
  unfold InRanges
  rw [show rangeUnion a = unionLoop (sortByStart a) from rfl, h1 z]
  constructor
  · rintro ⟨x, hx, h⟩; exact ⟨x, p.mem_iff.1 hx, h⟩
  · rintro ⟨x, hx, h⟩; exact ⟨x, p.mem_iff.2 hx, h⟩

example : rangeUnion [(5, 8), (0, 3), (3, 4), (7, 10), (12, 13)] = [(0, 4), (5, 10), (12, 13)] := by decide +kernel

/-- range_normalize keeps exactly the non-empty ranges, in order, and so the point set. -/
theorem C25_normalize (a : List Range) :
    (∀ z, InRanges (rangeNormalize a) z ↔ InRanges a z) ∧ (∀ r, r ∈ rangeNormalize a ↔ r ∈ a ∧ r.1 < r.2) ∧
    (rangeNormalize a).Sublist a := by
  have hm : ∀ r, r ∈ rangeNormalize a ↔ r ∈ a ∧ r.1 < r.2 := by
    intro r
    simp only [rangeNormalize, List.mem_filter, bne_iff_ne, Bool.not_eq_true', decide_eq_false_iff_not]
    constructor
    · rintro ⟨⟨h1, h2⟩, h3⟩; exact ⟨h1, by omega⟩
    · rintro ⟨h1, h2⟩; exact ⟨⟨h1, by omega⟩, by omega⟩
  refine ⟨fun z => ⟨?_, ?_⟩, hm, List.Sublist.trans List.filter_sublist List.filter_sublist⟩
  · rintro ⟨r, hr, h⟩; exact ⟨r, ((hm r).1 hr).1, h⟩
  · rintro ⟨r, hr, h⟩; exact ⟨r, (hm r).2 ⟨hr, by omega⟩, h⟩

example : rangeNormalize [(3, 3), (1, 4), (9, 2), (0, 1)] = [(1, 4), (0, 1)] := by decide +kernel

/-- mask2range: every rise is paired with a fall; the ranges are non-empty, inside the array, sorted,
disjoint and not touching, and their points are exactly the true positions. -/
theorem C26_mask2range (mask : List Bool) :
    (∀ p ∈ mask2range mask, p.1 < p.2 ∧ p.2 ≤ mask.length) ∧
    (mask2range mask).Pairwise (fun p q => p.2 < q.1) ∧
    ∀ i, (∃ p ∈ mask2range mask, p.1 ≤ i ∧ i < p.2) ↔ mask[i]? = some true := by
  obtain ⟨⟨-, h2, h3, h4⟩, -⟩ := runs_spec mask 0
  rw [mask2range_eq]
  refine ⟨fun p hp => ?_, h3, fun i => ?_⟩
  · have := h2 p hp; omega
  · rw [h4 i]
    unfold TruePt
    constructor
    · rintro ⟨j, rfl, h⟩; simpa using h
    · intro h; exact ⟨i, by omega, h⟩

example : mask2range [true, true, false, true, false, false, true] = [(0, 2), (3, 4), (6, 7)] := by decide

/-- The two index arrays always have the same length, so that no rise or fall is lost in pairing. -/
theorem C26_lengths (mask : List Bool) :
    let m := [false] ++ mask ++ [false]
    ((List.range (m.length - 1)).filter fun i => !(m.getD i false) && m.getD (i + 1) false).length =
      ((List.range (m.length - 1)).filter fun i => m.getD i false && !(m.getD (i + 1) false)).length := by
  intro m
  obtain ⟨⟨h1, -⟩, -⟩ := runs_spec mask 0
  rw [← rises_eq, ← falls_eq] at h1
  simpa [m] using h1

end Pixell
