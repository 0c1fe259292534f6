import Mathlib.Data.List.GetD
import Mathlib.Algebra.Order.BigOperators.Group.Finset
import Verif.Lemmas.DistSound

/-
Property C80 for the bubble method: it always finishes, it never underestimates, its result cannot be improved by one more
step, and it is exact wherever a point's domain of strictly closest pixels is connected.
-/
namespace Pixell

variable {α : Type} [LinearOrder α]
set_option linter.unusedSectionVars false

/-- The neighbour of a pixel in direction `o`, with wrapping at the edges of the map. -/
def neighbour (ny nx y x : Nat) (o : Int × Int) : Nat × Nat := (((y + o.1 : Int) % ny).toNat, ((x + o.2 : Int) % nx).toNat)

/-- The four directions. -/
def fourDirs : List (Int × Int) := [(0, 1), (1, 0), (0, -1), (-1, 0)]

theorem mem_neighOffs (o : Int × Int) : o ∈ neighOffs ↔ o ∈ fourDirs := by
  simp only [neighOffs, fourDirs, List.mem_cons, List.not_mem_nil, or_false]
  tauto

theorem wrap1_eq {a n : Nat} (h : a < n) (o : Int) (ho : -1 ≤ o ∧ o ≤ 1) : wrap1 (a + o) n = (a + o : Int) % n := by
  unfold wrap1
  split_ifs with h1 h2
  · have : (a + o : Int) + n = ((a + o + n : Int)) := rfl
    rw [← Int.add_emod_right, Int.emod_eq_of_lt (by omega) (by omega)]
  · rw [← Int.sub_emod_right, Int.emod_eq_of_lt (by omega) (by omega)]
  · rw [Int.emod_eq_of_lt (by omega) (by omega)]

theorem wrap1_lt {a n : Nat} (h : a < n) (o : Int) (ho : -1 ≤ o ∧ o ≤ 1) : (wrap1 (a + o) n).toNat < n := by
  unfold wrap1
  split_ifs <;> omega

theorem neighOffs_small (o : Int × Int) (ho : o ∈ neighOffs) : (-1 ≤ o.1 ∧ o.1 ≤ 1) ∧ (-1 ≤ o.2 ∧ o.2 ≤ 1) := by
  unfold neighOffs at ho
  simp only [List.mem_cons, List.not_mem_nil, or_false] at ho
  rcases ho with rfl | rfl | rfl | rfl <;> simp

theorem neighbour_lt {ny nx y x : Nat} (hy : y < ny) (hx : x < nx) {o : Int × Int} (ho : o ∈ neighOffs) :
    (neighbour ny nx y x o).1 < ny ∧ (neighbour ny nx y x o).2 < nx :=
  ⟨by unfold neighbour; rw [← wrap1_eq hy _ (neighOffs_small o ho).1]; exact wrap1_lt hy _ (neighOffs_small o ho).1,
    by unfold neighbour; rw [← wrap1_eq hx _ (neighOffs_small o ho).2]; exact wrap1_lt hx _ (neighOffs_small o ho).2⟩

/-- The value and the closest point stored for a pixel. -/
def Bubble.dist (s : Bubble α) (nx : Nat) (rmax : α) (y x : Nat) : α := s.dists.getD (y * nx + x) rmax
def Bubble.dom (s : Bubble α) (nx : Nat) (y x : Nat) : Option Nat := s.domains.getD (y * nx + x) none

/-- Every pixel has either no point and the value `rmax`, or a point and the distance to it. -/
structure BubOk (ny nx n : Nat) (d : Nat → Nat → Nat → α) (rmax : α) (s : Bubble α) : Prop where
  ld : s.dists.length = ny * nx
  lm : s.domains.length = ny * nx
  ok : ∀ y < ny, ∀ x < nx, (s.dom nx y x = none ∧ s.dist nx rmax y x = rmax) ∨
    ∃ i < n, s.dom nx y x = some i ∧ s.dist nx rmax y x = d i y x

/-- The point of this pixel cannot improve any neighbour. -/
def BubStable (ny nx : Nat) (d : Nat → Nat → Nat → α) (rmax : α) (s : Bubble α) (y x : Nat) : Prop :=
  ∀ i, s.dom nx y x = some i → ∀ o ∈ neighOffs,
    s.dist nx rmax (neighbour ny nx y x o).1 (neighbour ny nx y x o).2 ≤
        d i (neighbour ny nx y x o).1 (neighbour ny nx y x o).2 ∨
      rmax ≤ d i (neighbour ny nx y x o).1 (neighbour ny nx y x o).2

/-- How many times the values could still be lowered. -/
def bubMeasure (ny nx n : Nat) (d : Nat → Nat → Nat → α) (rmax : α) (s : Bubble α) : Nat :=
  ∑ q ∈ Finset.range (ny * nx), ((Finset.range n).filter fun i => d i (q / nx) (q % nx) < s.dist nx rmax (q / nx) (q % nx)).card

theorem bubMeasure_le (ny nx n : Nat) (d : Nat → Nat → Nat → α) (rmax : α) (s : Bubble α) :
    bubMeasure ny nx n d rmax s ≤ ny * nx * n := by
  unfold bubMeasure
  calc _ ≤ ∑ q ∈ Finset.range (ny * nx), n := Finset.sum_le_sum fun q _ => by
        have := Finset.card_filter_le (Finset.range n) fun i => d i (q / nx) (q % nx) < s.dist nx rmax (q / nx) (q % nx)
        simpa using this
    _ = _ := by simp

section
variable {ny nx n : Nat} {d : Nat → Nat → Nat → α} {rmax : α}

/-- Writing point `i` into pixel `(y,x)`. -/
def Bubble.put (s : Bubble α) (nx : Nat) (d : Nat → Nat → Nat → α) (i y x : Nat) : Bubble α :=
  ⟨s.dists.set (y * nx + x) (d i y x), s.domains.set (y * nx + x) (some i)⟩

theorem put_dist {s : Bubble α} (hs : BubOk ny nx n d rmax s) {i y x y' x' : Nat} (hy : y < ny) (hx : x < nx) (hx' : x' < nx) :
    (s.put nx d i y x).dist nx rmax y' x' = if y' = y ∧ x' = x then d i y x else s.dist nx rmax y' x' := by
  unfold Bubble.dist Bubble.put
  split_ifs with h
  · obtain ⟨rfl, rfl⟩ := h
    exact getD_set_eq _ _ _ _ (by rw [hs.ld]; exact flat_lt hy hx)
  · exact getD_set_ne _ _ _ _ _ fun e => h (by obtain ⟨a, b⟩ := flat_inj hx hx' e; exact ⟨a.symm, b.symm⟩)

theorem put_dom {s : Bubble α} (hs : BubOk ny nx n d rmax s) {i y x y' x' : Nat} (hy : y < ny) (hx : x < nx) (hx' : x' < nx) :
    (s.put nx d i y x).dom nx y' x' = if y' = y ∧ x' = x then some i else s.dom nx y' x' := by
  unfold Bubble.dom Bubble.put
  split_ifs with h
  · obtain ⟨rfl, rfl⟩ := h
    exact getD_set_eq _ _ _ _ (by rw [hs.lm]; exact flat_lt hy hx)
  · exact getD_set_ne _ _ _ _ _ fun e => h (by obtain ⟨a, b⟩ := flat_inj hx hx' e; exact ⟨a.symm, b.symm⟩)

theorem put_ok {s : Bubble α} (hs : BubOk ny nx n d rmax s) {i y x : Nat} (hi : i < n) (hy : y < ny) (hx : x < nx) :
    BubOk ny nx n d rmax (s.put nx d i y x) := by
  refine ⟨by simp [Bubble.put, hs.ld], by simp [Bubble.put, hs.lm], fun y' hy' x' hx' => ?_⟩
  rw [put_dist hs hy hx hx', put_dom hs hy hx hx']
  by_cases h : y' = y ∧ x' = x
  · right
    obtain ⟨rfl, rfl⟩ := h
    exact ⟨i, hi, by simp, by simp⟩
  · rw [if_neg h, if_neg h]
    exact hs.ok y' hy' x' hx'

theorem put_measure {s : Bubble α} (hs : BubOk ny nx n d rmax s) {i y x : Nat} (hi : i < n) (hy : y < ny) (hx : x < nx)
    (hlt : d i y x < s.dist nx rmax y x) : bubMeasure ny nx n d rmax (s.put nx d i y x) < bubMeasure ny nx n d rmax s := by
  have hmod : ∀ q ∈ Finset.range (ny * nx), q % nx < nx := fun q _ => Nat.mod_lt _ (by omega)
  have hle : ∀ q ∈ Finset.range (ny * nx), (s.put nx d i y x).dist nx rmax (q / nx) (q % nx) ≤ s.dist nx rmax (q / nx) (q % nx) := by
    intro q hq
    rw [put_dist hs hy hx (hmod q hq)]
    split_ifs with h
    · rw [h.1, h.2]; exact hlt.le
    · exact le_rfl
  unfold bubMeasure
  apply Finset.sum_lt_sum
  · intro q hq
    apply Finset.card_le_card
    intro j hj
    simp only [Finset.mem_filter] at hj ⊢
    exact ⟨hj.1, lt_of_lt_of_le hj.2 (hle q hq)⟩
  · refine ⟨y * nx + x, Finset.mem_range.mpr (flat_lt hy hx), ?_⟩
    rw [(flat_div hx).1, (flat_div hx).2]
    apply Finset.card_lt_card
    rw [Finset.ssubset_iff_of_subset]
    · refine ⟨i, ?_, ?_⟩
      · simp only [Finset.mem_filter, Finset.mem_range]; exact ⟨hi, hlt⟩
      · simp only [Finset.mem_filter, Finset.mem_range, not_and]
        intro _
        rw [put_dist hs hy hx hx, if_pos ⟨rfl, rfl⟩]
        exact lt_irrefl _
    · intro j hj
      simp only [Finset.mem_filter, Finset.mem_range] at hj ⊢
      refine ⟨hj.1, lt_trans hj.2 ?_⟩
      rw [put_dist hs hy hx hx, if_pos ⟨rfl, rfl⟩]
      exact hlt

/-- What one attempt does. -/
theorem bubbleTry_cases (s : Bubble α × List (Nat × Nat)) (hs : BubOk ny nx n d rmax s.1) {ip y x : Nat} (hi : ip < n) (hy : y < ny)
    (hx : x < nx) {o : Int × Int} (ho : o ∈ neighOffs) (z : Nat × Nat) (hz : z = neighbour ny nx y x o) :
    (bubbleTry ny nx d rmax ip y x s o = s ∧ (s.1.dist nx rmax z.1 z.2 ≤ d ip z.1 z.2 ∨ rmax ≤ d ip z.1 z.2)) ∨
    (bubbleTry ny nx d rmax ip y x s o = (s.1.put nx d ip z.1 z.2, s.2 ++ [z]) ∧
      d ip z.1 z.2 < s.1.dist nx rmax z.1 z.2 ∧ s.1.dom nx z.1 z.2 ≠ some ip) := by
  have hl := neighbour_lt hy hx ho
  rw [← hz] at hl
  have hz' : ((wrap1 (y + o.1) ny).toNat, (wrap1 (x + o.2) nx).toNat) = z := by
    rw [wrap1_eq hy _ (neighOffs_small o ho).1, wrap1_eq hx _ (neighOffs_small o ho).2]; exact hz.symm
  have e1 : (wrap1 (y + o.1) ny).toNat = z.1 := by rw [← hz']
  have e2 : (wrap1 (x + o.2) nx).toNat = z.2 := by rw [← hz']
  unfold bubbleTry
  simp only [e1, e2]
  by_cases h1 : s.1.domains.getD (z.1 * nx + z.2) none = some ip
  · left
    rw [if_pos h1]
    refine ⟨rfl, Or.inl ?_⟩
    rcases hs.ok z.1 hl.1 z.2 hl.2 with ⟨h2, -⟩ | ⟨i, -, h2, h3⟩
    · unfold Bubble.dom at h2; rw [h1] at h2; cases h2
    · unfold Bubble.dom at h2; rw [h1] at h2
      obtain rfl := Option.some.inj h2
      rw [h3]
  · rw [if_neg h1]
    by_cases h2 : d ip z.1 z.2 < s.1.dists.getD (z.1 * nx + z.2) rmax ∧ d ip z.1 z.2 < rmax
    · right
      rw [if_pos h2]
      exact ⟨rfl, h2.1, h1⟩
    · left
      rw [if_neg h2]
      refine ⟨rfl, ?_⟩
      by_cases h3 : d ip z.1 z.2 < rmax
      · left
        by_contra h4
        exact h2 ⟨not_le.mp h4, h3⟩
      · exact Or.inr (not_lt.mp h3)

/-- The invariant of one pass: `rem` are the entries still to be visited, `m0` the measure at the start. -/
structure BubPass (ny nx n : Nat) (d : Nat → Nat → Nat → α) (rmax : α) (m0 : Nat) (b0 : Nat → Nat → α)
    (todo : Nat → Nat → Prop) (s : Bubble α × List (Nat × Nat)) : Prop where
  ok : BubOk ny nx n d rmax s.1
  inr : ∀ p ∈ s.2, p.1 < ny ∧ p.2 < nx
  meas : bubMeasure ny nx n d rmax s.1 + s.2.length ≤ m0
  low : ∀ y < ny, ∀ x < nx, s.1.dist nx rmax y x ≤ b0 y x
  cover : ∀ y < ny, ∀ x < nx, todo y x ∨ (y, x) ∈ s.2 ∨ BubStable ny nx d rmax s.1 y x

theorem bubbleTry_pass {m0 : Nat} {b0 : Nat → Nat → α} {todo : Nat → Nat → Prop} (s : Bubble α × List (Nat × Nat))
    (hs : BubPass ny nx n d rmax m0 b0 todo s) {ip y x : Nat} (hi : ip < n) (hy : y < ny) (hx : x < nx) {o : Int × Int}
    (ho : o ∈ neighOffs) : BubPass ny nx n d rmax m0 b0 todo (bubbleTry ny nx d rmax ip y x s o) := by
  have hl := neighbour_lt hy hx ho
  rcases bubbleTry_cases s hs.ok hi hy hx ho _ rfl with ⟨h, -⟩ | ⟨h, hlt, -⟩
  · rw [h]; exact hs
  · rw [h]
    set z := neighbour ny nx y x o
    have hle : ∀ y' < ny, ∀ x' < nx, (s.1.put nx d ip z.1 z.2).dist nx rmax y' x' ≤ s.1.dist nx rmax y' x' := by
      intro y' _ x' hx'
      rw [put_dist hs.ok hl.1 hl.2 hx']
      split_ifs with h
      · rw [h.1, h.2]; exact hlt.le
      · exact le_rfl
    refine ⟨put_ok hs.ok hi hl.1 hl.2, ?_, ?_, ?_, ?_⟩
    · intro p hp
      simp only [List.mem_append, List.mem_singleton] at hp
      rcases hp with hp | rfl
      · exact hs.inr p hp
      · exact hl
    · have := put_measure hs.ok hi hl.1 hl.2 hlt
      have := hs.meas
      simp only [List.length_append, List.length_singleton]
      omega
    · intro y' hy' x' hx'
      exact le_trans (hle y' hy' x' hx') (hs.low y' hy' x' hx')
    · intro y' hy' x' hx'
      by_cases h : y' = z.1 ∧ x' = z.2
      · right; left
        simp only [List.mem_append, List.mem_singleton]
        right
        rw [h.1, h.2]
      · rcases hs.cover y' hy' x' hx' with hc | hc | hc
        · exact Or.inl hc
        · exact Or.inr (Or.inl (List.mem_append_left _ hc))
        · right; right
          intro i hdom o' ho'
          rw [put_dom hs.ok hl.1 hl.2 hx', if_neg h] at hdom
          have hl' := neighbour_lt hy' hx' ho'
          rcases hc i hdom o' ho' with h1 | h1
          · exact Or.inl (le_trans (hle _ hl'.1 _ hl'.2) h1)
          · exact Or.inr h1

/-- After a sequence of attempts from one pixel all of these neighbours are settled. -/
theorem bubbleTry_fold {m0 : Nat} {b0 : Nat → Nat → α} {todo : Nat → Nat → Prop} {ip y x : Nat} (hi : ip < n) (hy : y < ny) (hx : x < nx)
    (os : List (Int × Int)) (hos : ∀ o ∈ os, o ∈ neighOffs) (s : Bubble α × List (Nat × Nat))
    (hs : BubPass ny nx n d rmax m0 b0 todo s) (hdom : s.1.dom nx y x = some ip) :
    BubPass ny nx n d rmax m0 b0 todo (os.foldl (bubbleTry ny nx d rmax ip y x) s) ∧
    (os.foldl (bubbleTry ny nx d rmax ip y x) s).1.dom nx y x = some ip ∧
    (∀ y' < ny, ∀ x' < nx, (os.foldl (bubbleTry ny nx d rmax ip y x) s).1.dist nx rmax y' x' ≤ s.1.dist nx rmax y' x') ∧
    ∀ o ∈ os, (os.foldl (bubbleTry ny nx d rmax ip y x) s).1.dist nx rmax (neighbour ny nx y x o).1 (neighbour ny nx y x o).2 ≤
        d ip (neighbour ny nx y x o).1 (neighbour ny nx y x o).2 ∨ rmax ≤ d ip (neighbour ny nx y x o).1 (neighbour ny nx y x o).2 := by
  induction os generalizing s with
  | nil => exact ⟨hs, hdom, fun _ _ _ _ => le_rfl, by simp⟩
  | cons o os ih =>
    have ho := hos o (by simp)
    have hl := neighbour_lt hy hx ho
    have h1 := bubbleTry_pass s hs hi hy hx ho
    have hc := bubbleTry_cases s hs.ok hi hy hx ho _ rfl
    have hdom' : (bubbleTry ny nx d rmax ip y x s o).1.dom nx y x = some ip := by
      rcases hc with ⟨h, -⟩ | ⟨h, -, -⟩
      · rw [h]; exact hdom
      · rw [h, put_dom hs.ok hl.1 hl.2 hx]
        split_ifs
        · rfl
        · exact hdom
    have hle : ∀ y' < ny, ∀ x' < nx, (bubbleTry ny nx d rmax ip y x s o).1.dist nx rmax y' x' ≤ s.1.dist nx rmax y' x' := by
      intro y' _ x' hx'
      rcases hc with ⟨h, -⟩ | ⟨h, hlt, -⟩
      · rw [h]
      · rw [h, put_dist hs.ok hl.1 hl.2 hx']
        split_ifs with e
        · rw [e.1, e.2]; exact hlt.le
        · exact le_rfl
    obtain ⟨g1, g2, g3, g4⟩ := ih (fun o' ho' => hos o' (List.mem_cons_of_mem _ ho')) _ h1 hdom'
    refine ⟨g1, g2, fun y' hy' x' hx' => le_trans (g3 y' hy' x' hx') (hle y' hy' x' hx'), ?_⟩
    intro o' ho'
    rcases List.mem_cons.mp ho' with rfl | ho'
    · have hg := g3 _ hl.1 _ hl.2
      rw [List.foldl_cons]
      rcases hc with ⟨h, hd⟩ | ⟨h, -, -⟩
      · rcases hd with hd | hd
        · rw [h] at hg ⊢; exact Or.inl (le_trans hg hd)
        · exact Or.inr hd
      · left
        refine le_trans hg ?_
        rw [h, put_dist hs.ok hl.1 hl.2 hl.2, if_pos ⟨rfl, rfl⟩]
    · exact g4 o' ho'

theorem bubbleVisit_pass {m0 : Nat} {b0 : Nat → Nat → α} (p : Nat × Nat) (ps : List (Nat × Nat)) (s : Bubble α × List (Nat × Nat))
    (hp : p.1 < ny ∧ p.2 < nx) (hs : BubPass ny nx n d rmax m0 b0 (fun y x => (y, x) ∈ p :: ps) s) :
    BubPass ny nx n d rmax m0 b0 (fun y x => (y, x) ∈ ps) (bubbleVisit ny nx d rmax s p) := by
  unfold bubbleVisit
  have aux : ∀ t : Bubble α × List (Nat × Nat), BubPass ny nx n d rmax m0 b0 (fun y x => (y, x) ∈ p :: ps) t →
      BubStable ny nx d rmax t.1 p.1 p.2 → BubPass ny nx n d rmax m0 b0 (fun y x => (y, x) ∈ ps) t := by
    intro t ht hst
    refine ⟨ht.ok, ht.inr, ht.meas, ht.low, fun y hy x hx => ?_⟩
    rcases ht.cover y hy x hx with h | h | h
    · rcases List.mem_cons.mp h with h | h
      · right; right
        have e1 : y = p.1 := by rw [← h]
        have e2 : x = p.2 := by rw [← h]
        rw [e1, e2]; exact hst
      · exact Or.inl h
    · exact Or.inr (Or.inl h)
    · exact Or.inr (Or.inr h)
  cases hdom : s.1.domains.getD (p.1 * nx + p.2) none with
  | none =>
    apply aux s hs
    intro i hi
    unfold Bubble.dom at hi
    rw [hdom] at hi; cases hi
  | some ip =>
    have hi : ip < n := by
      rcases hs.ok.ok p.1 hp.1 p.2 hp.2 with ⟨h, -⟩ | ⟨i, h1, h2, -⟩
      · unfold Bubble.dom at h; rw [hdom] at h; cases h
      · unfold Bubble.dom at h2; rw [hdom] at h2
        rw [Option.some.inj h2]; exact h1
    obtain ⟨g1, g2, -, g4⟩ := bubbleTry_fold hi hp.1 hp.2 neighOffs (fun _ h => h) s hs hdom
    apply aux _ g1
    intro i hi' o ho
    rw [g2] at hi'
    obtain rfl := Option.some.inj hi'
    exact g4 o ho

theorem bubble_pass {m0 : Nat} {b0 : Nat → Nat → α} (ps : List (Nat × Nat)) (s : Bubble α × List (Nat × Nat))
    (hp : ∀ p ∈ ps, p.1 < ny ∧ p.2 < nx) (hs : BubPass ny nx n d rmax m0 b0 (fun y x => (y, x) ∈ ps) s) :
    BubPass ny nx n d rmax m0 b0 (fun _ _ => False) (ps.foldl (bubbleVisit ny nx d rmax) s) := by
  induction ps generalizing s with
  | nil => simpa using hs
  | cons p ps ih =>
    exact ih _ (fun q hq => hp q (List.mem_cons_of_mem _ hq)) (bubbleVisit_pass p ps s (hp p (by simp)) hs)

/-- The loop finishes within the measure and leaves everything stable. -/
theorem bubbleLoop_ok {b0 : Nat → Nat → α} (f : Nat) (s : Bubble α) (ps : List (Nat × Nat)) (hs : BubOk ny nx n d rmax s)
    (hp : ∀ p ∈ ps, p.1 < ny ∧ p.2 < nx) (hlow : ∀ y < ny, ∀ x < nx, s.dist nx rmax y x ≤ b0 y x)
    (hc : ∀ y < ny, ∀ x < nx, (y, x) ∈ ps ∨ BubStable ny nx d rmax s y x)
    (hf : bubMeasure ny nx n d rmax s < f ∨ ps = []) :
    ∃ t, bubbleLoop ny nx d rmax f s ps = some t ∧ BubOk ny nx n d rmax t ∧
      (∀ y < ny, ∀ x < nx, t.dist nx rmax y x ≤ b0 y x) ∧ ∀ y < ny, ∀ x < nx, BubStable ny nx d rmax t y x := by
  induction f generalizing s ps with
  | zero =>
    rcases hf with hf | rfl
    · omega
    · exact ⟨s, rfl, hs, hlow, fun y hy x hx => (hc y hy x hx).resolve_left (by simp)⟩
  | succ f ih =>
    cases ps with
    | nil => exact ⟨s, rfl, hs, hlow, fun y hy x hx => (hc y hy x hx).resolve_left (by simp)⟩
    | cons p ps =>
      have hm := hf.resolve_right (by simp)
      have hpass := bubble_pass (m0 := bubMeasure ny nx n d rmax s) (b0 := b0) (p :: ps) (s, []) hp
        ⟨hs, by simp, by simp, hlow, fun y hy x hx => (hc y hy x hx).imp id Or.inr⟩
      unfold bubbleLoop
      simp only
      refine ih _ _ hpass.ok hpass.inr hpass.low (fun y hy x hx => ?_) ?_
      · rcases hpass.cover y hy x hx with h | h | h
        · exact h.elim
        · exact Or.inl h
        · exact Or.inr h
      · have := hpass.meas
        by_cases hl : (List.foldl (bubbleVisit ny nx d rmax) (s, []) (p :: ps)).2 = []
        · exact Or.inr hl
        · have := List.length_pos_of_ne_nil hl
          exact Or.inl (by omega)

theorem bubbleInit_ok (pts : List (Nat × Nat)) (hpts : ∀ p ∈ pts, p.1 < ny ∧ p.2 < nx) :
    BubOk ny nx pts.length d rmax (bubbleInit ny nx d rmax pts) ∧
    (∀ y < ny, ∀ x < nx, ∀ i, (bubbleInit ny nx d rmax pts).dom nx y x = some i → pts[i]? = some (y, x)) ∧
    (∀ p ∈ pts, (bubbleInit ny nx d rmax pts).dom nx p.1 p.2 ≠ none) := by
  have key : ∀ (l : List (Nat × Nat)) (k : Nat) (s : Bubble α), (∀ p ∈ l, p.1 < ny ∧ p.2 < nx) → BubOk ny nx (k + l.length) d rmax s →
      let t := (l.zipIdx k).foldl (fun s p => (⟨s.dists.set (p.1.1 * nx + p.1.2) (d p.2 p.1.1 p.1.2),
        s.domains.set (p.1.1 * nx + p.1.2) (some p.2)⟩ : Bubble α)) s
      BubOk ny nx (k + l.length) d rmax t ∧
      (∀ y < ny, ∀ x < nx, ∀ i, t.dom nx y x = some i → s.dom nx y x = some i ∨ (k ≤ i ∧ l[i - k]? = some (y, x))) ∧
      (∀ y < ny, ∀ x < nx, s.dom nx y x ≠ none ∨ (y, x) ∈ l → t.dom nx y x ≠ none) := by
    intro l
    induction l with
    | nil => intro k s _ hs; exact ⟨by simpa using hs, fun y _ x _ i h => Or.inl (by simpa using h), fun y _ x _ h => by simpa using h⟩
    | cons p l ih =>
      intro k s hp hs
      have hpp := hp p (by simp)
      have hs' : BubOk ny nx (k + 1 + l.length) d rmax s := by
        have : k + 1 + l.length = k + (p :: l).length := by simp; omega
        rw [this]; exact hs
      have hput := put_ok hs' (i := k) (by omega) hpp.1 hpp.2
      obtain ⟨h1, h2, h3⟩ := ih (k + 1) (s.put nx d k p.1 p.2) (fun q hq => hp q (List.mem_cons_of_mem _ hq)) hput
      simp only [List.zipIdx_cons, List.foldl_cons]
      refine ⟨?_, ?_, ?_⟩
      · have : k + (p :: l).length = k + 1 + l.length := by simp; omega
        rw [this]; exact h1
      · intro y hy x hx i hi
        rcases h2 y hy x hx i hi with h | ⟨h, h'⟩
        · rw [put_dom hs' hpp.1 hpp.2 hx] at h
          split_ifs at h with e
          · right
            obtain rfl := Option.some.inj h
            refine ⟨le_rfl, ?_⟩
            rw [Nat.sub_self, e.1, e.2]
            rfl
          · exact Or.inl h
        · right
          refine ⟨by omega, ?_⟩
          have : i - k = (i - (k + 1)) + 1 := by omega
          rw [this, List.getElem?_cons_succ]
          exact h'
      · intro y hy x hx h
        apply h3 y hy x hx
        by_cases e : y = p.1 ∧ x = p.2
        · left
          rw [put_dom hs' hpp.1 hpp.2 hx, if_pos e]
          simp
        · rcases h with h | h
          · left
            rw [put_dom hs' hpp.1 hpp.2 hx, if_neg e]
            exact h
          · right
            rcases List.mem_cons.mp h with h | h
            · exfalso; apply e; rw [← h]; exact ⟨rfl, rfl⟩
            · exact h
  have hs0 : BubOk ny nx (0 + pts.length) d rmax ⟨List.replicate (ny * nx) rmax, List.replicate (ny * nx) none⟩ := by
    refine ⟨by simp, by simp, fun y hy x hx => Or.inl ⟨?_, ?_⟩⟩
    · unfold Bubble.dom
      rw [List.getD_eq_getElem _ _ (by simpa using flat_lt hy hx)]; simp
    · unfold Bubble.dist
      rw [List.getD_eq_getElem _ _ (by simpa using flat_lt hy hx)]; simp
  obtain ⟨h1, h2, h3⟩ := key pts 0 _ hpts hs0
  refine ⟨by rw [Nat.zero_add] at h1; exact h1, ?_, ?_⟩
  · intro y hy x hx i hi
    rcases h2 y hy x hx i hi with h | ⟨-, h⟩
    · rcases hs0.ok y hy x hx with ⟨h', -⟩ | ⟨j, -, h', h''⟩
      · rw [h'] at h; cases h
      · exfalso
        unfold Bubble.dom at h'
        rw [List.getD_eq_getElem _ _ (by simpa using flat_lt hy hx)] at h'
        simp at h'
    · simpa using h
  · intro p hp
    exact h3 p.1 (hpts p hp).1 p.2 (hpts p hp).2 (Or.inr hp)

end

/-- C80: the bubble method finishes for every map, every distance function, every cap and every list of points, and every
pixel then holds `rmax` or the distance to the point recorded as its closest, so that it never underestimates; no pixel can be
improved by the point of one of its neighbours. -/
theorem C80_bubble (ny nx : Nat) (d : Nat → Nat → Nat → α) (rmax : α) (pts : List (Nat × Nat))
    (hpts : ∀ p ∈ pts, p.1 < ny ∧ p.2 < nx) (fuel : Nat) (hf : ny * nx * pts.length < fuel) :
    ∃ s, bubble fuel ny nx d rmax pts = some s ∧ s.dists.length = ny * nx ∧ s.domains.length = ny * nx ∧
      ∀ y < ny, ∀ x < nx,
        ((s.domains[y * nx + x]? = some none ∧ s.dists[y * nx + x]? = some rmax) ∨
          ∃ i < pts.length, s.domains[y * nx + x]? = some (some i) ∧ s.dists[y * nx + x]? = some (d i y x)) ∧
        ∀ i, s.domains[y * nx + x]? = some (some i) → ∀ o ∈ fourDirs, ∀ v,
          s.dists[(neighbour ny nx y x o).1 * nx + (neighbour ny nx y x o).2]? = some v →
            v ≤ d i (neighbour ny nx y x o).1 (neighbour ny nx y x o).2 ∨
            rmax ≤ d i (neighbour ny nx y x o).1 (neighbour ny nx y x o).2 := by
  obtain ⟨h1, h2, h3⟩ := bubbleInit_ok (d := d) (rmax := rmax) pts hpts
  obtain ⟨t, e, hok, -, hst⟩ := bubbleLoop_ok (b0 := fun y x => (bubbleInit ny nx d rmax pts).dist nx rmax y x) fuel _ pts h1 hpts
    (fun _ _ _ _ => le_rfl) (fun y hy x hx => by
      by_cases hd : (bubbleInit ny nx d rmax pts).dom nx y x = none
      · right; intro i hi; rw [hd] at hi; cases hi
      · obtain ⟨i, hi⟩ := Option.ne_none_iff_exists'.mp hd
        left; exact List.mem_of_getElem? (h2 y hy x hx i hi))
    (Or.inl (lt_of_le_of_lt (bubMeasure_le ..) hf))
  have g1 : ∀ y < ny, ∀ x < nx, t.dists[y * nx + x]? = some (t.dist nx rmax y x) := by
    intro y hy x hx
    have : y * nx + x < t.dists.length := by rw [hok.ld]; exact flat_lt hy hx
    unfold Bubble.dist
    rw [List.getD_eq_getElem _ _ this, List.getElem?_eq_getElem this]
  have g2 : ∀ y < ny, ∀ x < nx, t.domains[y * nx + x]? = some (t.dom nx y x) := by
    intro y hy x hx
    have : y * nx + x < t.domains.length := by rw [hok.lm]; exact flat_lt hy hx
    unfold Bubble.dom
    rw [List.getD_eq_getElem _ _ this, List.getElem?_eq_getElem this]
  refine ⟨t, e, hok.ld, hok.lm, fun y hy x hx => ⟨?_, ?_⟩⟩
  · rw [g1 y hy x hx, g2 y hy x hx]
    rcases hok.ok y hy x hx with ⟨a, b⟩ | ⟨i, hi, a, b⟩
    · exact Or.inl ⟨by rw [a], by rw [b]⟩
    · exact Or.inr ⟨i, hi, by rw [a], by rw [b]⟩
  · intro i hi o ho v hv
    have hl := neighbour_lt hy hx ((mem_neighOffs o).mpr ho)
    rw [g2 y hy x hx] at hi
    rw [g1 _ hl.1 _ hl.2] at hv
    rw [← Option.some.inj hv]
    exact hst y hy x hx i (Option.some.inj hi) o ((mem_neighOffs o).mpr ho)

/-- The pixels that point `i` can reach through pixels of which it is the only closest point (points with the same distances,
such as a pixel listed twice, count as one). -/
inductive BubReach (ny nx : Nat) (d : Nat → Nat → Nat → α) (rmax : α) (pts : List (Nat × Nat)) (i : Nat) : Nat → Nat → Prop where
  | start (p : Nat × Nat) (hp : pts[i]? = some p) (hb : ∀ j < pts.length, d j = d i ∨ d i p.1 p.2 < d j p.1 p.2)
      (hr : d i p.1 p.2 < rmax) : BubReach ny nx d rmax pts i p.1 p.2
  | step (y x : Nat) (o : Int × Int) (ho : o ∈ fourDirs) (h : BubReach ny nx d rmax pts i y x)
      (hb : ∀ j < pts.length, d j = d i ∨ d i (neighbour ny nx y x o).1 (neighbour ny nx y x o).2 <
        d j (neighbour ny nx y x o).1 (neighbour ny nx y x o).2)
      (hr : d i (neighbour ny nx y x o).1 (neighbour ny nx y x o).2 < rmax) :
      BubReach ny nx d rmax pts i (neighbour ny nx y x o).1 (neighbour ny nx y x o).2

/-- C80: the bubble method is exact in every pixel connected to its closest point within that point's domain. Points in the
same pixel must have the same distances (as in distance_transform, where the points are pixels). -/
theorem C80_bubble_exact (ny nx : Nat) (d : Nat → Nat → Nat → α) (rmax : α) (pts : List (Nat × Nat))
    (hpts : ∀ p ∈ pts, p.1 < ny ∧ p.2 < nx) (hsame : ∀ i < pts.length, ∀ j < pts.length, pts[i]? = pts[j]? → d i = d j)
    (fuel : Nat) (hf : ny * nx * pts.length < fuel) :
    ∃ s, bubble fuel ny nx d rmax pts = some s ∧ ∀ i < pts.length, ∀ y x, BubReach ny nx d rmax pts i y x →
      s.dists[y * nx + x]? = some (d i y x) ∧ ∀ j < pts.length, d i y x ≤ d j y x := by
  obtain ⟨h1, h2, h3⟩ := bubbleInit_ok (d := d) (rmax := rmax) pts hpts
  obtain ⟨t, e, hok, hlow, hst⟩ := bubbleLoop_ok (b0 := fun y x => (bubbleInit ny nx d rmax pts).dist nx rmax y x) fuel _ pts h1 hpts
    (fun _ _ _ _ => le_rfl) (fun y hy x hx => by
      by_cases hd : (bubbleInit ny nx d rmax pts).dom nx y x = none
      · right; intro i hi; rw [hd] at hi; cases hi
      · obtain ⟨i, hi⟩ := Option.ne_none_iff_exists'.mp hd
        left; exact List.mem_of_getElem? (h2 y hy x hx i hi))
    (Or.inl (lt_of_le_of_lt (bubMeasure_le ..) hf))
  refine ⟨t, e, ?_⟩
  intro i hi
  -- a value not above the strict minimum determines the point
  have pin : ∀ y x, y < ny → x < nx → (∀ j < pts.length, d j = d i ∨ d i y x < d j y x) → d i y x < rmax →
      t.dist nx rmax y x ≤ d i y x → ∃ j, t.dom nx y x = some j ∧ d j = d i ∧ t.dist nx rmax y x = d i y x := by
    intro y x hy hx hb hr hle
    rcases hok.ok y hy x hx with ⟨-, a⟩ | ⟨j, hj, a, b⟩
    · rw [a] at hle; exact absurd hr (not_lt.mpr hle)
    · rcases hb j hj with h | h
      · exact ⟨j, a, h, by rw [b, h]⟩
      · rw [b] at hle; exact absurd h (not_lt.mpr hle)
  have main : ∀ y x, BubReach ny nx d rmax pts i y x → y < ny ∧ x < nx ∧ (∀ j < pts.length, d i y x ≤ d j y x) ∧
      ∃ j, t.dom nx y x = some j ∧ d j = d i ∧ t.dist nx rmax y x = d i y x := by
    intro y x h
    induction h with
    | start p hp hb hr =>
      have hin := hpts p (List.mem_of_getElem? hp)
      refine ⟨hin.1, hin.2, fun j hj => ?_, pin _ _ hin.1 hin.2 hb hr ?_⟩
      · rcases hb j hj with h | h
        · rw [h]
        · exact h.le
      · refine le_trans (hlow _ hin.1 _ hin.2) ?_
        obtain ⟨k, hk⟩ := Option.ne_none_iff_exists'.mp (h3 p (List.mem_of_getElem? hp))
        have hkp := h2 _ hin.1 _ hin.2 k hk
        have hkl := (List.getElem?_eq_some_iff.mp hkp).1
        rcases h1.ok _ hin.1 _ hin.2 with ⟨a, -⟩ | ⟨j, hj, a, b⟩
        · rw [a] at hk; cases hk
        · rw [a] at hk
          obtain rfl := Option.some.inj hk
          rw [b, hsame j hj i hi (by rw [hkp, hp])]
    | step y x o ho _ hb hr ih =>
      obtain ⟨hy, hx, -, j, hj, hjd, -⟩ := ih
      have hl := neighbour_lt hy hx ((mem_neighOffs o).mpr ho)
      refine ⟨hl.1, hl.2, fun k hk => ?_, pin _ _ hl.1 hl.2 hb hr ?_⟩
      · rcases hb k hk with h | h
        · rw [h]
        · exact h.le
      · rcases hst y hy x hx j hj o ((mem_neighOffs o).mpr ho) with h | h
        · rw [hjd] at h; exact h
        · rw [hjd] at h; exact absurd hr (not_lt.mpr h)
  intro y x h
  obtain ⟨hy, hx, hmin, j, -, -, hv⟩ := main y x h
  refine ⟨?_, hmin⟩
  have : y * nx + x < t.dists.length := by rw [hok.ld]; exact flat_lt hy hx
  rw [List.getElem?_eq_getElem this, ← hv]
  unfold Bubble.dist
  rw [List.getD_eq_getElem _ _ this]

/-- C80 refuted for arbitrary points: if two points lie in one pixel, the later one replaces the earlier one even if that is
closer. -/
theorem C80_bubble_refuted :
    ∃ (d : Nat → Nat → Nat → Nat) (s : Bubble Nat), bubble 100 1 2 d 10 [(0, 0), (0, 0)] = some s ∧
      s.dists[0]? = some (d 1 0 0) ∧ d 0 0 0 < d 1 0 0 ∧ ∀ x < 2, d 0 0 x < 10 ∧ d 0 0 x < d 1 0 x :=
  ⟨fun i _ x => 2 * x + i, ⟨[1, 3], [some 1, some 1]⟩, by decide, by decide, by decide, by decide⟩

/-- The hypotheses are met and the domain of a point is more than its own pixel: two points on a row of five pixels. -/
example : BubReach 1 5 (fun i _ x => if i = 0 then x else (4 - x) * 3) 100 [(0, 0), (0, 4)] 0 0 1 := by
  have h := BubReach.start (ny := 1) (nx := 5) (d := fun i _ x => if i = 0 then x else (4 - x) * 3) (rmax := 100)
    (pts := [(0, 0), (0, 4)]) (i := 0) (0, 0) rfl
    (fun j hj => by rcases j with _ | _ | j <;> simp at hj ⊢) (by decide)
  exact BubReach.step 0 0 (0, 1) (by decide) h
    (fun j hj => by rcases j with _ | _ | j <;> simp [neighbour] at hj ⊢) (by decide)

example : (bubble 100 1 5 (fun i _ x => if i = 0 then x else (4 - x) * 3) 100 [(0, 0), (0, 4)]).map (·.dists) =
    some [0, 1, 2, 3, 0] := by decide

end Pixell
