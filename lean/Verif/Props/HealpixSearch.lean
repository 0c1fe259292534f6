import Mathlib.Algebra.Order.BigOperators.Group.Finset
import Mathlib.Logic.Relation
import Verif.Model.HealpixSearch
import Verif.Props.HealpixNeigh
import Verif.Props.PQueue

/-
Property C123: the distance transforms of healpix maps finish; every pixel holds the distance to the point recorded for it;
no neighbour can be improved; they are exact in every pixel connected to its closest point within the domain of that point, in
particular everywhere if there is one point.
-/
namespace Pixell

variable {α : Type} [LinearOrder α]

/-- A queue returns what was put in, in some order. -/
structure QueueOk (Q : HpQueue α) : Prop where
  pop_none : ∀ l, Q.pop l = none → l = []
  pop_some : ∀ l e q, Q.pop l = some (e, q) → (e :: q).Perm l
  push : ∀ l e, (Q.push l e).Perm (e :: l)

theorem fifo_ok : QueueOk (hpFifo : HpQueue α) where
  pop_none := fun l h => by cases l with | nil => rfl | cons a t => simp [hpFifo] at h
  pop_some := fun l e q h => by
    cases l with
    | nil => simp [hpFifo] at h
    | cons a t =>
      simp only [hpFifo, Option.some.injEq, Prod.mk.injEq] at h
      obtain ⟨rfl, rfl⟩ := h
      exact List.Perm.refl _
  push := fun l e => List.perm_append_singleton e l

theorem heap_ok : QueueOk (hpHeap : HpQueue α) where
  pop_none := fun l h => by
    cases l with
    | nil => rfl
    | cons a t => simp only [hpHeap, heapPop_cons] at h; cases h
  pop_some := fun l e q h => C122_pop l q e h
  push := fun l e => C122_push l e

theorem hpRavel_inj {nside : Nat} (hn : 1 ≤ nside) {p q : Nat × Nat} (hp : HpValid nside p) (hq : HpValid nside q) :
    hpRavel nside p = hpRavel nside q ↔ p = q := by
  refine ⟨fun h => ?_, fun h => by rw [h]⟩
  rw [← (C121_ravel nside hn p hp).2, ← (C121_ravel nside hn q hq).2, h]

section
variable {nside n : Nat} {d : Nat → Nat × Nat → α} {rmax : α}

/-- Every pixel has either no point and the value `rmax`, or a point and the distance to it. -/
def HpOk (nside n : Nat) (d : Nat → Nat × Nat → α) (rmax : α) (s : HpState α) : Prop :=
  ∀ p, HpValid nside p → (s.dom (hpRavel nside p) = none ∧ s.dist (hpRavel nside p) = rmax) ∨
    ∃ i < n, s.dom (hpRavel nside p) = some i ∧ s.dist (hpRavel nside p) = d i p

/-- The point of this pixel cannot improve any pixel that touches it. -/
def HpStable (nside : Nat) (d : Nat → Nat × Nat → α) (rmax : α) (s : HpState α) (p : Nat × Nat) : Prop :=
  ∀ i, s.dom (hpRavel nside p) = some i → ∀ z ∈ hpNeighs nside p, s.dist (hpRavel nside z) ≤ d i z ∨ rmax ≤ d i z

/-- How many times the values could still be lowered. -/
def hpMeasure (nside n : Nat) (d : Nat → Nat × Nat → α) (s : HpState α) : Nat :=
  ∑ k ∈ Finset.range (hpNpix nside), ((Finset.range n).filter fun i => d i (hpUnravel Nat.sqrt nside k) < s.dist k).card

theorem hpMeasure_le (s : HpState α) : hpMeasure nside n d s ≤ hpNpix nside * n := by
  unfold hpMeasure
  calc _ ≤ ∑ k ∈ Finset.range (hpNpix nside), n := Finset.sum_le_sum fun k _ => by
        have := Finset.card_filter_le (Finset.range n) fun i => d i (hpUnravel Nat.sqrt nside k) < s.dist k
        simpa using this
    _ = _ := by simp

theorem hpPut_dist (hn : 1 ≤ nside) (s : HpState α) (i : Nat) {p q : Nat × Nat} (hp : HpValid nside p) (hq : HpValid nside q) :
    (s.put nside d i p).dist (hpRavel nside q) = if q = p then d i p else s.dist (hpRavel nside q) := by
  unfold HpState.put
  simp only [Function.update_apply, hpRavel_inj hn hq hp]

theorem hpPut_dom (hn : 1 ≤ nside) (s : HpState α) (i : Nat) {p q : Nat × Nat} (hp : HpValid nside p) (hq : HpValid nside q) :
    (s.put nside d i p).dom (hpRavel nside q) = if q = p then some i else s.dom (hpRavel nside q) := by
  unfold HpState.put
  simp only [Function.update_apply, hpRavel_inj hn hq hp]

theorem hpPut_ok (hn : 1 ≤ nside) {s : HpState α} (hs : HpOk nside n d rmax s) {i : Nat} (hi : i < n) {p : Nat × Nat}
    (hp : HpValid nside p) : HpOk nside n d rmax (s.put nside d i p) := by
  intro q hq
  rw [hpPut_dist hn s i hp hq, hpPut_dom hn s i hp hq]
  by_cases h : q = p
  · rw [if_pos h, if_pos h]
    exact Or.inr ⟨i, hi, rfl, by rw [h]⟩
  · rw [if_neg h, if_neg h]
    exact hs q hq

theorem hpPut_measure (hn : 1 ≤ nside) {s : HpState α} {i : Nat} (hi : i < n) {p : Nat × Nat} (hp : HpValid nside p)
    (hlt : d i p < s.dist (hpRavel nside p)) : hpMeasure nside n d (s.put nside d i p) < hpMeasure nside n d s := by
  obtain ⟨hr, hu⟩ := C121_ravel nside hn p hp
  have hle : ∀ k, (s.put nside d i p).dist k ≤ s.dist k := by
    intro k
    unfold HpState.put
    simp only [Function.update_apply]
    split_ifs with h
    · rw [h]; exact hlt.le
    · exact le_rfl
  have hself : (s.put nside d i p).dist (hpRavel nside p) = d i p := by unfold HpState.put; simp
  unfold hpMeasure
  apply Finset.sum_lt_sum
  · intro k _
    apply Finset.card_le_card
    intro j hj
    simp only [Finset.mem_filter] at hj ⊢
    exact ⟨hj.1, lt_of_lt_of_le hj.2 (hle k)⟩
  · refine ⟨hpRavel nside p, Finset.mem_range.mpr hr, ?_⟩
    rw [hu, hself]
    apply Finset.card_lt_card
    rw [Finset.ssubset_iff_of_subset]
    · refine ⟨i, ?_, ?_⟩
      · simp only [Finset.mem_filter, Finset.mem_range]; exact ⟨hi, hlt⟩
      · simp only [Finset.mem_filter, Finset.mem_range, not_and]
        intro _
        exact lt_irrefl _
    · intro j hj
      simp only [Finset.mem_filter, Finset.mem_range] at hj ⊢
      exact ⟨hj.1, lt_trans hj.2 hlt⟩

/-- The invariant: `cur` is the pixel being visited. -/
structure HpInv (nside n : Nat) (d : Nat → Nat × Nat → α) (rmax : α) (m0 : Nat) (b0 : Nat × Nat → α) (cur : Nat × Nat → Prop)
    (s : HpState α × List (α × (Nat × Nat))) : Prop where
  ok : HpOk nside n d rmax s.1
  inr : ∀ e ∈ s.2, HpValid nside e.2
  meas : hpMeasure nside n d s.1 + s.2.length ≤ m0
  low : ∀ p, HpValid nside p → s.1.dist (hpRavel nside p) ≤ b0 p
  cover : ∀ p, HpValid nside p → cur p ∨ (∃ e ∈ s.2, e.2 = p) ∨ HpStable nside d rmax s.1 p

theorem hpRelax_cases (Q : HpQueue α) (s : HpState α × List (α × (Nat × Nat))) (hs : HpOk nside n d rmax s.1) (ip : Nat)
    {z : Nat × Nat} (hz : HpValid nside z) :
    (hpRelax Q nside d rmax ip s z = s ∧ (s.1.dist (hpRavel nside z) ≤ d ip z ∨ rmax ≤ d ip z)) ∨
    (hpRelax Q nside d rmax ip s z = (s.1.put nside d ip z, Q.push s.2 (d ip z, z)) ∧ d ip z < s.1.dist (hpRavel nside z)) := by
  unfold hpRelax
  by_cases h1 : s.1.dom (hpRavel nside z) = some ip
  · left
    rw [if_pos h1]
    refine ⟨rfl, Or.inl ?_⟩
    rcases hs z hz with ⟨h2, -⟩ | ⟨i, -, h2, h3⟩
    · rw [h1] at h2; cases h2
    · rw [h1] at h2
      obtain rfl := Option.some.inj h2
      rw [h3]
  · rw [if_neg h1]
    by_cases h2 : d ip z < s.1.dist (hpRavel nside z) ∧ d ip z < rmax
    · right
      rw [if_pos h2]
      exact ⟨rfl, h2.1⟩
    · left
      rw [if_neg h2]
      refine ⟨rfl, ?_⟩
      by_cases h3 : d ip z < rmax
      · left
        by_contra h4
        exact h2 ⟨not_le.mp h4, h3⟩
      · exact Or.inr (not_lt.mp h3)

theorem hpRelax_inv (hn : 1 ≤ nside) {Q : HpQueue α} (hQ : QueueOk Q) {m0 : Nat} {b0 : Nat × Nat → α} {cur : Nat × Nat → Prop}
    (s : HpState α × List (α × (Nat × Nat))) (hs : HpInv nside n d rmax m0 b0 cur s) {ip : Nat} (hi : ip < n) {z : Nat × Nat}
    (hz : HpValid nside z) : HpInv nside n d rmax m0 b0 cur (hpRelax Q nside d rmax ip s z) := by
  rcases hpRelax_cases Q s hs.ok ip hz with ⟨h, -⟩ | ⟨h, hlt⟩
  · rw [h]; exact hs
  · rw [h]
    have hperm := hQ.push s.2 (d ip z, z)
    have hle : ∀ p, HpValid nside p → (s.1.put nside d ip z).dist (hpRavel nside p) ≤ s.1.dist (hpRavel nside p) := by
      intro p hp
      rw [hpPut_dist hn s.1 ip hz hp]
      split_ifs with h
      · rw [h]; exact hlt.le
      · exact le_rfl
    refine ⟨hpPut_ok hn hs.ok hi hz, ?_, ?_, ?_, ?_⟩
    · intro e he
      rcases List.mem_cons.mp (hperm.mem_iff.mp he) with rfl | he
      · exact hz
      · exact hs.inr e he
    · have h1 := hpPut_measure hn hi hz hlt
      have h2 := hs.meas
      have h3 := hperm.length_eq
      rw [List.length_cons] at h3
      simp only
      omega
    · intro p hp
      exact le_trans (hle p hp) (hs.low p hp)
    · intro p hp
      by_cases h : p = z
      · right; left
        exact ⟨(d ip z, z), hperm.mem_iff.mpr (by simp), h.symm⟩
      · rcases hs.cover p hp with hc | ⟨e, he, hc⟩ | hc
        · exact Or.inl hc
        · exact Or.inr (Or.inl ⟨e, hperm.mem_iff.mpr (List.mem_cons_of_mem _ he), hc⟩)
        · right; right
          intro i hdom q hq
          rw [hpPut_dom hn s.1 ip hz hp, if_neg h] at hdom
          rcases hc i hdom q hq with h1 | h1
          · exact Or.inl (le_trans (hle q (C121_valid hn hp hq)) h1)
          · exact Or.inr h1

/-- After a sequence of attempts from one pixel all of these neighbours are settled. -/
theorem hpRelax_fold (hn : 1 ≤ nside) {Q : HpQueue α} (hQ : QueueOk Q) {m0 : Nat} {b0 : Nat × Nat → α} {cur : Nat × Nat → Prop}
    {ip : Nat} (hi : ip < n) {p : Nat × Nat} (hp : HpValid nside p) (zs : List (Nat × Nat)) (hzs : ∀ z ∈ zs, HpValid nside z)
    (s : HpState α × List (α × (Nat × Nat))) (hs : HpInv nside n d rmax m0 b0 cur s) (hdom : s.1.dom (hpRavel nside p) = some ip) :
    HpInv nside n d rmax m0 b0 cur (zs.foldl (hpRelax Q nside d rmax ip) s) ∧
    (zs.foldl (hpRelax Q nside d rmax ip) s).1.dom (hpRavel nside p) = some ip ∧
    (∀ q, HpValid nside q → (zs.foldl (hpRelax Q nside d rmax ip) s).1.dist (hpRavel nside q) ≤ s.1.dist (hpRavel nside q)) ∧
    ∀ z ∈ zs, (zs.foldl (hpRelax Q nside d rmax ip) s).1.dist (hpRavel nside z) ≤ d ip z ∨ rmax ≤ d ip z := by
  induction zs generalizing s with
  | nil => exact ⟨hs, hdom, fun _ _ => le_rfl, by simp⟩
  | cons z zs ih =>
    have hz := hzs z (by simp)
    have h1 := hpRelax_inv hn hQ s hs hi hz
    have hc := hpRelax_cases Q s hs.ok ip hz
    have hdom' : (hpRelax Q nside d rmax ip s z).1.dom (hpRavel nside p) = some ip := by
      rcases hc with ⟨h, -⟩ | ⟨h, -⟩
      · rw [h]; exact hdom
      · rw [h]
        simp only
        rw [hpPut_dom hn s.1 ip hz hp]
        split_ifs
        · rfl
        · exact hdom
    have hle : ∀ q, HpValid nside q → (hpRelax Q nside d rmax ip s z).1.dist (hpRavel nside q) ≤ s.1.dist (hpRavel nside q) := by
      intro q hq
      rcases hc with ⟨h, -⟩ | ⟨h, hlt⟩
      · rw [h]
      · rw [h]
        simp only
        rw [hpPut_dist hn s.1 ip hz hq]
        split_ifs with e
        · rw [e]; exact hlt.le
        · exact le_rfl
    obtain ⟨g1, g2, g3, g4⟩ := ih (fun q hq => hzs q (List.mem_cons_of_mem _ hq)) _ h1 hdom'
    refine ⟨g1, g2, fun q hq => le_trans (g3 q hq) (hle q hq), ?_⟩
    intro q hq
    rcases List.mem_cons.mp hq with rfl | hq
    · have hg := g3 _ hz
      rw [List.foldl_cons]
      rcases hc with ⟨h, hd⟩ | ⟨h, -⟩
      · rcases hd with hd | hd
        · rw [h] at hg ⊢; exact Or.inl (le_trans hg hd)
        · exact Or.inr hd
      · left
        refine le_trans hg ?_
        rw [h]
        simp only
        rw [hpPut_dist hn s.1 ip hz hz, if_pos rfl]
    · exact g4 q hq

theorem hpVisit_inv (hn : 1 ≤ nside) {Q : HpQueue α} (hQ : QueueOk Q) {m0 : Nat} {b0 : Nat × Nat → α} (p : Nat × Nat)
    (s : HpState α × List (α × (Nat × Nat))) (hp : HpValid nside p) (hs : HpInv nside n d rmax m0 b0 (· = p) s) :
    HpInv nside n d rmax m0 b0 (fun _ => False) (hpVisit Q nside d rmax s p) := by
  have aux : ∀ t : HpState α × List (α × (Nat × Nat)), HpInv nside n d rmax m0 b0 (· = p) t → HpStable nside d rmax t.1 p →
      HpInv nside n d rmax m0 b0 (fun _ => False) t := by
    intro t ht hst
    refine ⟨ht.ok, ht.inr, ht.meas, ht.low, fun q hq => ?_⟩
    rcases ht.cover q hq with h | h | h
    · right; right; rw [h]; exact hst
    · exact Or.inr (Or.inl h)
    · exact Or.inr (Or.inr h)
  unfold hpVisit
  cases hdom : s.1.dom (hpRavel nside p) with
  | none =>
    apply aux s hs
    intro i hi
    rw [hdom] at hi; cases hi
  | some ip =>
    have hi : ip < n := by
      rcases hs.ok p hp with ⟨h, -⟩ | ⟨i, h1, h2, -⟩
      · rw [hdom] at h; cases h
      · rw [hdom] at h2
        rw [Option.some.inj h2]; exact h1
    obtain ⟨g1, g2, -, g4⟩ := hpRelax_fold hn hQ hi hp (hpNeighs nside p) (fun z hz => C121_valid hn hp hz) s hs hdom
    apply aux _ g1
    intro i hi' z hz
    rw [g2] at hi'
    obtain rfl := Option.some.inj hi'
    exact g4 z hz

/-- The loop finishes and leaves everything stable. -/
theorem hpLoop_ok (hn : 1 ≤ nside) {Q : HpQueue α} (hQ : QueueOk Q) {b0 : Nat × Nat → α} (f m0 : Nat) (hf : m0 ≤ f)
    (s : HpState α × List (α × (Nat × Nat))) (hs : HpInv nside n d rmax m0 b0 (fun _ => False) s) :
    ∃ t, hpLoop Q nside d rmax f s = some t ∧ HpOk nside n d rmax t ∧
      (∀ p, HpValid nside p → t.dist (hpRavel nside p) ≤ b0 p) ∧ ∀ p, HpValid nside p → HpStable nside d rmax t p := by
  induction f generalizing s m0 with
  | zero =>
    have hl : s.2 = [] := List.eq_nil_of_length_eq_zero (by have := hs.meas; omega)
    cases hq : Q.pop s.2 with
    | none =>
      refine ⟨s.1, by unfold hpLoop; rw [hq], hs.ok, hs.low, fun p hp => ?_⟩
      rcases hs.cover p hp with h | ⟨e, he, -⟩ | h
      · exact h.elim
      · rw [hl] at he; cases he
      · exact h
    | some r =>
      have := (hQ.pop_some s.2 r.1 r.2 hq).length_eq
      rw [hl] at this
      simp at this
  | succ f ih =>
    cases hq : Q.pop s.2 with
    | none =>
      have hl := hQ.pop_none _ hq
      refine ⟨s.1, by unfold hpLoop; rw [hq], hs.ok, hs.low, fun p hp => ?_⟩
      rcases hs.cover p hp with h | ⟨e, he, -⟩ | h
      · exact h.elim
      · rw [hl] at he; cases he
      · exact h
    | some r =>
      obtain ⟨e, q⟩ := r
      have hperm := hQ.pop_some s.2 e q hq
      have hlen := hperm.length_eq
      rw [List.length_cons] at hlen
      have hm := hs.meas
      have hpass := hpVisit_inv hn hQ (m0 := m0 - 1) (b0 := b0) e.2 (s.1, q) (hs.inr e (hperm.mem_iff.mp (by simp)))
        ⟨hs.ok, fun a ha => hs.inr a (hperm.mem_iff.mp (List.mem_cons_of_mem _ ha)), by simp only; omega, hs.low, fun p hp => by
          rcases hs.cover p hp with h | ⟨a, ha, h⟩ | h
          · exact h.elim
          · rcases List.mem_cons.mp (hperm.mem_iff.mpr ha) with rfl | ha
            · exact Or.inl h.symm
            · exact Or.inr (Or.inl ⟨a, ha, h⟩)
          · exact Or.inr (Or.inr h)⟩
      obtain ⟨t, h1, h2⟩ := ih (m0 - 1) (by omega) _ hpass
      refine ⟨t, ?_, h2⟩
      unfold hpLoop
      rw [hq]
      exact h1

theorem hpInit_ok (hn : 1 ≤ nside) {Q : HpQueue α} (hQ : QueueOk Q) (pts : List (Nat × Nat)) (hpts : ∀ p ∈ pts, HpValid nside p) :
    HpOk nside pts.length d rmax (hpInit Q nside d rmax pts).1 ∧
    (hpInit Q nside d rmax pts).2.length = pts.length ∧
    (∀ p, (∃ e ∈ (hpInit Q nside d rmax pts).2, e.2 = p) ↔ p ∈ pts) ∧
    (∀ p, HpValid nside p → ∀ i, (hpInit Q nside d rmax pts).1.dom (hpRavel nside p) = some i → pts[i]? = some p) ∧
    (∀ p ∈ pts, (hpInit Q nside d rmax pts).1.dom (hpRavel nside p) ≠ none) := by
  have key : ∀ (l : List (Nat × Nat)) (k : Nat) (s : HpState α × List (α × (Nat × Nat))), (∀ p ∈ l, HpValid nside p) →
      HpOk nside (k + l.length) d rmax s.1 →
      let t := (l.zipIdx k).foldl (fun s p => (s.1.put nside d p.2 p.1, Q.push s.2 (d p.2 p.1, p.1))) s
      HpOk nside (k + l.length) d rmax t.1 ∧ t.2.length = s.2.length + l.length ∧
      (∀ p, (∃ e ∈ t.2, e.2 = p) ↔ (∃ e ∈ s.2, e.2 = p) ∨ p ∈ l) ∧
      (∀ p, HpValid nside p → ∀ i, t.1.dom (hpRavel nside p) = some i →
        s.1.dom (hpRavel nside p) = some i ∨ (k ≤ i ∧ l[i - k]? = some p)) ∧
      (∀ p, HpValid nside p → s.1.dom (hpRavel nside p) ≠ none ∨ p ∈ l → t.1.dom (hpRavel nside p) ≠ none) := by
    intro l
    induction l with
    | nil =>
      intro k s _ hs
      exact ⟨by simpa using hs, by simp, by simp, fun p _ i h => Or.inl (by simpa using h), fun p _ h => by simpa using h⟩
    | cons p l ih =>
      intro k s hp hs
      have hpp := hp p (by simp)
      have hlen : k + (p :: l).length = k + 1 + l.length := by rw [List.length_cons]; omega
      have hs' : HpOk nside (k + 1 + l.length) d rmax s.1 := by rw [← hlen]; exact hs
      have hput := hpPut_ok hn hs' (i := k) (by omega) hpp
      have hperm := hQ.push s.2 (d k p, p)
      obtain ⟨h1, h4, h5, h2, h3⟩ := ih (k + 1) (s.1.put nside d k p, Q.push s.2 (d k p, p))
        (fun q hq => hp q (List.mem_cons_of_mem _ hq)) hput
      simp only [List.zipIdx_cons, List.foldl_cons]
      refine ⟨?_, ?_, ?_, ?_, ?_⟩
      · rw [hlen]; exact h1
      · rw [h4]
        simp only [hperm.length_eq, List.length_cons]
        omega
      · intro q
        rw [h5]
        simp only [List.mem_cons]
        constructor
        · rintro (⟨e, he, rfl⟩ | h)
          · rcases List.mem_cons.mp (hperm.mem_iff.mp he) with rfl | he
            · exact Or.inr (Or.inl rfl)
            · exact Or.inl ⟨e, he, rfl⟩
          · exact Or.inr (Or.inr h)
        · rintro (⟨e, he, rfl⟩ | rfl | h)
          · exact Or.inl ⟨e, hperm.mem_iff.mpr (List.mem_cons_of_mem _ he), rfl⟩
          · exact Or.inl ⟨(d k q, q), hperm.mem_iff.mpr List.mem_cons_self, rfl⟩
          · exact Or.inr h
      · intro q hq i hi
        rcases h2 q hq i hi with h | ⟨h, h'⟩
        · rw [hpPut_dom hn s.1 k hpp hq] at h
          split_ifs at h with e
          · right
            obtain rfl := Option.some.inj h
            refine ⟨le_rfl, ?_⟩
            rw [Nat.sub_self, e]
            rfl
          · exact Or.inl h
        · right
          refine ⟨by omega, ?_⟩
          have : i - k = (i - (k + 1)) + 1 := by omega
          rw [this, List.getElem?_cons_succ]
          exact h'
      · intro q hq h
        apply h3 q hq
        by_cases e : q = p
        · left
          rw [hpPut_dom hn s.1 k hpp hq, if_pos e]
          simp
        · rcases h with h | h
          · left
            rw [hpPut_dom hn s.1 k hpp hq, if_neg e]
            exact h
          · exact Or.inr ((List.mem_cons.mp h).resolve_left e)
  obtain ⟨h1, h2, h3, h4, h5⟩ := key pts 0 (⟨fun _ => rmax, fun _ => none⟩, []) hpts (fun p _ => Or.inl ⟨rfl, rfl⟩)
  refine ⟨by rw [Nat.zero_add] at h1; exact h1, by unfold hpInit; simpa using h2, fun p => by unfold hpInit; simpa using h3 p, ?_, ?_⟩
  · intro p hp i hi
    rcases h4 p hp i hi with h | ⟨-, h⟩
    · cases h
    · simpa using h
  · intro p hp
    exact h5 p (hpts p hp) (Or.inr hp)

end

theorem hpSearch_ok {nside : Nat} (hn : 1 ≤ nside) {Q : HpQueue α} (hQ : QueueOk Q) (d : Nat → Nat × Nat → α) (rmax : α)
    (pts : List (Nat × Nat)) (hpts : ∀ p ∈ pts, HpValid nside p) (fuel : Nat) (hf : (12 * nside ^ 2 + 1) * pts.length ≤ fuel) :
    ∃ t, hpSearch Q fuel nside d rmax pts = some t ∧ HpOk nside pts.length d rmax t ∧
      (∀ p, HpValid nside p → t.dist (hpRavel nside p) ≤ (hpInit Q nside d rmax pts).1.dist (hpRavel nside p)) ∧
      ∀ p, HpValid nside p → HpStable nside d rmax t p := by
  obtain ⟨h1, h2, h3, h4, h5⟩ := hpInit_ok (d := d) (rmax := rmax) hn hQ pts hpts
  refine hpLoop_ok hn hQ (b0 := fun p => (hpInit Q nside d rmax pts).1.dist (hpRavel nside p)) fuel _ hf _
    ⟨h1, ?_, ?_, fun _ _ => le_rfl, fun p hp => ?_⟩
  · intro e he
    exact hpts _ ((h3 e.2).mp ⟨e, he, rfl⟩)
  · have := @hpMeasure_le α _ nside pts.length d (hpInit Q nside d rmax pts).1
    rw [h2]
    have e : hpNpix nside = 12 * nside ^ 2 := by unfold hpNpix; ring
    rw [e] at this
    linarith
  · cases hd : (hpInit Q nside d rmax pts).1.dom (hpRavel nside p) with
    | none => right; right; intro i hi; rw [hd] at hi; cases hi
    | some i => right; left; exact (h3 p).mpr (List.mem_of_getElem? (h4 p hp i hd))

/-- C123: both methods finish for every distance function, every cap and every list of points, in whatever order the queue
returns its entries. Every pixel then holds `rmax` and no point, or a point and the distance to it; and no pixel can be
improved by the point of a pixel it touches. -/
theorem C123_search {nside : Nat} (hn : 1 ≤ nside) {Q : HpQueue α} (hQ : Q = hpFifo ∨ Q = hpHeap) (d : Nat → Nat × Nat → α)
    (rmax : α) (pts : List (Nat × Nat)) (hpts : ∀ p ∈ pts, HpValid nside p) (fuel : Nat)
    (hf : (12 * nside ^ 2 + 1) * pts.length ≤ fuel) :
    ∃ t, hpSearch Q fuel nside d rmax pts = some t ∧ ∀ p, HpValid nside p →
      ((t.dom (hpRavel nside p) = none ∧ t.dist (hpRavel nside p) = rmax) ∨
        ∃ i < pts.length, t.dom (hpRavel nside p) = some i ∧ t.dist (hpRavel nside p) = d i p) ∧
      ∀ i q, t.dom (hpRavel nside p) = some i → HpValid nside q → HpTouch nside p q →
        t.dist (hpRavel nside q) ≤ d i q ∨ rmax ≤ d i q := by
  have hQ' : QueueOk Q := by rcases hQ with rfl | rfl; exacts [fifo_ok, heap_ok]
  obtain ⟨t, e, hok, -, hst⟩ := hpSearch_ok hn hQ' d rmax pts hpts fuel hf
  exact ⟨t, e, fun p hp => ⟨hok p hp, fun i q hi hq ht => hst p hp i hi q ((C121_neighs hn hp hq).mpr ht)⟩⟩

/-- The pixels that point `i` can reach through pixels of which it is the only closest point (points with the same distances
count as one). -/
inductive HpReach (nside : Nat) (d : Nat → Nat × Nat → α) (rmax : α) (pts : List (Nat × Nat)) (i : Nat) : Nat × Nat → Prop where
  | start (p : Nat × Nat) (hp : pts[i]? = some p) (hb : ∀ j < pts.length, d j = d i ∨ d i p < d j p)
      (hr : d i p < rmax) : HpReach nside d rmax pts i p
  | step (p q : Nat × Nat) (hq : HpValid nside q) (ht : HpTouch nside p q) (h : HpReach nside d rmax pts i p)
      (hb : ∀ j < pts.length, d j = d i ∨ d i q < d j q) (hr : d i q < rmax) : HpReach nside d rmax pts i q

/-- C123: both methods are exact in every pixel connected to its closest point within that point's domain. Points in the same
pixel must have the same distances. -/
theorem C123_exact {nside : Nat} (hn : 1 ≤ nside) {Q : HpQueue α} (hQ : Q = hpFifo ∨ Q = hpHeap) (d : Nat → Nat × Nat → α)
    (rmax : α) (pts : List (Nat × Nat)) (hpts : ∀ p ∈ pts, HpValid nside p)
    (hsame : ∀ i < pts.length, ∀ j < pts.length, pts[i]? = pts[j]? → d i = d j) (fuel : Nat)
    (hf : (12 * nside ^ 2 + 1) * pts.length ≤ fuel) :
    ∃ t, hpSearch Q fuel nside d rmax pts = some t ∧ ∀ i < pts.length, ∀ p, HpReach nside d rmax pts i p →
      t.dist (hpRavel nside p) = d i p ∧ ∀ j < pts.length, d i p ≤ d j p := by
  have hQ' : QueueOk Q := by rcases hQ with rfl | rfl; exacts [fifo_ok, heap_ok]
  obtain ⟨h1, -, -, h2, h3⟩ := hpInit_ok (d := d) (rmax := rmax) hn hQ' pts hpts
  obtain ⟨t, e, hok, hlow, hst⟩ := hpSearch_ok hn hQ' d rmax pts hpts fuel hf
  refine ⟨t, e, ?_⟩
  intro i hi
  have pin : ∀ p, HpValid nside p → (∀ j < pts.length, d j = d i ∨ d i p < d j p) → d i p < rmax →
      t.dist (hpRavel nside p) ≤ d i p → ∃ j, t.dom (hpRavel nside p) = some j ∧ d j = d i ∧ t.dist (hpRavel nside p) = d i p := by
    intro p hp hb hr hle
    rcases hok p hp with ⟨-, a⟩ | ⟨j, hj, a, b⟩
    · rw [a] at hle; exact absurd hr (not_lt.mpr hle)
    · rcases hb j hj with h | h
      · exact ⟨j, a, h, by rw [b, h]⟩
      · rw [b] at hle; exact absurd h (not_lt.mpr hle)
  have main : ∀ p, HpReach nside d rmax pts i p → HpValid nside p ∧ (∀ j < pts.length, d i p ≤ d j p) ∧
      ∃ j, t.dom (hpRavel nside p) = some j ∧ d j = d i ∧ t.dist (hpRavel nside p) = d i p := by
    intro p h
    induction h with
    | start p hp hb hr =>
      have hin := hpts p (List.mem_of_getElem? hp)
      refine ⟨hin, fun j hj => ?_, pin _ hin hb hr ?_⟩
      · rcases hb j hj with h | h
        · rw [h]
        · exact h.le
      · refine le_trans (hlow _ hin) ?_
        obtain ⟨k, hk⟩ := Option.ne_none_iff_exists'.mp (h3 p (List.mem_of_getElem? hp))
        have hkp := h2 _ hin k hk
        rcases h1 _ hin with ⟨a, -⟩ | ⟨j, hj, a, b⟩
        · rw [a] at hk; cases hk
        · rw [a] at hk
          obtain rfl := Option.some.inj hk
          rw [b, hsame j hj i hi (by rw [hkp, hp])]
    | step p q hq ht _ hb hr ih =>
      obtain ⟨hp, -, j, hj, hjd, -⟩ := ih
      refine ⟨hq, fun k hk => ?_, pin _ hq hb hr ?_⟩
      · rcases hb k hk with h | h
        · rw [h]
        · exact h.le
      · rcases hst p hp j hj q ((C121_neighs hn hp hq).mpr ht) with h | h
        · rw [hjd] at h; exact h
        · rw [hjd] at h; exact absurd hr (not_lt.mpr h)
  intro p h
  obtain ⟨-, hmin, j, -, -, hv⟩ := main p h
  exact ⟨hv, hmin⟩

/-! ### One point -/

theorem touch_of_mem {nside : Nat} (hn : 1 ≤ nside) {p q : Nat × Nat} (hp : HpValid nside p) (h : q ∈ hpNeighs nside p) :
    HpValid nside q ∧ HpTouch nside p q :=
  ⟨C121_valid hn hp h, (C121_neighs hn hp (C121_valid hn hp h)).mp h⟩

/-- One step over an edge. -/
def HpStep (nside : Nat) (p q : Nat × Nat) : Prop := HpValid nside p ∧ HpValid nside q ∧ HpTouch nside p q

theorem HpStep.symm {nside : Nat} (hn : 1 ≤ nside) {p q : Nat × Nat} (h : HpStep nside p q) : HpStep nside q p :=
  ⟨h.2.1, h.1, (C121_neighs hn h.2.1 h.1).mp ((C121_symm hn h.1 h.2.1).mp ((C121_neighs hn h.1 h.2.1).mpr h.2.2))⟩

/-- The row below the north cap is reached from everywhere. -/
theorem hp_to_ring {nside : Nat} (hn : 1 ≤ nside) (p : Nat × Nat) (hp : HpValid nside p) :
    ∃ x, HpValid nside (nside, x) ∧ Relation.ReflTransGen (HpStep nside) p (nside, x) := by
  have north : ∀ m y x, y + m = nside → HpValid nside (y, x) →
      ∃ x', HpValid nside (nside, x') ∧ Relation.ReflTransGen (HpStep nside) (y, x) (nside, x') := by
    intro m
    induction m with
    | zero => intro y x h hv; obtain rfl : y = nside := by omega
              exact ⟨x, hv, Relation.ReflTransGen.refl⟩
    | succ m ih =>
      intro y x h hv
      have hy : y < nside := by omega
      obtain ⟨s, k, hs, hk, hxe, -⟩ := hp_north hy hv.2
      obtain ⟨q, hq⟩ : ∃ x', (y + 1, x') ∈ hpNeighs nside (y, x) := by
        have hm := mem_hpNeighs nside (y, x)
        unfold hpNeighs hpNeighsRaw
        simp only
        rw [if_neg (by omega), if_pos hy]
        simp only [List.map_cons, List.mem_cons, Prod.mk.injEq]
        exact ⟨_, Or.inr (Or.inr (Or.inl ⟨trivial, rfl⟩))⟩
      obtain ⟨hv', ht⟩ := touch_of_mem hn hv hq
      obtain ⟨x', hx', hr⟩ := ih (y + 1) q (by omega) hv'
      exact ⟨x', hx', Relation.ReflTransGen.head ⟨hv, hv', ht⟩ hr⟩
  have south : ∀ m y x, nside + m = y → HpValid nside (y, x) →
      ∃ x', HpValid nside (nside, x') ∧ Relation.ReflTransGen (HpStep nside) (y, x) (nside, x') := by
    intro m
    induction m with
    | zero => intro y x h hv; obtain rfl : y = nside := by omega
              exact ⟨x, hv, Relation.ReflTransGen.refl⟩
    | succ m ih =>
      intro y x h hv
      obtain ⟨q, hq⟩ : ∃ x', (y - 1, x') ∈ hpNeighs nside (y, x) := by
        unfold hpNeighs hpNeighsRaw
        simp only
        by_cases hm : nside ≤ y ∧ y < 3 * nside - 1
        · rw [if_pos hm]
          by_cases hs : hpShift nside y = false
          · rw [if_pos hs]
            simp only [List.map_cons, List.mem_cons, Prod.mk.injEq]
            exact ⟨_, Or.inl ⟨trivial, rfl⟩⟩
          · rw [if_neg hs]
            simp only [List.map_cons, List.mem_cons, Prod.mk.injEq]
            exact ⟨_, Or.inl ⟨trivial, rfl⟩⟩
        · rw [if_neg hm, if_neg (show ¬ y < nside by omega)]
          simp only [List.map_cons, List.mem_cons, Prod.mk.injEq]
          exact ⟨_, Or.inl ⟨trivial, rfl⟩⟩
      obtain ⟨hv', ht⟩ := touch_of_mem hn hv hq
      obtain ⟨x', hx', hr⟩ := ih (y - 1) q (by omega) hv'
      exact ⟨x', hx', Relation.ReflTransGen.head ⟨hv, hv', ht⟩ hr⟩
  by_cases h : p.1 ≤ nside
  · exact north (nside - p.1) p.1 p.2 (by omega) hp
  · exact south (p.1 - nside) p.1 p.2 (by omega) hp

/-- C123: every pixel is reached from every other by steps over edges. -/
theorem C123_connected {nside : Nat} (hn : 1 ≤ nside) {p q : Nat × Nat} (hp : HpValid nside p) (hq : HpValid nside q) :
    Relation.ReflTransGen (HpStep nside) p q := by
  have hsym : ∀ {a b}, Relation.ReflTransGen (HpStep nside) a b → Relation.ReflTransGen (HpStep nside) b a := by
    intro a b h
    induction h with
    | refl => exact Relation.ReflTransGen.refl
    | tail _ h ih => exact Relation.ReflTransGen.head (h.symm hn) ih
  have hnx : hpNx nside nside = 4 * nside := (hp_mid le_rfl (by omega)).1
  have ring : ∀ x, x < 4 * nside → Relation.ReflTransGen (HpStep nside) (nside, 0) (nside, x) := by
    intro x
    induction x with
    | zero => intro _; exact Relation.ReflTransGen.refl
    | succ x ih =>
      intro hx
      have hv0 : HpValid nside (nside, x) := ⟨by unfold hpNy; simp only; omega, by simp only [hnx]; omega⟩
      have hv1 : HpValid nside (nside, x + 1) := ⟨by unfold hpNy; simp only; omega, by simp only [hnx]; omega⟩
      have hnx' : hpNx nside (nside - 1) = 4 * nside := by
        unfold hpNx; rw [if_pos (by omega)]; omega
      have hv : HpValid nside (nside - 1, x) := ⟨by unfold hpNy; simp only; omega, by simp only [hnx']; omega⟩
      have m0 : (nside - 1, x) ∈ hpNeighs nside (nside, x) := by
        rw [mem_mid le_rfl (by omega)]
        refine ⟨Or.inl rfl, x, Or.inr (by simp), ?_⟩
        rw [hpWrap_iff (by omega) (by simp only [hnx']; omega) hv.2]
        exact Or.inl rfl
      have m1 : (nside - 1, x) ∈ hpNeighs nside (nside, x + 1) := by
        rw [mem_mid le_rfl (by omega)]
        refine ⟨Or.inl rfl, x, Or.inl (by push_cast; simp), ?_⟩
        rw [hpWrap_iff (by omega) (by simp only [hnx']; omega) hv.2]
        exact Or.inl rfl
      have s0 : HpStep nside (nside, x) (nside - 1, x) := ⟨hv0, hv, (C121_neighs hn hv0 hv).mp m0⟩
      have s1 : HpStep nside (nside, x + 1) (nside - 1, x) := ⟨hv1, hv, (C121_neighs hn hv1 hv).mp m1⟩
      exact ((ih (by omega)).tail s0).tail (s1.symm hn)
  obtain ⟨x, hx, h1⟩ := hp_to_ring hn p hp
  obtain ⟨x', hx', h2⟩ := hp_to_ring hn q hq
  have r1 := ring x (by have := hx.2; simp only [hnx] at this; exact this)
  have r2 := ring x' (by have := hx'.2; simp only [hnx] at this; exact this)
  exact h1.trans ((hsym r1).trans (r2.trans (hsym h2)))

/-- C123: with one point both methods give every pixel its distance, if the cap is beyond all distances. -/
theorem C123_one {nside : Nat} (hn : 1 ≤ nside) {Q : HpQueue α} (hQ : Q = hpFifo ∨ Q = hpHeap) (d : Nat → Nat × Nat → α)
    (rmax : α) (p0 : Nat × Nat) (h0 : HpValid nside p0) (hr : ∀ p, HpValid nside p → d 0 p < rmax) (fuel : Nat)
    (hf : 12 * nside ^ 2 + 1 ≤ fuel) :
    ∃ t, hpSearch Q fuel nside d rmax [p0] = some t ∧ ∀ p, HpValid nside p → t.dist (hpRavel nside p) = d 0 p := by
  obtain ⟨t, e, h⟩ := C123_exact hn hQ d rmax [p0] (by simpa using h0)
    (fun i hi j hj _ => by simp only [List.length_singleton, Nat.lt_one_iff] at hi hj; rw [hi, hj]) fuel (by simpa using hf)
  refine ⟨t, e, fun p hp => (h 0 (by simp) p ?_).1⟩
  have one : ∀ q j, j < [p0].length → d j = d 0 ∨ d 0 q < d j q := by
    intro q j hj
    simp only [List.length_singleton, Nat.lt_one_iff] at hj
    rw [hj]; exact Or.inl rfl
  have hc := C123_connected hn h0 hp
  induction hc with
  | refl => exact HpReach.start p0 rfl (one p0) (hr p0 h0)
  | tail _ hs ih => exact HpReach.step _ _ hs.2.1 hs.2.2 (ih hs.1) (one _) (hr _ hs.2.1)

/-- C123 refuted for several points in one pixel: the later one replaces the earlier one even if that is closer, there and
everywhere else. Both methods. -/
theorem C123_same_pixel_refuted :
    ∃ d : Nat → Nat × Nat → Nat, (∀ p, d 0 p < d 1 p) ∧
      (∀ k < 12, (hpSearch hpFifo 100 1 d 10 [(0, 0), (0, 0)]).map (fun t => t.dom k) = some (some 1)) ∧
      ∀ k < 12, (hpSearch hpHeap 100 1 d 10 [(0, 0), (0, 0)]).map (fun t => t.dom k) = some (some 1) :=
  ⟨fun i _ => i, fun _ => Nat.zero_lt_one, by decide, by decide⟩

/-- C123 refuted for the cap: a point farther than `rmax` from the centre of its pixel is recorded with its distance, above
`rmax`. Both methods. -/
theorem C123_cap_refuted :
    ∃ d : Nat → Nat × Nat → Nat,
      (hpSearch hpFifo 100 1 d 3 [(1, 2)]).map (fun t => t.dist (hpRavel 1 (1, 2))) = some 5 ∧
      (hpSearch hpHeap 100 1 d 3 [(1, 2)]).map (fun t => t.dist (hpRavel 1 (1, 2))) = some 5 :=
  ⟨fun _ _ => 5, by decide, by decide⟩

-- Two points on the smallest map: both methods split it between them.
example : (hpSearch hpHeap 100 1 (fun i p => if i = 0 then p.1 else 2 - p.1) 10 [(0, 0), (2, 0)]).map
    (fun t => (List.range 12).map t.dist) = some [0, 0, 0, 0, 1, 1, 1, 1, 0, 0, 0, 0] := by decide
example : HpReach 1 (fun i p => if i = 0 then p.1 + 1 else 5 - p.1) 10 [(0, 0), (2, 0)] 0 (1, 0) := by
  refine HpReach.step (0, 0) (1, 0) (by unfold HpValid; decide)
    ((C121_neighs (by decide) (by unfold HpValid; decide) (by unfold HpValid; decide)).mp (by decide))
    (HpReach.start (0, 0) rfl ?_ (by decide)) ?_ (by decide)
  · intro j hj; rcases j with _ | _ | j <;> simp at hj ⊢
  · intro j hj; rcases j with _ | _ | j <;> simp at hj ⊢

end Pixell
