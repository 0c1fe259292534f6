import Verif.Model.Axes
import Verif.Lemmas.Index
import Verif.Lemmas.Sort
import Mathlib.Data.List.InsertIdx
import Mathlib.Tactic.Ring

namespace Pixell

/-! ### ravel and unravel -/

theorem unravel_ravel {shape idx : List Nat} (h : InShape shape idx) : unravel shape (ravel shape idx) = idx := by
  unfold InShape at h
  induction h with
  | nil => rfl
  | @cons c n cs ns hc hcs ih =>
    have hl : ravel ns cs < ns.prod := ravel_lt hcs
    rw [ravel, unravel]
    have e1 : (c * ns.prod + ravel ns cs) / ns.prod = c := by
      rw [Nat.add_comm, Nat.add_mul_div_right _ _ (by omega), Nat.div_eq_of_lt hl, Nat.zero_add]
    have e2 : (c * ns.prod + ravel ns cs) % ns.prod = ravel ns cs := by
      rw [Nat.add_comm, Nat.add_mul_mod_self_right, Nat.mod_eq_of_lt hl]
    rw [e1, e2, ih]

theorem ravel_append (ks kept rs ri : List Nat) (h : kept.length = ks.length) :
    ravel (ks ++ rs) (kept ++ ri) = ravel ks kept * rs.prod + ravel rs ri := by
  induction ks generalizing kept with
  | nil =>
    have : kept = [] := List.eq_nil_of_length_eq_zero (by simpa using h)
    subst this
    simp [ravel]
  | cons k ks ih =>
    cases kept with
    | nil => simp at h
    | cons c kept =>
      rw [List.cons_append, List.cons_append, ravel, ravel, ih kept (by simpa using h), List.prod_append]
      ring

theorem InShape.length {shape idx : List Nat} (h : InShape shape idx) : idx.length = shape.length := List.Forall₂.length_eq h

theorem InShape.append {s1 i1 s2 i2 : List Nat} (h1 : InShape s1 i1) (h2 : InShape s2 i2) : InShape (s1 ++ s2) (i1 ++ i2) := by
  unfold InShape at *
  induction h1 with
  | nil => simpa using h2
  | cons h _ ih => exact List.Forall₂.cons h ih

theorem InShape.get {shape idx : List Nat} (h : InShape shape idx) {n : Nat} (hn : n < shape.length) :
    idx.getD n 0 < shape.getD n 0 := by
  unfold InShape at h
  induction h generalizing n with
  | nil => simp at hn
  | cons h _ ih =>
    cases n with
    | zero => simpa using h
    | succ n => simpa using ih (by simpa using hn)

theorem InShape.select {shape idx : List Nat} (h : InShape shape idx) (B : List Nat) (hB : ∀ b ∈ B, b < shape.length) :
    InShape (B.map fun ax => shape.getD ax 0) (B.map fun ax => idx.getD ax 0) := by
  unfold InShape
  induction B with
  | nil => simp
  | cons b B ih => exact List.Forall₂.cons (h.get (hB b (by simp))) (ih fun x hx => hB x (List.mem_cons_of_mem _ hx))

/-! ### transposition -/

theorem map_getD_range (idx : List Nat) : (List.range idx.length).map (fun n => idx.getD n 0) = idx := by
  apply List.ext_getElem
  · simp
  · intro i h1 h2
    simp [h2]

/-- Element `idx` of the array is element `idx[order]` of the transposed array. -/
theorem transpose_get {α : Type} (a : Nd α) (order idx : List Nat) (hp : order.Perm (List.range a.shape.length))
    (hl : idx.length = a.shape.length) : (a.transpose order).get (order.map fun ax => idx.getD ax 0) = a.get idx := by
  unfold Nd.transpose
  simp only
  congr 1
  conv_rhs => rw [← map_getD_range idx, hl]
  apply List.map_congr_left
  intro ax hax
  have hm : ax ∈ order := hp.mem_iff.2 hax
  have hi : order.idxOf ax < order.length := List.idxOf_lt_length_of_mem hm
  simp [List.getD_eq_getElem?_getD, hi]

theorem comp_map (order1 order2 idx : List Nat) (h1 : ∀ j ∈ order2, j < order1.length) :
    order2.map (fun j => (order1.map fun ax => idx.getD ax 0).getD j 0) =
      (order2.map fun j => order1.getD j 0).map fun ax => idx.getD ax 0 := by
  rw [List.map_map]
  apply List.map_congr_left
  intro j hj
  have := h1 j hj
  simp [this]

/-! ### moveOrder -/

theorem sortBy_of_sorted {β : Type} (le : β → β → Bool) (l : List β) (h : l.Pairwise fun a b => le a b = true) :
    sortBy le l = l := by
  induction l with
  | nil => rfl
  | cons x l ih =>
    rw [List.pairwise_cons] at h
    rw [sortBy, ih h.2]
    cases l with
    | nil => rfl
    | cons y l => rw [insertBy, if_pos (h.1 y (by simp))]

theorem insertIdx_length_append {β : Type} (P R : List β) (x : β) : (P ++ R).insertIdx P.length x = P ++ x :: R := by
  induction P with
  | nil => simp
  | cons p P ih => simp [List.insertIdx_succ_cons, ih]

theorem foldl_insert_front (As P R : List Nat) :
    ((List.range' P.length As.length).zip As).foldl (fun l (p : Nat × Nat) => l.insertIdx p.1 p.2) (P ++ R) = P ++ As ++ R := by
  induction As generalizing P with
  | nil => simp
  | cons a As ih =>
    rw [List.length_cons, List.range'_succ, List.zip_cons_cons, List.foldl_cons]
    simp only
    rw [insertIdx_length_append]
    have := ih (P ++ [a])
    simp only [List.length_append, List.length_singleton] at this
    rw [show P ++ a :: R = P ++ [a] ++ R by simp, this]
    simp

/-- Moving axes to the front. -/
theorem moveOrder_front (n : Nat) (A : List Nat) :
    moveOrder n A (List.range A.length) = A ++ (List.range n).filter fun x => decide (x ∉ A) := by
  unfold moveOrder
  rw [sortBy_of_sorted]
  · have := foldl_insert_front A [] ((List.range n).filter fun x => decide (x ∉ A))
    rw [List.length_nil, ← List.range_eq_range'] at this
    simpa using this
  · apply List.pairwise_iff_getElem.2
    intro i j hi hj hij
    simp
    omega

theorem foldl_insert_complement (n : Nat) (S : List Nat) (hs : S.Pairwise (· < ·)) (hn : ∀ p ∈ S, p < n) :
    S.foldl (fun l p => l.insertIdx p p) ((List.range n).filter fun x => decide (x ∉ S)) = List.range n := by
  induction S with
  | nil => simp
  | cons p S ih =>
    rw [List.pairwise_cons] at hs
    rw [List.foldl_cons]
    have hp := hn p (by simp)
    have hr : List.range n = List.range p ++ p :: List.range' (p + 1) (n - (p + 1)) := by
      rw [List.range_eq_range', List.range_eq_range']
      have h1 : List.range' 0 n = List.range' 0 p ++ List.range' p (n - p) := by
        have := @List.range'_append_1 0 p (n - p)
        rw [Nat.zero_add, show p + (n - p) = n by omega] at this
        exact this.symm
      have h2 : n - p = (n - (p + 1)) + 1 := by omega
      rw [h1]
      conv_lhs => rw [h2, List.range'_succ]
    have key : ((List.range n).filter fun x => decide (x ∉ p :: S)).insertIdx p p = (List.range n).filter fun x => decide (x ∉ S) := by
      have hpS : p ∉ S := fun h => by have := hs.1 p h; omega
      have f1 : (List.range p).filter (fun x => decide (x ∉ p :: S)) = List.range p := by
        rw [List.filter_eq_self]
        intro x hx
        have hx : x < p := by simpa using hx
        have : x ∉ S := fun h => by have := hs.1 x h; omega
        simp [this]; omega
      have f2 : (List.range p).filter (fun x => decide (x ∉ S)) = List.range p := by
        rw [List.filter_eq_self]
        intro x hx
        have hx : x < p := by simpa using hx
        have : x ∉ S := fun h => by have := hs.1 x h; omega
        simp [this]
      have f3 : (List.range' (p + 1) (n - (p + 1))).filter (fun x => decide (x ∉ p :: S)) =
          (List.range' (p + 1) (n - (p + 1))).filter (fun x => decide (x ∉ S)) := by
        apply List.filter_congr
        intro x hx
        have : x ≠ p := by
          have := (List.mem_range'_1.1 hx).1; omega
        simp [this]
      rw [hr, List.filter_append, List.filter_append, List.filter_cons_of_neg (by simp), f1, f2, f3,
        List.filter_cons_of_pos (by simpa using hpS)]
      have := insertIdx_length_append (List.range p) ((List.range' (p + 1) (n - (p + 1))).filter (fun x => decide (x ∉ S))) p
      rw [List.length_range] at this
      exact this
    rw [key]
    exact ih hs.2 fun q hq => hn q (List.mem_cons_of_mem _ hq)

theorem map_foldl_insert (f : Nat → Nat) (ps : List (Nat × Nat)) (l : List Nat) :
    (ps.foldl (fun l p => l.insertIdx p.1 p.2) l).map f =
      (ps.map fun p => (p.1, f p.2)).foldl (fun l p => l.insertIdx p.1 p.2) (l.map f) := by
  induction ps generalizing l with
  | nil => rfl
  | cons p ps ih => rw [List.foldl_cons, ih, List.map_cons, List.foldl_cons, List.map_insertIdx]

/-- Moving the front axes back to where they came from undoes moving them to the front. -/
theorem moveOrder_back (n : Nat) (A : List Nat) (hA : A.Nodup) (hn : ∀ a ∈ A, a < n) :
    (moveOrder n (List.range A.length) A).map (fun j => (A ++ (List.range n).filter fun x => decide (x ∉ A)).getD j 0) =
      List.range n := by
  set rest := (List.range n).filter fun x => decide (x ∉ A) with hrest
  set f := fun j => (A ++ rest).getD j 0 with hf
  have hcard : A.length + rest.length = n := by
    have hp : (A ++ rest).Perm (List.range n) := by
      refine (List.perm_ext_iff_of_nodup ?_ List.nodup_range).2 ?_
      · rw [List.nodup_append]
        refine ⟨hA, List.nodup_range.filter _, ?_⟩
        intro a ha b hb e
        subst e
        simp [hrest] at hb
        exact hb.2 ha
      · intro x
        rw [List.mem_append, hrest, List.mem_filter, List.mem_range]
        constructor
        · rintro (h | h)
          · exact hn x h
          · exact h.1
        · intro h
          by_cases hx : x ∈ A
          · exact Or.inl hx
          · exact Or.inr ⟨h, by simpa using hx⟩
    have := hp.length_eq
    simpa using this
  unfold moveOrder
  rw [map_foldl_insert]
  set k := A.length with hk
  have hbase : ((List.range n).filter fun x => decide (x ∉ List.range k)).map f = rest := by
    have e : (List.range n).filter (fun x => decide (x ∉ List.range k)) = List.range' k rest.length := by
      have : List.range n = List.range k ++ List.range' k rest.length := by
        rw [List.range_eq_range', List.range_eq_range']
        have := @List.range'_append_1 0 k rest.length
        rw [Nat.zero_add] at this
        rw [this, hcard]
      rw [this, List.filter_append]
      have h1 : (List.range k).filter (fun x => decide (x ∉ List.range k)) = [] := by
        rw [List.filter_eq_nil_iff]; intro x hx; simpa using hx
      have h2 : (List.range' k rest.length).filter (fun x => decide (x ∉ List.range k)) = List.range' k rest.length := by
        rw [List.filter_eq_self]; intro x hx
        have := (List.mem_range'_1.1 hx).1
        simp; omega
      rw [h1, h2, List.nil_append]
    rw [e]
    apply List.ext_getElem
    · simp
    · intro i h1 h2
      simp [hf, hk, h2]
  rw [hbase]
  -- the sorted pairs
  set ps := sortBy (fun (a b : Nat × Nat) => decide (a.1 ≤ b.1)) (A.zip (List.range k)) with hps
  have hperm : ps.Perm (A.zip (List.range k)) := sortBy_perm _ _
  have hpair : ∀ p ∈ ps, f p.2 = p.1 := by
    intro p hp
    obtain ⟨i, hi, e⟩ := List.mem_iff_getElem.1 (hperm.mem_iff.1 hp)
    have hi' : i < A.length := by simp at hi; omega
    rw [← e]
    simp [hf, hi', List.getElem?_append_left]
  have hmap : (ps.map fun p => (p.1, f p.2)) = (ps.map Prod.fst).map fun a => (a, a) := by
    rw [List.map_map]
    apply List.map_congr_left
    intro p hp
    simp [hpair p hp]
  rw [hmap, List.foldl_map]
  have hfst : (ps.map Prod.fst).Perm A := by
    have := hperm.map Prod.fst
    rwa [List.map_fst_zip (by simp [hk])] at this
  have hS : (ps.map Prod.fst).Pairwise (· < ·) := by
    have h1 := sortBy_sorted (fun (a b : Nat × Nat) => decide (a.1 ≤ b.1)) (by intro a b c; simp; omega)
      (by intro a b; simp; omega) (A.zip (List.range k))
    have h2 : (ps.map Prod.fst).Nodup := hfst.nodup_iff.2 hA
    have h3 : (ps.map Prod.fst).Pairwise (· ≤ ·) := by
      rw [List.pairwise_map]; exact h1.imp (by intro a b h; simpa using h)
    exact (h3.and h2).imp (by rintro a b ⟨h1, h2⟩; omega)
  have := foldl_insert_complement n _ hS fun p hp => hn p (hfst.mem_iff.1 hp)
  have e2 : (List.range n).filter (fun x => decide (x ∉ ps.map Prod.fst)) = rest := by
    rw [hrest]
    apply List.filter_congr
    intro x _
    simp only [hfst.mem_iff]
  rw [e2] at this
  exact this

theorem mem_foldl_insert (ps : List (Nat × Nat)) (l : List Nat) (x : Nat)
    (h : x ∈ ps.foldl (fun l p => l.insertIdx p.1 p.2) l) : x ∈ l ∨ ∃ p ∈ ps, p.2 = x := by
  induction ps generalizing l with
  | nil => exact Or.inl h
  | cons p ps ih =>
    rw [List.foldl_cons] at h
    rcases ih _ h with h | ⟨q, hq, e⟩
    · rcases List.eq_or_mem_of_mem_insertIdx h with h | h
      · exact Or.inr ⟨p, by simp, h.symm⟩
      · exact Or.inl h
    · exact Or.inr ⟨q, List.mem_cons_of_mem _ hq, e⟩

theorem perm_range_of {l : List Nat} {n : Nat} (h1 : l.Nodup) (h2 : l.length = n) (h3 : ∀ x ∈ l, x < n) :
    l.Perm (List.range n) := by
  have : l.Subperm (List.range n) := List.subperm_of_subset h1 (by intro x hx; simpa using h3 x hx)
  exact this.perm_of_length_le (by simp [h2])

theorem moveOrder_back_perm (n : Nat) (A : List Nat) (hA : A.Nodup) (hn : ∀ a ∈ A, a < n) :
    (moveOrder n (List.range A.length) A).Perm (List.range n) := by
  have h := moveOrder_back n A hA hn
  refine perm_range_of ?_ ?_ ?_
  · apply List.Nodup.of_map (f := fun j => (A ++ (List.range n).filter fun x => decide (x ∉ A)).getD j 0)
    rw [h]; exact List.nodup_range
  · have := congrArg List.length h
    simpa using this
  · intro x hx
    rcases mem_foldl_insert _ _ _ hx with h | ⟨p, hp, e⟩
    · exact List.mem_range.1 (List.mem_filter.1 h).1
    · have hp := ((sortBy_perm _ _).mem_iff.1 hp)
      obtain ⟨i, hi, e'⟩ := List.mem_iff_getElem.1 hp
      have hi' : i < A.length := by simp at hi; omega
      have : p.2 = i := by rw [← e']; simp
      have hk : A.length ≤ n := by
        have : A.Subperm (List.range n) := List.subperm_of_subset hA (by intro x hx; simpa using hn x hx)
        simpa using this.length_le
      omega

theorem moveOrder_front_perm (n : Nat) (A : List Nat) (hA : A.Nodup) (hn : ∀ a ∈ A, a < n) :
    (A ++ (List.range n).filter fun x => decide (x ∉ A)).Perm (List.range n) := by
  refine (List.perm_ext_iff_of_nodup ?_ List.nodup_range).2 ?_
  · rw [List.nodup_append]
    refine ⟨hA, List.nodup_range.filter _, ?_⟩
    intro a ha b hb e
    subst e
    simp at hb
    exact hb.2 ha
  · intro x
    rw [List.mem_append, List.mem_filter, List.mem_range]
    constructor
    · rintro (h | h)
      · exact hn x h
      · exact h.1
    · intro h
      by_cases hx : x ∈ A
      · exact Or.inl hx
      · exact Or.inr ⟨h, by simpa using hx⟩

/-- Moving the last of `k+1` axes to position `p`. -/
theorem moveOrder_last (k p : Nat) : moveOrder (k + 1) [k] [p] = (List.range k).insertIdx p k := by
  unfold moveOrder
  have : (List.range (k + 1)).filter (fun n => decide (n ∉ [k])) = List.range k := by
    rw [List.range_succ, List.filter_append]
    have h1 : (List.range k).filter (fun n => decide (n ∉ [k])) = List.range k := by
      rw [List.filter_eq_self]; intro x hx; have : x < k := by simpa using hx
      simp; omega
    rw [h1]; simp
  rw [this]
  rfl

/-- Moving axis `p` of `k+1` to the end. -/
theorem moveOrder_to_last (k p : Nat) (hp : p ≤ k) :
    moveOrder (k + 1) [p] [k] = List.range p ++ List.range' (p + 1) (k - p) ++ [p] := by
  unfold moveOrder
  have : (List.range (k + 1)).filter (fun n => decide (n ∉ [p])) = List.range p ++ List.range' (p + 1) (k - p) := by
    have hr : List.range (k + 1) = List.range p ++ p :: List.range' (p + 1) (k - p) := by
      rw [List.range_eq_range', List.range_eq_range', ← List.range'_succ]
      have := @List.range'_append_1 0 p (k - p + 1)
      rw [Nat.zero_add] at this
      rw [this]
      congr 1
      omega
    rw [hr, List.filter_append, List.filter_cons_of_neg (by simp)]
    congr 1
    · rw [List.filter_eq_self]; intro x hx; have : x < p := by simpa using hx
      simp; omega
    · rw [List.filter_eq_self]; intro x hx; have := (List.mem_range'_1.1 hx).1
      simp; omega
  rw [this]
  have e := insertIdx_length_append (List.range p ++ List.range' (p + 1) (k - p)) [] p
  have hl : (List.range p ++ List.range' (p + 1) (k - p)).length = k := by simp; omega
  rw [hl, List.append_nil] at e
  exact e

theorem insertIdx_take_drop {β : Type} (l : List β) (p : Nat) (x : β) (hp : p ≤ l.length) :
    l.insertIdx p x = l.take p ++ x :: l.drop p := by
  have := insertIdx_length_append (l.take p) (l.drop p) x
  rw [List.take_append_drop, List.length_take, Nat.min_eq_left hp] at this
  exact this

end Pixell
