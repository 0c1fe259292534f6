import Verif.Model.Healpix
import Mathlib.Order.WithBot
import Mathlib.Data.List.Sort
import Mathlib.Tactic.SplitIfs

/-
C122: the priority queue of the healpix distance transform. Whatever is pushed is popped exactly once, and a queue that is
filled first and emptied afterwards comes out in order; with pushes between pops the order is not kept.
-/
namespace Pixell

variable {α β : Type} [LinearOrder α]

/-- The value of entry `k`; entries outside the queue count as infinite. -/
def pqKey (h : List (α × β)) (k : Nat) : WithTop α :=
  match h[k]? with
  | some a => (a.1 : WithTop α)
  | none => ⊤

theorem pqKey_top (h : List (α × β)) {k : Nat} (hk : h.length ≤ k) : pqKey h k = ⊤ := by
  unfold pqKey; rw [List.getElem?_eq_none hk]

theorem pqKey_get (h : List (α × β)) {k : Nat} (hk : k < h.length) : pqKey h k = (h[k].1 : WithTop α) := by
  unfold pqKey; rw [List.getElem?_eq_getElem hk]

theorem heapLt_iff (h : List (α × β)) {i j : Nat} (hj : j < h.length) : heapLt h i j = true ↔ pqKey h i < pqKey h j := by
  unfold heapLt
  by_cases hi : i < h.length
  · rw [List.getElem?_eq_getElem hi, List.getElem?_eq_getElem hj, pqKey_get h hi, pqKey_get h hj]
    simp
  · rw [List.getElem?_eq_none (by omega), pqKey_top h (by omega)]
    simp

theorem heapSwap_eq (h : List (α × β)) {i j : Nat} (hi : i < h.length) (hj : j < h.length) :
    heapSwap h i j = (h.set i h[j]).set j h[i] := by
  unfold heapSwap
  rw [List.getElem?_eq_getElem hi, List.getElem?_eq_getElem hj]

theorem heapSwap_length (h : List (α × β)) (i j : Nat) : (heapSwap h i j).length = h.length := by
  unfold heapSwap
  split <;> simp

theorem heapSwap_perm (h : List (α × β)) (i j : Nat) : (heapSwap h i j).Perm h := by
  by_cases hi : i < h.length
  · by_cases hj : j < h.length
    · rw [heapSwap_eq h hi hj]
      exact List.set_set_perm hi hj
    · unfold heapSwap
      rw [List.getElem?_eq_none (show h.length ≤ j by omega)]
      split
      · simp_all
      · exact List.Perm.refl _
  · unfold heapSwap
    rw [List.getElem?_eq_none (show h.length ≤ i by omega)]

theorem pqKey_swap (h : List (α × β)) {i j : Nat} (hi : i < h.length) (hj : j < h.length) (k : Nat) :
    pqKey (heapSwap h i j) k = if k = j then pqKey h i else if k = i then pqKey h j else pqKey h k := by
  rw [heapSwap_eq h hi hj]
  unfold pqKey
  rw [List.getElem?_set, List.getElem?_set]
  by_cases h1 : k = j
  · subst h1
    simp only [if_true, List.length_set]
    rw [if_pos hj, List.getElem?_eq_getElem hi]
  · by_cases h2 : k = i
    · subst h2
      rw [if_neg (fun e => h1 e.symm), if_pos rfl, if_pos hi, if_neg h1, if_pos rfl, List.getElem?_eq_getElem hj]
    · rw [if_neg (fun e => h1 e.symm), if_neg (fun e => h2 e.symm), if_neg h1, if_neg h2]

/-- Every entry is at least its parent, number k/2. -/
def IsHeap (h : List (α × β)) : Prop := ∀ k, 1 ≤ k → pqKey h (k / 2) ≤ pqKey h k

/-- As `IsHeap`, but the last entry of a queue of odd length is only compared with the parent of its parent. -/
def IsWeakHeap (h : List (α × β)) : Prop := ∀ k, 1 ≤ k → pqKey h (k / 2) ≤ pqKey h k ∨
  (k + 1 = h.length ∧ h.length % 2 = 1 ∧ pqKey h (k / 2 / 2) ≤ pqKey h k)

theorem IsHeap.weak {h : List (α × β)} (H : IsHeap h) : IsWeakHeap h := fun k hk => Or.inl (H k hk)

theorem IsWeakHeap.min {h : List (α × β)} (H : IsWeakHeap h) (k : Nat) : pqKey h 0 ≤ pqKey h k := by
  induction k using Nat.strong_induction_on with
  | _ k ih =>
    rcases Nat.eq_zero_or_pos k with h0 | h0
    · rw [h0]
    · rcases H k h0 with h1 | ⟨_, _, h1⟩
      · exact (ih (k / 2) (by omega)).trans h1
      · exact (ih (k / 2 / 2) (by omega)).trans h1

/-! ### Push -/

theorem heapUp_perm (f : Nat) (h : List (α × β)) (i : Nat) : (heapUp f h i).Perm h := by
  induction f generalizing h i with
  | zero => exact List.Perm.refl _
  | succ f ih =>
    rw [heapUp]
    split_ifs
    · exact List.Perm.refl _
    · exact (ih _ _).trans (heapSwap_perm _ _ _)
    · exact List.Perm.refl _

theorem heapUp_heap (f : Nat) (h : List (α × β)) (i : Nat) (hf : i ≤ f) (hi : i < h.length)
    (h1 : ∀ k, 1 ≤ k → k ≠ i → pqKey h (k / 2) ≤ pqKey h k)
    (h2 : ∀ k, 1 ≤ i → k ≠ i → k / 2 = i → pqKey h (i / 2) ≤ pqKey h k) : IsHeap (heapUp f h i) := by
  induction f generalizing h i with
  | zero =>
    intro k hk
    exact h1 k hk (by omega)
  | succ f ih =>
    rw [heapUp]
    by_cases h0 : i = 0
    · rw [if_pos h0]
      intro k hk
      exact h1 k hk (by omega)
    · rw [if_neg h0]
      have hp : i / 2 < h.length := by omega
      by_cases hlt : heapLt h i (i / 2) = true
      · rw [if_pos hlt]
        have hlt' := (heapLt_iff h hp).mp hlt
        apply ih
        · omega
        · rw [heapSwap_length]; exact hp
        · intro k hk hne
          rw [pqKey_swap h hi hp, pqKey_swap h hi hp]
          by_cases hki : k = i
          · subst hki
            rw [if_pos rfl, if_neg hne, if_pos rfl]
            exact hlt'.le
          · rw [if_neg hne, if_neg hki]
            by_cases e1 : k / 2 = i / 2
            · rw [if_pos e1]
              have := h1 k hk hki
              rw [e1] at this
              exact hlt'.le.trans this
            · rw [if_neg e1]
              by_cases e2 : k / 2 = i
              · rw [if_pos e2]
                exact h2 k (by omega) hki e2
              · rw [if_neg e2]
                exact h1 k hk hki
        · intro k hp1 hne hk2
          have hg := h1 (i / 2) hp1 (by omega)
          rw [pqKey_swap h hi hp, pqKey_swap h hi hp, if_neg (by omega), if_neg (by omega), if_neg hne]
          by_cases hki : k = i
          · rw [if_pos hki]; exact hg
          · rw [if_neg hki]
            have := h1 k (by omega) hki
            rw [hk2] at this
            exact hg.trans this
      · rw [if_neg hlt]
        intro k hk
        by_cases hki : k = i
        · subst hki
          rw [heapLt_iff h hp, not_lt] at hlt
          exact hlt
        · exact h1 k hk hki

theorem pqKey_append (h : List (α × β)) (e : α × β) (k : Nat) :
    pqKey (h ++ [e]) k = if k < h.length then pqKey h k else if k = h.length then (e.1 : WithTop α) else ⊤ := by
  unfold pqKey
  by_cases h1 : k < h.length
  · rw [if_pos h1, List.getElem?_append_left h1]
  · rw [if_neg h1]
    by_cases h2 : k = h.length
    · subst h2; simp
    · rw [if_neg h2, List.getElem?_eq_none (by simp; omega)]

/-- Pushing keeps the heap condition. -/
theorem heapPush_heap (h : List (α × β)) (e : α × β) (H : IsHeap h) : IsHeap (heapPush h e) := by
  unfold heapPush
  apply heapUp_heap
  · exact le_refl _
  · simp
  · intro k hk hne
    rw [pqKey_append, pqKey_append]
    by_cases h1 : k < h.length
    · rw [if_pos (by omega), if_pos h1]; exact H k hk
    · rw [if_neg h1, if_neg hne]; exact le_top
  · intro k h0 hne hk
    rw [pqKey_append h e k, if_neg (by omega), if_neg hne]; exact le_top

/-- C122: pushing adds the entry and loses none. -/
theorem C122_push (h : List (α × β)) (e : α × β) : (heapPush h e).Perm (e :: h) := by
  unfold heapPush
  exact (heapUp_perm _ _ _).trans (List.perm_append_singleton _ _)

/-! ### Pop -/

theorem heapDown_perm (f : Nat) (h : List (α × β)) (p : Nat) : (heapDown f h p).Perm h := by
  induction f generalizing h p with
  | zero => exact List.Perm.refl _
  | succ f ih =>
    rw [heapDown]
    simp only
    split_ifs
    · exact (ih _ _).trans (heapSwap_perm _ _ _)
    · exact (ih _ _).trans (heapSwap_perm _ _ _)
    · exact (ih _ _).trans (heapSwap_perm _ _ _)
    · exact List.Perm.refl _
    · exact List.Perm.refl _

theorem heapDown_step (h : List (α × β)) (p c : Nat) (hp : p < h.length) (hc : c < h.length) (hc1 : 1 ≤ c) (hcp : c / 2 = p)
    (hlt : pqKey h c ≤ pqKey h p) (hmin : ∀ k, 1 ≤ k → k / 2 = p → pqKey h c ≤ pqKey h k)
    (h1 : ∀ k, 1 ≤ k → k / 2 ≠ p → pqKey h (k / 2) ≤ pqKey h k)
    (h2 : ∀ k, 1 ≤ p → k / 2 = p → pqKey h (p / 2) ≤ pqKey h k) :
    (∀ k, 1 ≤ k → k / 2 ≠ c → pqKey (heapSwap h p c) (k / 2) ≤ pqKey (heapSwap h p c) k) ∧
    (∀ k, 1 ≤ c → k / 2 = c → pqKey (heapSwap h p c) (c / 2) ≤ pqKey (heapSwap h p c) k) := by
  constructor
  · intro k hk hne
    rw [pqKey_swap h hp hc, pqKey_swap h hp hc, if_neg hne]
    by_cases e1 : k = c
    · rw [if_pos e1, e1, hcp, if_pos rfl]; exact hlt
    · rw [if_neg e1]
      by_cases e2 : k = p
      · rw [if_pos e2, e2, if_neg (by omega)]
        exact h2 c (by omega) hcp
      · rw [if_neg e2]
        by_cases e3 : k / 2 = p
        · rw [if_pos e3]; exact hmin k hk e3
        · rw [if_neg e3]; exact h1 k hk e3
  · intro k _ hk
    rw [pqKey_swap h hp hc, pqKey_swap h hp hc, if_neg (by omega), if_pos hcp, if_neg (by omega), if_neg (by omega)]
    have := h1 k (by omega) (by omega)
    rwa [hk] at this

theorem weak_of_stop (h : List (α × β)) (p : Nat) (hl : h.length / 2 ≤ p)
    (h1 : ∀ k, 1 ≤ k → k / 2 ≠ p → pqKey h (k / 2) ≤ pqKey h k)
    (h2 : ∀ k, 1 ≤ p → k / 2 = p → pqKey h (p / 2) ≤ pqKey h k) : IsWeakHeap h := by
  intro k hk
  by_cases e : k / 2 = p
  · by_cases hkl : k < h.length
    · refine Or.inr ⟨by omega, by omega, ?_⟩
      rw [e]
      exact h2 k (by omega) e
    · left; rw [pqKey_top h (show h.length ≤ k by omega)]; exact le_top
  · exact Or.inl (h1 k hk e)

theorem heapDown_weak (f : Nat) (h : List (α × β)) (p : Nat) (hf : h.length ≤ f + p)
    (h1 : ∀ k, 1 ≤ k → k / 2 ≠ p → pqKey h (k / 2) ≤ pqKey h k)
    (h2 : ∀ k, 1 ≤ p → k / 2 = p → pqKey h (p / 2) ≤ pqKey h k) : IsWeakHeap (heapDown f h p) := by
  induction f generalizing h p with
  | zero => exact weak_of_stop h p (by omega) h1 h2
  | succ f ih =>
    rw [heapDown]
    simp only
    by_cases hp : p < h.length / 2
    · rw [if_pos hp]
      have hpl : p < h.length := by omega
      have l1 := heapLt_iff h (i := 2 * p) hpl
      have l2 := heapLt_iff h (i := 2 * p + 1) hpl
      have l3 := heapLt_iff h (i := 2 * p) (j := 2 * p + 1) (by omega)
      by_cases a1 : heapLt h (2 * p) p = true
      · rw [if_pos a1]
        have k1 := l1.mp a1
        have hp0 : 1 ≤ p := by
          rcases Nat.eq_zero_or_pos p with h0 | h0
          · subst h0; simp at k1
          · exact h0
        by_cases a2 : heapLt h (2 * p) (2 * p + 1) = true
        · rw [if_pos (Or.inr a2)]
          obtain ⟨s1, s2⟩ := heapDown_step h p (2 * p) hpl (by omega) (by omega) (by omega) k1.le (by
            intro k hk e
            rcases (show k = 2 * p ∨ k = 2 * p + 1 by omega) with r | r
            · rw [r]
            · rw [r]; exact (l3.mp a2).le) h1 h2
          exact ih _ _ (by rw [heapSwap_length]; omega) s1 s2
        · rw [if_neg (by push Not; exact ⟨by omega, by simpa using a2⟩)]
          have k3 : pqKey h (2 * p + 1) ≤ pqKey h (2 * p) := not_lt.mp (fun e => a2 (l3.mpr e))
          obtain ⟨s1, s2⟩ := heapDown_step h p (2 * p + 1) hpl (by omega) (by omega) (by omega) (k3.trans k1.le) (by
            intro k hk e
            rcases (show k = 2 * p ∨ k = 2 * p + 1 by omega) with r | r
            · rw [r]; exact k3
            · rw [r]) h1 h2
          exact ih _ _ (by rw [heapSwap_length]; omega) s1 s2
      · rw [if_neg a1]
        have k1 : pqKey h p ≤ pqKey h (2 * p) := not_lt.mp (fun e => a1 (l1.mpr e))
        by_cases a2 : heapLt h (2 * p + 1) p = true
        · rw [if_pos ⟨by omega, a2⟩]
          have k2 := l2.mp a2
          obtain ⟨s1, s2⟩ := heapDown_step h p (2 * p + 1) hpl (by omega) (by omega) (by omega) k2.le (by
            intro k hk e
            rcases (show k = 2 * p ∨ k = 2 * p + 1 by omega) with r | r
            · rw [r]; exact k2.le.trans k1
            · rw [r]) h1 h2
          exact ih _ _ (by rw [heapSwap_length]; omega) s1 s2
        · rw [if_neg (fun e => a2 e.2)]
          have k2 : pqKey h p ≤ pqKey h (2 * p + 1) := not_lt.mp (fun e => a2 (l2.mpr e))
          intro k hk
          left
          by_cases e : k / 2 = p
          · rcases (show k = 2 * p ∨ k = 2 * p + 1 by omega) with r | r
            · rw [e, r]; exact k1
            · rw [e, r]; exact k2
          · exact h1 k hk e
    · rw [if_neg hp]
      exact weak_of_stop h p (by omega) h1 h2

theorem heapPop_cons (r : α × β) (t : List (α × β)) :
    heapPop (r :: t) = some (r, heapDown (t.length + 1) (((r :: t).set 0 ((r :: t).getLast (by simp))).dropLast) 0) := by
  unfold heapPop
  rw [List.getLast?_eq_getLast_of_ne_nil (by simp)]
  rfl

/-- C122: popping removes the returned entry and no other. -/
theorem C122_pop (h h' : List (α × β)) (r : α × β) (e : heapPop h = some (r, h')) : (r :: h').Perm h := by
  cases h with
  | nil => simp [heapPop] at e
  | cons a t =>
    rw [heapPop_cons] at e
    simp only [Option.some.injEq, Prod.mk.injEq] at e
    obtain ⟨rfl, rfl⟩ := e
    refine List.Perm.cons _ ((heapDown_perm _ _ _).trans ?_)
    rcases List.eq_nil_or_concat t with rfl | ⟨u, x, rfl⟩
    · simp
    · have : (a :: (u ++ [x])).getLast (by simp) = x := by simp
      simp only [List.concat_eq_append] at *
      rw [this, List.set_cons_zero, ← List.cons_append, List.dropLast_concat]
      exact (List.perm_append_singleton _ _).symm

theorem heapPop_weak (h h' : List (α × β)) (r : α × β) (H : IsWeakHeap h) (e : heapPop h = some (r, h')) :
    (∀ a ∈ h, r.1 ≤ a.1) ∧ IsWeakHeap h' := by
  cases h with
  | nil => simp [heapPop] at e
  | cons a t =>
    rw [heapPop_cons] at e
    simp only [Option.some.injEq, Prod.mk.injEq] at e
    obtain ⟨rfl, rfl⟩ := e
    constructor
    · intro b hb
      obtain ⟨k, hk, rfl⟩ := List.getElem_of_mem hb
      have := H.min k
      rw [pqKey_get _ (by simp), pqKey_get _ hk] at this
      simpa using this
    · have hlen : (((a :: t).set 0 ((a :: t).getLast (by simp))).dropLast).length = t.length := by simp
      have key : ∀ k, 1 ≤ k → pqKey (((a :: t).set 0 ((a :: t).getLast (by simp))).dropLast) k =
          if k < t.length then pqKey (a :: t) k else ⊤ := by
        intro k hk
        by_cases h1 : k < t.length
        · rw [if_pos h1]
          unfold pqKey
          rw [List.getElem?_dropLast]
          rw [if_pos (by simpa using h1), List.getElem?_set_ne (by omega)]
        · rw [if_neg h1, pqKey_top _ (by omega)]
      apply heapDown_weak
      · omega
      · intro k hk hne
        rw [key k hk, key (k / 2) (by omega)]
        by_cases h1 : k < t.length
        · rw [if_pos h1, if_pos (by omega)]
          rcases H k hk with h2 | ⟨h2, _⟩
          · exact h2
          · simp at h2; omega
        · rw [if_neg h1]; exact le_top
      · intro k h0; omega

/-- Popping everything, `n` times at most. -/
def pqDrain : Nat → List (α × β) → List (α × β)
  | 0, _ => []
  | n + 1, h => match heapPop h with
    | none => []
    | some (r, h') => r :: pqDrain n h'

theorem pqDrain_sorted (n : Nat) (h : List (α × β)) (hn : h.length ≤ n) (H : IsWeakHeap h) :
    (pqDrain n h).Perm h ∧ (pqDrain n h).Pairwise fun a b => a.1 ≤ b.1 := by
  induction n generalizing h with
  | zero =>
    have : h = [] := List.eq_nil_of_length_eq_zero (by omega)
    subst this
    exact ⟨List.Perm.refl _, List.Pairwise.nil⟩
  | succ n ih =>
    cases h with
    | nil => exact ⟨by simp [pqDrain, heapPop], by simp [pqDrain, heapPop]⟩
    | cons a t =>
      obtain ⟨r, h', e⟩ : ∃ r h', heapPop (a :: t) = some (r, h') := ⟨_, _, heapPop_cons a t⟩
      have hp := C122_pop _ _ _ e
      obtain ⟨hm, hw⟩ := heapPop_weak _ _ _ H e
      have hl := hp.length_eq
      simp only [List.length_cons] at hl hn
      obtain ⟨i1, i2⟩ := ih h' (by omega) hw
      rw [pqDrain, e]
      simp only
      refine ⟨(i1.cons r).trans hp, ?_⟩
      rw [List.pairwise_cons]
      refine ⟨fun b hb => hm b (hp.subset (List.mem_cons_of_mem _ (i1.subset hb))), i2⟩

/-- C122: entries that are all pushed first and popped afterwards come out in increasing order, each exactly once. -/
theorem C122_sorted (xs : List (α × β)) :
    (pqDrain xs.length (xs.foldl heapPush [])).Perm xs ∧
    (pqDrain xs.length (xs.foldl heapPush [])).Pairwise fun a b => a.1 ≤ b.1 := by
  have gen : ∀ (xs h : List (α × β)), IsHeap h → IsHeap (xs.foldl heapPush h) ∧ (xs.foldl heapPush h).Perm (xs ++ h) := by
    intro xs
    induction xs with
    | nil => exact fun h H => ⟨H, List.Perm.refl _⟩
    | cons x xs ih =>
      intro h H
      obtain ⟨i1, i2⟩ := ih _ (heapPush_heap h x H)
      refine ⟨i1, i2.trans ?_⟩
      exact ((C122_push h x).append_left xs).trans List.perm_middle
  obtain ⟨g1, g2⟩ := gen xs [] (fun k hk => by rw [pqKey_top [] (by simp : ([] : List (α × β)).length ≤ k)]; exact le_top)
  rw [List.append_nil] at g2
  obtain ⟨d1, d2⟩ := pqDrain_sorted xs.length _ (by rw [g2.length_eq]) g1.weak
  exact ⟨d1.trans g2, d2⟩

example : pqDrain 4 (([3, 1, 2, 1] : List Nat).foldl (fun h v => heapPush h (v, ())) []) = [(1, ()), (1, ()), (2, ()), (3, ())] := by decide

/-- C122: in a queue in heap order the entry popped is one of the lowest; the order is kept if an even number of entries is
left. What is missing: for an odd number left, see `C122_order_refuted`. -/
theorem C122_pop_partial (h h' : List (α × β)) (r : α × β) (H : IsHeap h) (e : heapPop h = some (r, h')) :
    (∀ a ∈ h, r.1 ≤ a.1) ∧ (h'.length % 2 = 0 → IsHeap h') := by
  obtain ⟨h1, h2⟩ := heapPop_weak h h' r H.weak e
  refine ⟨h1, fun hl k hk => ?_⟩
  rcases h2 k hk with h3 | ⟨_, h3, _⟩
  · exact h3
  · omega

/-- A use of the queue: `some v` pushes `v`, `none` pops. The values popped. -/
def pqRun : List (Option Nat) → List (Nat × Unit) → List Nat
  | [], _ => []
  | some v :: ops, h => pqRun ops (heapPush h (v, ()))
  | none :: ops, h => match heapPop h with
    | none => []
    | some (r, h') => r.1 :: pqRun ops h'

/-- C122 refuted: with a push between pops, a higher value (4) comes out before a lower one (3) that was in the queue all the
time: 1, 2, 3, 4 in, 1 out, 5 in, 2 out, 4 out, 3 out, 5 out. -/
theorem C122_order_refuted :
    pqRun [some 1, some 2, some 3, some 4, none, some 5, none, none, none, none] [] = [1, 2, 4, 3, 5] := by decide

end Pixell
