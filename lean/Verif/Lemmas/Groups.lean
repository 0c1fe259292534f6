import Verif.Lemmas.Index
import Mathlib.Algebra.Order.BigOperators.Group.List

namespace Pixell

theorem sqDist_nonneg (a b : List ℚ) : 0 ≤ sqDist a b := by
  unfold sqDist
  apply List.sum_nonneg
  intro x hx
  rw [List.mem_iff_getElem] at hx
  obtain ⟨i, hi, rfl⟩ := hx
  simp only [List.getElem_zipWith]
  exact mul_self_nonneg _

theorem sqDist_zero_iff {a b : List ℚ} (h : a.length = b.length) : sqDist a b ≤ 0 ↔ a = b := by
  induction a generalizing b with
  | nil =>
    have : b = [] := by simpa using h.symm
    subst this; simp [sqDist]
  | cons x a ih =>
    cases b with
    | nil => simp at h
    | cons y b =>
      have e : sqDist (x :: a) (y :: b) = (x - y) * (x - y) + sqDist a b := by simp [sqDist]
      have h1 := sqDist_nonneg a b
      have h2 := mul_self_nonneg (x - y)
      rw [e, List.cons.injEq, ← ih (by simpa using h)]
      constructor
      · intro h3
        have h4 : (x - y) * (x - y) = 0 := by linarith
        have h5 : x - y = 0 := by simpa using h4
        exact ⟨by linarith, by linarith⟩
      · rintro ⟨rfl, h3⟩
        simpa using h3

/-- Row of the `j`-th element in sorted order. -/
def rowAt (rows : List (List ℚ)) (inds : List Nat) (j : Nat) : List ℚ := rows.getD (inds.getD j 0) []

theorem groupInner_spec (rows : List (List ℚ)) (inds : List Nat) (m : Nat) (xi : Nat)
    (hxi : (rows.getD xi []).length = m) (js : List Nat) (hm : ∀ j ∈ js, (rowAt rows inds j).length = m)
    (hnd : js.Nodup)
    (hsort : js.Pairwise fun a b => (rowAt rows inds a).headD 0 ≤ (rowAt rows inds b).headD 0)
    (D G : List Nat) :
    groupInner rows inds 0 xi js (D, G) =
      ((js.filter fun j => decide (j ∉ D ∧ rowAt rows inds j = rows.getD xi [])).reverse ++ D,
       G ++ (js.filter fun j => decide (j ∉ D ∧ rowAt rows inds j = rows.getD xi [])).map fun j => inds.getD j 0) := by
  induction js generalizing D G with
  | nil => simp [groupInner]
  | cons j js ih =>
    rw [List.nodup_cons] at hnd
    rw [List.pairwise_cons] at hsort
    have ih' := ih (fun k hk => hm k (by simp [hk])) hnd.2 hsort.2
    have hj := hm j (by simp)
    unfold groupInner
    by_cases h1 : j ∈ D
    · simp only [h1, if_true]
      rw [ih' D G, List.filter_cons_of_neg (by simp [h1])]
    · simp only [h1, if_false]
      have hrow : rows.getD (inds.getD j 0) [] = rowAt rows inds j := rfl
      rw [hrow]
      by_cases h2 : (0 : ℚ) < (rowAt rows inds j).headD 0 - (rows.getD xi []).headD 0
      · rw [if_pos h2]
        have : ((j :: js).filter fun j => decide (j ∉ D ∧ rowAt rows inds j = rows.getD xi [])) = [] := by
          rw [List.filter_eq_nil_iff]
          intro k hk hc
          simp only [decide_eq_true_eq] at hc
          have hle : (rowAt rows inds j).headD 0 ≤ (rowAt rows inds k).headD 0 := by
            rcases List.mem_cons.1 hk with rfl | hk
            · exact le_refl _
            · exact hsort.1 k hk
          rw [hc.2] at hle
          linarith
        rw [this]; simp
      · rw [if_neg h2]
        rw [zero_mul]
        by_cases h3 : sqDist (rowAt rows inds j) (rows.getD xi []) ≤ 0
        · rw [if_pos h3, ih' (j :: D) (G ++ [inds.getD j 0])]
          have heq := (sqDist_zero_iff (by rw [hj, hxi])).1 h3
          rw [List.filter_cons_of_pos (p := fun j => decide (j ∉ D ∧ _)) (by simp only [decide_eq_true_eq]; exact ⟨h1, heq⟩)]
          have hf : (js.filter fun k => decide (k ∉ j :: D ∧ rowAt rows inds k = rows.getD xi [])) =
              js.filter fun k => decide (k ∉ D ∧ rowAt rows inds k = rows.getD xi []) := by
            apply List.filter_congr
            intro k hk
            have hkj : k ≠ j := fun hc => hnd.1 (hc ▸ hk)
            simp [hkj]
          rw [hf]
          simp
        · rw [if_neg h3, ih' D G]
          have hne : rowAt rows inds j ≠ rows.getD xi [] := fun hc => h3 ((sqDist_zero_iff (by rw [hj, hxi])).2 hc)
          rw [List.filter_cons_of_neg (by simp only [decide_eq_true_eq]; exact fun hc => hne hc.2)]

structure GroupInv (rows : List (List ℚ)) (inds : List Nat) (i : Nat) (done : List Nat) (res : List (List Nat)) : Prop where
  upto : ∀ p < i, p ∈ done
  bound : ∀ p ∈ done, p < inds.length
  nodup : done.Nodup
  perm : res.flatten.Perm (done.map fun j => inds.getD j 0)
  closed : ∀ p ∈ done, ∀ q < inds.length, rowAt rows inds q = rowAt rows inds p → q ∈ done
  same : ∀ g ∈ res, ∀ x ∈ g, ∀ y ∈ g, rows.getD x [] = rows.getD y []
  diff : res.Pairwise fun g h => ∀ x ∈ g, ∀ y ∈ h, rows.getD x [] ≠ rows.getD y []

theorem groupOuter_spec (rows : List (List ℚ)) (inds : List Nat) (m : Nat)
    (hm : ∀ j < inds.length, (rowAt rows inds j).length = m)
    (hsort : ∀ a b, a < b → b < inds.length → (rowAt rows inds a).headD 0 ≤ (rowAt rows inds b).headD 0)
    (k i : Nat) (hki : i + k = inds.length) (done : List Nat) (res : List (List Nat))
    (h : GroupInv rows inds i done res) :
    GroupInv rows inds inds.length (groupOuter rows inds 0 (List.range' i k) (done, res)).1
      (groupOuter rows inds 0 (List.range' i k) (done, res)).2 := by
  induction k generalizing i done res with
  | zero =>
    have : i = inds.length := by omega
    subst this
    exact h
  | succ k ih =>
    rw [List.range'_succ]
    unfold groupOuter
    by_cases hi : i ∈ done
    · simp only [hi, if_true]
      exact ih (i + 1) (by omega) done res { h with
        upto := by
          intro p hp
          rcases Nat.lt_or_ge p i with hlt | hge
          · exact h.upto p hlt
          · have : p = i := by omega
            rw [this]; exact hi }
    · simp only [hi, if_false]
      have hspec := groupInner_spec rows inds m (inds.getD i 0) (hm i (by omega))
        (List.range' (i + 1) (inds.length - (i + 1)))
        (by intro j hj; rw [List.mem_range'_1] at hj; exact hm j (by omega)) List.nodup_range'
        (by
          refine List.Pairwise.imp_of_mem ?_ (List.pairwise_lt_range' (s := i + 1) (n := inds.length - (i + 1)) (step := 1))
          intro a b _ hb hab
          rw [List.mem_range'_1] at hb
          exact hsort a b hab (by omega)) (i :: done) [inds.getD i 0]
      rw [hspec]
      set L := (List.range' (i + 1) (inds.length - (i + 1))).filter fun j =>
        decide (j ∉ i :: done ∧ rowAt rows inds j = rows.getD (inds.getD i 0) []) with hL
      have hLmem : ∀ j, j ∈ L ↔ (i < j ∧ j < inds.length) ∧ j ∉ i :: done ∧ rowAt rows inds j = rowAt rows inds i := by
        intro j
        rw [hL, List.mem_filter, List.mem_range'_1]
        simp only [decide_eq_true_eq]
        constructor
        · rintro ⟨h1, h2, h3⟩; exact ⟨by omega, h2, h3⟩
        · rintro ⟨h1, h2, h3⟩; exact ⟨by omega, h2, h3⟩
      have hLnd : L.Nodup := List.Nodup.filter _ List.nodup_range'
      dsimp only
      apply ih (i + 1) (by omega)
      have hgrp : ∀ x ∈ [inds.getD i 0] ++ L.map fun j => inds.getD j 0, rows.getD x [] = rowAt rows inds i := by
        intro x hx
        rcases List.mem_append.1 hx with hx | hx
        · rw [List.mem_singleton] at hx; rw [hx]; rfl
        · obtain ⟨j, hj, rfl⟩ := List.mem_map.1 hx
          exact ((hLmem j).1 hj).2.2
      have hres : ∀ g ∈ res, ∀ x ∈ g, ∃ p ∈ done, rows.getD x [] = rowAt rows inds p := by
        intro g hg x hx
        have : x ∈ res.flatten := List.mem_flatten.2 ⟨g, hg, hx⟩
        rw [h.perm.mem_iff] at this
        obtain ⟨p, hp, rfl⟩ := List.mem_map.1 this
        exact ⟨p, hp, rfl⟩
      refine ⟨?_, ?_, ?_, ?_, ?_, ?_, ?_⟩
      · intro p hp
        simp only [List.mem_append, List.mem_reverse, List.mem_cons]
        rcases Nat.lt_or_ge p i with hlt | hge
        · right; right; exact h.upto p hlt
        · right; left; omega
      · intro p hp
        simp only [List.mem_append, List.mem_reverse, List.mem_cons] at hp
        rcases hp with hp | hp | hp
        · exact ((hLmem p).1 hp).1.2
        · omega
        · exact h.bound p hp
      · rw [List.nodup_append]
        refine ⟨List.nodup_reverse.2 hLnd, List.nodup_cons.2 ⟨hi, h.nodup⟩, ?_⟩
        intro a ha b hb hab
        rw [List.mem_reverse] at ha
        exact ((hLmem a).1 ha).2.1 (hab ▸ hb)
      · rw [List.flatten_append, List.flatten_cons, List.flatten_nil, List.append_nil, List.map_append,
          List.map_reverse, List.map_cons]
        refine (h.perm.append_right _).trans ?_
        rw [List.singleton_append]
        refine List.Perm.trans List.perm_append_comm ?_
        refine List.Perm.trans ?_ (List.Perm.append_right _ (List.reverse_perm _).symm)
        rw [List.cons_append]
        exact List.perm_middle.symm
      · intro p hp q hq hpq
        simp only [List.mem_append, List.mem_reverse, List.mem_cons] at hp ⊢
        have key : rowAt rows inds q = rowAt rows inds i → q ∈ L ∨ q = i ∨ q ∈ done := by
          intro he
          by_cases h1 : q ∈ i :: done
          · rw [List.mem_cons] at h1; exact Or.inr h1
          · left
            rw [hLmem]
            refine ⟨⟨?_, hq⟩, h1, he⟩
            rw [List.mem_cons, not_or] at h1
            rcases Nat.lt_or_ge q i with hlt | hge
            · exact absurd (h.upto q hlt) h1.2
            · have := h1.1; omega
        rcases hp with hp | hp | hp
        · exact key (hpq.trans ((hLmem p).1 hp).2.2)
        · exact key (hp ▸ hpq)
        · exact Or.inr (Or.inr (h.closed p hp q hq hpq))
      · intro g hg x hx y hy
        rcases List.mem_append.1 hg with hg | hg
        · exact h.same g hg x hx y hy
        · rw [List.mem_singleton] at hg
          subst hg
          rw [hgrp x hx, hgrp y hy]
      · rw [List.pairwise_append]
        refine ⟨h.diff, List.pairwise_singleton _ _, ?_⟩
        intro g hg h' hh' x hx y hy hxy
        rw [List.mem_singleton] at hh'
        subst hh'
        rw [hgrp y hy] at hxy
        obtain ⟨p, hp, e⟩ := hres g hg x hx
        exact hi (h.closed p hp i (by omega) (by rw [← hxy, e]))

/-! ### np.unique with return_index on sorted blocks -/

theorem flatten_block {β : Type} (B : List (List β)) (i : Nat) (hi : i < B.length) :
    (B.flatten.drop ((B.take i).flatten.length)).take B[i].length = B[i] := by
  have h4 : B.flatten = (B.take i).flatten ++ (B[i] ++ (B.drop (i + 1)).flatten) := by
    conv_lhs => rw [← List.take_append_drop i B, List.flatten_append, List.drop_eq_getElem_cons hi, List.flatten_cons]
  rw [h4, List.drop_left', List.take_left']
  · rfl
  · rfl

end Pixell
