import Verif.Model.Sort
import Mathlib.Data.List.Basic
import Mathlib.Data.List.Perm.Basic

namespace Pixell

variable {β : Type}

theorem insertBy_perm (le : β → β → Bool) (x : β) (l : List β) : (insertBy le x l).Perm (x :: l) := by
  induction l with
  | nil => exact List.Perm.refl _
  | cons y l ih =>
    unfold insertBy
    split
    · exact List.Perm.refl _
    · exact (ih.cons y).trans (List.Perm.swap x y l)

theorem sortBy_perm (le : β → β → Bool) (l : List β) : (sortBy le l).Perm l := by
  induction l with
  | nil => exact List.Perm.refl _
  | cons x l ih => exact (insertBy_perm le x _).trans (ih.cons x)

theorem sortBy_length (le : β → β → Bool) (l : List β) : (sortBy le l).length = l.length :=
  (sortBy_perm le l).length_eq

theorem sortBy_sorted (le : β → β → Bool) (htrans : ∀ a b c, le a b = true → le b c = true → le a c = true)
    (htot : ∀ a b, le a b = true ∨ le b a = true) (l : List β) :
    (sortBy le l).Pairwise fun x y => le x y = true := by
  induction l with
  | nil => simp [sortBy]
  | cons x l ih =>
    have key : ∀ s : List β, s.Pairwise (fun x y => le x y = true) →
        (insertBy le x s).Pairwise fun x y => le x y = true := by
      intro s
      induction s with
      | nil => intro _; simp [insertBy]
      | cons y s ihs =>
        intro hs
        obtain ⟨h1, h2⟩ := List.pairwise_cons.1 hs
        unfold insertBy
        split
        · rename_i hxy
          rw [List.pairwise_cons]
          refine ⟨fun z hz => ?_, hs⟩
          rcases List.mem_cons.1 hz with rfl | hz
          · exact hxy
          · exact htrans _ _ _ hxy (h1 z hz)
        · rename_i hxy
          rw [List.pairwise_cons]
          refine ⟨fun z hz => ?_, ihs h2⟩
          rcases List.mem_cons.1 ((insertBy_perm le x s).mem_iff.1 hz) with rfl | hz
          · rcases htot z y with h | h
            · exact absurd h hxy
            · exact h
          · exact h1 z hz
    exact key _ ih

theorem argsort_perm {κ : Type} (le : κ → κ → Bool) (keys : List κ) :
    (argsort le keys).Perm (List.range keys.length) := by
  unfold argsort
  refine ((sortBy_perm _ keys.zipIdx).map Prod.snd).trans ?_
  rw [List.zipIdx_map_snd, List.range_eq_range']

theorem argsort_length {κ : Type} (le : κ → κ → Bool) (keys : List κ) : (argsort le keys).length = keys.length := by
  rw [(argsort_perm le keys).length_eq, List.length_range]

theorem mem_argsort {κ : Type} (le : κ → κ → Bool) (keys : List κ) (i : Nat) :
    i ∈ argsort le keys ↔ i < keys.length := by
  rw [(argsort_perm le keys).mem_iff, List.mem_range]

theorem argsort_nodup {κ : Type} (le : κ → κ → Bool) (keys : List κ) : (argsort le keys).Nodup :=
  (argsort_perm le keys).nodup_iff.2 List.nodup_range

/-- The keys in the order of `argsort` are sorted. -/
theorem argsort_sorted {κ : Type} (le : κ → κ → Bool) (htrans : ∀ a b c, le a b = true → le b c = true → le a c = true)
    (htot : ∀ a b, le a b = true ∨ le b a = true) (keys : List κ) :
    (argsort le keys).Pairwise fun i j => ∀ a b, keys[i]? = some a → keys[j]? = some b → le a b = true := by
  unfold argsort
  rw [List.pairwise_map]
  have h := sortBy_sorted (fun a b : κ × Nat => le a.1 b.1) (fun a b c => htrans _ _ _) (fun a b => htot _ _) keys.zipIdx
  refine h.imp_of_mem ?_
  intro x y hx hy hxy a b ha hb
  have hx' := (sortBy_perm _ _).mem_iff.1 hx
  have hy' := (sortBy_perm _ _).mem_iff.1 hy
  rw [List.mem_zipIdx_iff_getElem?] at hx' hy'
  rw [hx', Option.some_inj] at ha
  rw [hy', Option.some_inj] at hb
  subst ha; subst hb
  exact hxy

/-- The sort is stable: elements that compare equal keep their order. -/
theorem sortBy_stable (le : β → β → Bool) (htrans : ∀ a b c, le a b = true → le b c = true → le a c = true)
    (htot : ∀ a b, le a b = true ∨ le b a = true) (S : β → β → Prop) (l : List β) (hl : l.Pairwise S) :
    (sortBy le l).Pairwise fun x y => le x y = true ∧ (le y x = true → S x y) := by
  induction l with
  | nil => simp [sortBy]
  | cons x l ih =>
    rw [List.pairwise_cons] at hl
    have key : ∀ s : List β, (∀ y ∈ s, S x y) → s.Pairwise (fun x y => le x y = true ∧ (le y x = true → S x y)) →
        (insertBy le x s).Pairwise fun x y => le x y = true ∧ (le y x = true → S x y) := by
      intro s
      induction s with
      | nil => intro _ _; simp [insertBy]
      | cons y s ihs =>
        intro hS hs
        obtain ⟨h1, h2⟩ := List.pairwise_cons.1 hs
        unfold insertBy
        split
        · rename_i hxy
          rw [List.pairwise_cons]
          refine ⟨fun z hz => ⟨?_, fun _ => hS z hz⟩, hs⟩
          rcases List.mem_cons.1 hz with rfl | hz
          · exact hxy
          · exact htrans _ _ _ hxy (h1 z hz).1
        · rename_i hxy
          rw [List.pairwise_cons]
          refine ⟨fun z hz => ?_, ihs (fun q hq => hS q (List.mem_cons_of_mem _ hq)) h2⟩
          rcases List.mem_cons.1 ((insertBy_perm le x s).mem_iff.1 hz) with rfl | hz
          · refine ⟨?_, fun h => absurd h hxy⟩
            rcases htot z y with h | h
            · exact absurd h hxy
            · exact h
          · exact h1 z hz
    exact key _ (fun y hy => hl.1 y ((sortBy_perm le l).mem_iff.1 hy)) (ih hl.2)

theorem argsort_stable {κ : Type} (le : κ → κ → Bool) (htrans : ∀ a b c, le a b = true → le b c = true → le a c = true)
    (htot : ∀ a b, le a b = true ∨ le b a = true) (keys : List κ) :
    (argsort le keys).Pairwise fun i j => ∀ a b, keys[i]? = some a → keys[j]? = some b →
      le a b = true ∧ (le b a = true → i < j) := by
  unfold argsort
  rw [List.pairwise_map]
  have h := sortBy_stable (fun a b : κ × Nat => le a.1 b.1) (fun a b c => htrans _ _ _) (fun a b => htot _ _)
    (fun a b => a.2 < b.2) keys.zipIdx (by
      rw [List.pairwise_iff_getElem]
      intro i j hi hj hij
      simpa using hij)
  refine h.imp_of_mem ?_
  intro x y hx hy hxy a b ha hb
  have hx' := (sortBy_perm _ _).mem_iff.1 hx
  have hy' := (sortBy_perm _ _).mem_iff.1 hy
  rw [List.mem_zipIdx_iff_getElem?] at hx' hy'
  rw [hx', Option.some.injEq] at ha
  rw [hy', Option.some.injEq] at hb
  subst ha; subst hb
  exact hxy

end Pixell
