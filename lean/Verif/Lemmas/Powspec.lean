import Verif.Model.Powspec
import Verif.Lemmas.Iter
import Mathlib.Analysis.Real.Sqrt
import Mathlib.Data.Sym.Sym2
import Mathlib.Data.List.Perm.Subperm
import Mathlib.Tactic.Ring
import Mathlib.Tactic.Linarith

namespace Pixell

theorem tri_succ (c : Nat) : (c + 1) * (c + 1 + 1) / 2 = c * (c + 1) / 2 + (c + 1) := by
  rw [show (c + 1) * (c + 1 + 1) = c * (c + 1) + 2 * (c + 1) by ring, Nat.add_mul_div_left _ _ (by norm_num)]

theorem tri_two (c : Nat) : 2 * (c * (c + 1) / 2) = c * (c + 1) :=
  Nat.mul_div_cancel' (Nat.even_mul_succ_self c).two_dvd

theorem tri_mono {a b : Nat} (h : a ≤ b) : a * (a + 1) / 2 ≤ b * (b + 1) / 2 :=
  Nat.div_le_div_right (Nat.mul_le_mul h (by omega))

/-- `ncomp n` is the least number of components with at least `n` unique elements. -/
theorem ncomp_le_iff (n c : Nat) : ncomp n ≤ c ↔ n ≤ c * (c + 1) / 2 := by
  have h1 : Nat.sqrt (1 + 8 * n) * Nat.sqrt (1 + 8 * n) ≤ 1 + 8 * n := Nat.sqrt_le _
  have h2 : 1 + 8 * n < (Nat.sqrt (1 + 8 * n) + 1) * (Nat.sqrt (1 + 8 * n) + 1) := Nat.lt_succ_sqrt _
  have h3 := tri_two c
  unfold ncomp
  simp only
  generalize Nat.sqrt (1 + 8 * n) = s at *
  have key : (if s * s = 1 + 8 * n then s else s + 1) ≤ 2 * c + 1 ↔ 1 + 8 * n ≤ (2 * c + 1) * (2 * c + 1) := by
    split
    · rename_i e
      rw [← e]
      exact Nat.mul_self_le_mul_self_iff.symm
    · rename_i e
      constructor
      · intro h
        have := Nat.mul_self_le_mul_self h
        omega
      · intro h
        have : s * s < (2 * c + 1) * (2 * c + 1) := by omega
        have := Nat.mul_self_lt_mul_self_iff.1 this
        omega
  have e4 : (2 * c + 1) * (2 * c + 1) = 8 * (c * (c + 1) / 2) + 1 := by
    have : (2 * c + 1) * (2 * c + 1) = 4 * (c * (c + 1)) + 1 := by ring
    omega
  omega

/-- `ncomp` is the formula of the source, in real numbers. -/
theorem ncomp_real (n : Nat) : (ncomp n : ℤ) = ⌈(-1 + Real.sqrt (1 + 8 * n)) / 2⌉ := by
  symm
  rw [Int.ceil_eq_iff]
  have hx : (0 : ℝ) ≤ 1 + 8 * n := by positivity
  constructor
  · rcases Nat.eq_zero_or_pos (ncomp n) with h0 | hp
    · rw [h0]
      have : 0 ≤ Real.sqrt (1 + 8 * n) := Real.sqrt_nonneg _
      push_cast
      linarith
    · have : ¬ n ≤ (ncomp n - 1) * (ncomp n - 1 + 1) / 2 := by
        rw [← ncomp_le_iff]; omega
      have h2 := tri_two (ncomp n - 1)
      obtain ⟨c, hc⟩ : ∃ c, ncomp n = c + 1 := ⟨ncomp n - 1, by omega⟩
      rw [hc] at this h2 ⊢
      simp only [Nat.add_sub_cancel] at this h2
      have h3 : c * (c + 1) < 2 * n := by omega
      have h4 : (2 * (c : ℝ) + 1) < Real.sqrt (1 + 8 * n) := by
        apply Real.lt_sqrt_of_sq_lt
        have : ((c * (c + 1) : ℕ) : ℝ) < (2 * n : ℕ) := by exact_mod_cast h3
        push_cast at this
        nlinarith
      push_cast
      linarith
  · have h := (ncomp_le_iff n (ncomp n)).1 (le_refl _)
    have h2 := tri_two (ncomp n)
    have h3 : 2 * n ≤ ncomp n * (ncomp n + 1) := by omega
    have h4 : Real.sqrt (1 + 8 * n) ≤ 2 * (ncomp n : ℝ) + 1 := by
      apply Real.sqrt_le_iff.2
      constructor
      · positivity
      · have : ((2 * n : ℕ) : ℝ) ≤ (ncomp n * (ncomp n + 1) : ℕ) := by exact_mod_cast h3
        push_cast at this
        nlinarith
    push_cast
    linarith

theorem ncomp_le_self (n : Nat) : ncomp n ≤ n := by
  rw [ncomp_le_iff]
  have := tri_two n
  rcases Nat.eq_zero_or_pos n with h | h
  · omega
  · nlinarith

theorem ncomp_tri (c : Nat) : ncomp (c * (c + 1) / 2) = c := by
  apply Nat.le_antisymm
  · rw [ncomp_le_iff]
  · by_contra h
    have h1 := (ncomp_le_iff (c * (c + 1) / 2) (ncomp (c * (c + 1) / 2))).1 (le_refl _)
    generalize ncomp (c * (c + 1) / 2) = d at *
    have h2 := tri_two c
    have h3 := tri_two d
    have : d * (d + 1) < c * (c + 1) := by nlinarith
    omega

/-! ### stable -/

/-- The pairs of the stable scheme that involve component `c` last. -/
def stableBlock (c : Nat) : List (Nat × Nat) := (c, c) :: (List.range c).map fun i => (i, c)

def stableAll (N : Nat) : List (Nat × Nat) := (List.range N).flatMap stableBlock

theorem stableAll_succ (N : Nat) : stableAll (N + 1) = stableAll N ++ stableBlock N := by
  simp [stableAll, List.range_succ]

theorem stableAll_length (N : Nat) : (stableAll N).length = N * (N + 1) / 2 := by
  induction N with
  | zero => rfl
  | succ N ih => rw [stableAll_succ, List.length_append, ih, tri_succ]; simp [stableBlock]

theorem stableAll_prefix {a b : Nat} (h : a ≤ b) : stableAll a <+: stableAll b := by
  induction b with
  | zero => rw [Nat.le_zero.1 h]
  | succ b ih =>
    rcases Nat.lt_or_ge a (b + 1) with h1 | h1
    · rw [stableAll_succ]; exact (ih (by omega)).trans (List.prefix_append _ _)
    · rw [Nat.le_antisymm h h1]

theorem stableAll_take {a b n : Nat} (ha : n ≤ a * (a + 1) / 2) (hb : n ≤ b * (b + 1) / 2) :
    (stableAll a).take n = (stableAll b).take n := by
  have key : ∀ {a b : Nat}, n ≤ a * (a + 1) / 2 → a ≤ b → (stableAll a).take n = (stableAll b).take n := by
    intro a b ha hab
    obtain ⟨t, ht⟩ := stableAll_prefix hab
    rw [← ht, List.take_append_of_le_length (by rw [stableAll_length]; exact ha)]
  rcases Nat.le_total a b with h | h
  · exact key ha h
  · exact (key hb h).symm

theorem mem_stableAll {N : Nat} {p : Nat × Nat} : p ∈ stableAll N ↔ p.1 ≤ p.2 ∧ p.2 < N := by
  obtain ⟨i, j⟩ := p
  simp only [stableAll, List.mem_flatMap, List.mem_range, stableBlock, List.mem_cons, List.mem_map, Prod.mk.injEq]
  constructor
  · rintro ⟨c, hc, (⟨h1, h2⟩ | ⟨k, hk, h1, h2⟩)⟩ <;> omega
  · rintro ⟨h1, h2⟩
    refine ⟨j, h2, ?_⟩
    rcases Nat.lt_or_ge i j with h | h
    · exact Or.inr ⟨i, h, rfl, rfl⟩
    · exact Or.inl ⟨by omega, rfl⟩

theorem stableAll_nodup (N : Nat) : (stableAll N).Nodup := by
  induction N with
  | zero => exact List.nodup_nil
  | succ N ih =>
    rw [stableAll_succ]
    refine List.Nodup.append ih ?_ ?_
    · refine List.nodup_cons.2 ⟨by simp, ?_⟩
      exact List.nodup_range.map fun a b h => (Prod.mk.inj h).1
    · intro p hp hq
      have := (mem_stableAll.1 hp).2
      simp only [stableBlock, List.mem_cons, List.mem_map] at hq
      rcases hq with rfl | ⟨k, _, rfl⟩ <;> simp at this

theorem stableLoop_take (n c N : Nat) (hN : n ≤ N * (N + 1) / 2) :
    (stableLoop n c (stableAll c)).take n = (stableAll N).take n := by
  generalize hk : n - (stableAll c).length = k
  induction k using Nat.strong_induction_on generalizing c with
  | _ k ih =>
    rw [stableLoop]
    split
    · rename_i hlt
      simp only
      rw [stableAll_length] at hlt hk
      have hl1 : (stableAll c ++ [(c, c)]).length = c * (c + 1) / 2 + 1 := by simp [stableAll_length]
      rw [hl1]
      have hfull : stableAll c ++ [(c, c)] ++ (List.range c).map (fun i => (i, c)) = stableAll (c + 1) := by
        rw [stableAll_succ]; simp [stableBlock]
      rcases Nat.le_total c (n - (c * (c + 1) / 2 + 1)) with h | h
      · rw [Nat.min_eq_left h, hfull]
        exact ih (n - (stableAll (c + 1)).length) (by rw [stableAll_length, tri_succ]; omega) (c + 1) rfl
      · rw [Nat.min_eq_right h]
        set w := stableAll c ++ [(c, c)] ++ (List.range (n - (c * (c + 1) / 2 + 1))).map (fun i => (i, c)) with hw
        have hwl : w.length = n := by rw [hw, List.length_append, hl1]; simp; omega
        rw [stableLoop, if_neg (by omega)]
        rw [← stableAll_take (a := c + 1) (by rw [tri_succ]; omega) hN]
        have hpre : w <+: stableAll (c + 1) := by
          rw [hw, ← hfull]
          apply List.prefix_append_right_inj _ |>.2
          apply List.IsPrefix.map
          rw [List.prefix_iff_eq_take, List.length_range, List.take_range, Nat.min_eq_left h]
        obtain ⟨t, ht⟩ := hpre
        rw [← ht]
        exact (List.take_append_of_le_length (l₁ := w) (l₂ := t) (by omega)).symm
    · rename_i hge
      rw [stableAll_length] at hge
      exact stableAll_take (by omega) hN

/-! ### row and diag -/

theorem mem_rowPairs {c : Nat} {p : Nat × Nat} : p ∈ rowPairs c ↔ p.1 ≤ p.2 ∧ p.2 < c := by
  obtain ⟨i, j⟩ := p
  simp only [rowPairs, List.mem_flatMap, List.mem_range, List.mem_map, Prod.mk.injEq]
  constructor
  · rintro ⟨a, ha, k, hk, h1, h2⟩; omega
  · rintro ⟨h1, h2⟩; exact ⟨i, by omega, j - i, by omega, rfl, by omega⟩

theorem mem_diagPairs {c : Nat} {p : Nat × Nat} : p ∈ diagPairs c ↔ p.1 ≤ p.2 ∧ p.2 < c := by
  obtain ⟨i, j⟩ := p
  simp only [diagPairs, List.mem_flatMap, List.mem_range, List.mem_map, Prod.mk.injEq]
  constructor
  · rintro ⟨a, ha, k, hk, h1, h2⟩; omega
  · rintro ⟨h1, h2⟩; exact ⟨j - i, by omega, i, by omega, rfl, by omega⟩

theorem rowPairs_nodup (c : Nat) : (rowPairs c).Nodup := by
  rw [rowPairs, List.nodup_flatMap]
  constructor
  · intro i _
    exact List.nodup_range.map fun a b h => by have := (Prod.mk.inj h).2; omega
  · refine List.nodup_range.imp ?_
    intro a b hab p hp hq
    simp only [List.mem_map] at hp hq
    obtain ⟨k, _, rfl⟩ := hp
    obtain ⟨l, _, h⟩ := hq
    exact hab (Prod.mk.inj h).1.symm

theorem diagPairs_nodup (c : Nat) : (diagPairs c).Nodup := by
  rw [diagPairs, List.nodup_flatMap]
  constructor
  · intro i _
    exact List.nodup_range.map fun a b h => (Prod.mk.inj h).1
  · refine List.nodup_range.imp ?_
    intro a b hab p hp hq
    simp only [List.mem_map] at hp hq
    obtain ⟨k, _, rfl⟩ := hp
    obtain ⟨l, _, h⟩ := hq
    have := Prod.mk.inj h
    omega

/-- Two duplicate-free lists of all pairs `i ≤ j < c` are permutations of each other. -/
theorem pairs_perm {c : Nat} {l : List (Nat × Nat)} (hn : l.Nodup) (hm : ∀ p, p ∈ l ↔ p.1 ≤ p.2 ∧ p.2 < c) :
    l.Perm (stableAll c) :=
  (List.perm_ext_iff_of_nodup hn (stableAll_nodup c)).2 fun p => by rw [hm, mem_stableAll]

theorem rowPairs_length (c : Nat) : (rowPairs c).length = c * (c + 1) / 2 := by
  rw [(pairs_perm (rowPairs_nodup c) fun _ => mem_rowPairs).length_eq, stableAll_length]

theorem diagPairs_length (c : Nat) : (diagPairs c).length = c * (c + 1) / 2 := by
  rw [(pairs_perm (diagPairs_nodup c) fun _ => mem_diagPairs).length_eq, stableAll_length]

/-- All diagonal pairs of a list and its first `k` others. -/
def selRow : List (Nat × Nat) → Nat → List (Nat × Nat)
  | [], _ => []
  | p :: l, k => if p.1 = p.2 then p :: selRow l k else if k = 0 then selRow l 0 else p :: selRow l (k - 1)

theorem rowStep_foldl (n : Nat) (L : List (Nat × Nat)) (m : Nat) (acc : List (Nat × Nat)) :
    (L.foldl (rowStep n) (m, acc)).2 = acc ++ selRow L (n - m) := by
  induction L generalizing m acc with
  | nil => simp [selRow]
  | cons p L ih =>
    rw [List.foldl_cons]
    simp only [rowStep, selRow]
    by_cases h : p.1 = p.2
    · simp [h, ih]
    · by_cases h2 : m ≥ n
      · simp [h, h2, ih, Nat.sub_eq_zero_of_le h2]
      · have : n - m ≠ 0 := by omega
        simp [h, h2, ih, this, Nat.sub_sub]

theorem selRow_sublist (L : List (Nat × Nat)) (k : Nat) : (selRow L k).Sublist L := by
  induction L generalizing k with
  | nil => simp [selRow]
  | cons p L ih =>
    simp only [selRow]
    split
    · exact (ih k).cons_cons p
    · split
      · exact (ih 0).cons p
      · exact (ih _).cons_cons p

theorem selRow_length (L : List (Nat × Nat)) (k : Nat) :
    (selRow L k).length = L.countP (fun p => p.1 = p.2) + min k (L.countP fun p => p.1 ≠ p.2) := by
  induction L generalizing k with
  | nil => simp [selRow]
  | cons p L ih =>
    simp only [selRow]
    by_cases h : p.1 = p.2
    · simp [h, ih]; omega
    · by_cases h2 : k = 0
      · subst h2; simp [h, ih]
      · simp [h, h2, ih]; omega

theorem diag_count (c : Nat) : (stableAll c).countP (fun p => p.1 = p.2) = c := by
  induction c with
  | zero => rfl
  | succ c ih =>
    rw [stableAll_succ, List.countP_append, ih]
    have : ((List.range c).map fun i => (i, c)).countP (fun p => p.1 = p.2) = 0 := by
      rw [List.countP_eq_zero]
      intro p hp
      simp only [List.mem_map, List.mem_range] at hp
      obtain ⟨k, hk, rfl⟩ := hp
      simp; omega
    simp only [stableBlock, List.countP_cons, this]
    simp

theorem rowPairs_diag (c : Nat) : (rowPairs c).countP (fun p => p.1 = p.2) = c := by
  rw [(pairs_perm (rowPairs_nodup c) fun _ => mem_rowPairs).countP_eq, diag_count]

theorem order_row (n : Nat) : compressedOrder n .row = (selRow (rowPairs (ncomp n)) (n - ncomp n)).take n := by
  simp only [compressedOrder, rowStep_foldl, List.nil_append]

theorem selRow_order_length (n : Nat) : (selRow (rowPairs (ncomp n)) (n - ncomp n)).length = n := by
  rw [selRow_length]
  have h1 := rowPairs_length (ncomp n)
  have h2 := rowPairs_diag (ncomp n)
  have h3 := List.length_eq_countP_add_countP (fun p : Nat × Nat => decide (p.1 = p.2)) (l := rowPairs (ncomp n))
  have h4 := (ncomp_le_iff n (ncomp n)).1 (le_refl _)
  have h5 := ncomp_le_self n
  simp only [decide_eq_true_eq] at h3
  simp only [ne_eq, decide_not] at *
  omega

theorem order_stable (n : Nat) : compressedOrder n .stable = (stableAll (ncomp n)).take n :=
  stableLoop_take n 0 (ncomp n) ((ncomp_le_iff n _).1 (le_refl _))

/-- The basic facts about all three schemes. -/
theorem order_basic (n : Nat) (sch : Scheme) :
    (compressedOrder n sch).length = n ∧ (compressedOrder n sch).Nodup ∧
      ∀ p ∈ compressedOrder n sch, p.1 ≤ p.2 ∧ p.2 < ncomp n := by
  have h := (ncomp_le_iff n (ncomp n)).1 (le_refl _)
  cases sch with
  | stable =>
    rw [order_stable]
    refine ⟨?_, (stableAll_nodup _).sublist (List.take_sublist _ _), fun p hp => mem_stableAll.1 (List.mem_of_mem_take hp)⟩
    rw [List.length_take, stableAll_length]; omega
  | row =>
    rw [order_row]
    have hs := (List.take_sublist n _).trans (selRow_sublist (rowPairs (ncomp n)) (n - ncomp n))
    refine ⟨?_, (rowPairs_nodup _).sublist hs, fun p hp => mem_rowPairs.1 (hs.subset hp)⟩
    rw [List.length_take, selRow_order_length, Nat.min_self]
  | diag =>
    refine ⟨?_, (diagPairs_nodup _).sublist (List.take_sublist _ _), fun p hp => mem_diagPairs.1 (List.mem_of_mem_take hp)⟩
    rw [compressedOrder, List.length_take, diagPairs_length]; omega

theorem order_full (c : Nat) (sch : Scheme) (i j : Nat) (hij : i ≤ j) (hj : j < c) :
    (i, j) ∈ compressedOrder (c * (c + 1) / 2) sch := by
  obtain ⟨h1, h2, h3⟩ := order_basic (c * (c + 1) / 2) sch
  rw [ncomp_tri] at h3
  have hsub : compressedOrder (c * (c + 1) / 2) sch ⊆ stableAll c := fun p hp => mem_stableAll.2 (h3 p hp)
  have hperm := (h2.subperm hsub).perm_of_length_le (by rw [h1, stableAll_length])
  exact hperm.mem_iff.2 (mem_stableAll.2 ⟨hij, hj⟩)

end Pixell
