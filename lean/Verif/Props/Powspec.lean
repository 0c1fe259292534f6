import Verif.Lemmas.Powspec
import Mathlib.Algebra.Module.Defs
import Mathlib.Algebra.Order.Field.Rat

/-
Properties C46, C47: compressed symmetric matrices.
-/
namespace Pixell

/-! ### C46: compressed_order -/

/-- C46: for every count `n` and every scheme the result has exactly `n` entries and no two of them name the same
unordered pair of components. -/
theorem C46_distinct (n : Nat) (sch : Scheme) :
    (compressedOrder n sch).length = n ∧ ((compressedOrder n sch).map fun p => s(p.1, p.2)).Nodup := by
  obtain ⟨h1, h2, h3⟩ := order_basic n sch
  refine ⟨h1, h2.map_on ?_⟩
  intro p hp q hq e
  have a := h3 p hp
  have b := h3 q hq
  rw [Sym2.eq_iff] at e
  rcases e with ⟨e1, e2⟩ | ⟨e1, e2⟩
  · exact Prod.ext e1 e2
  · exact Prod.ext (by omega) (by omega)

/-- C46: no more components are used than needed: all entries are below every `c` that offers `n` unordered pairs. -/
theorem C46_components (n : Nat) (sch : Scheme) (c : Nat) (hc : n ≤ c * (c + 1) / 2) :
    ∀ p ∈ compressedOrder n sch, p.1 < c ∧ p.2 < c := by
  intro p hp
  have := (order_basic n sch).2.2 p hp
  have := (ncomp_le_iff n c).2 hc
  omega

/-- C46: for the number of elements of a full symmetric matrix of `c` components, every unordered pair of components
appears. -/
theorem C46_full (c : Nat) (sch : Scheme) (i j : Nat) (hi : i < c) (hj : j < c) :
    s(i, j) ∈ (compressedOrder (c * (c + 1) / 2) sch).map fun p => s(p.1, p.2) := by
  rw [List.mem_map]
  rcases Nat.le_total i j with h | h
  · exact ⟨(i, j), order_full c sch i j h hj, rfl⟩
  · exact ⟨(j, i), order_full c sch j i h hi, Sym2.eq_swap⟩

/-- C46: every diagonal entry appears in all schemes as soon as `n` reaches past the last full matrix ('row' keeps all
of them, 'diag' has them first, 'stable' starts each component with its own). -/
theorem C46_diagonal (n : Nat) (sch : Scheme) (c : Nat) (hc : c * (c + 1) / 2 < n) (i : Nat) (hi : i ≤ c) :
    (i, i) ∈ compressedOrder n sch := by
  have hnc : c < ncomp n := by
    by_contra h
    have := (ncomp_le_iff n c).1 (by omega)
    omega
  have hself := ncomp_le_self n
  have hmin : ncomp n ≤ c + 1 ∨ c + 1 < ncomp n := by omega
  cases sch with
  | stable =>
    rw [order_stable]
    have hpre : stableAll c ++ [(c, c)] <+: stableAll (ncomp n) := by
      refine List.IsPrefix.trans ?_ (stableAll_prefix (show c + 1 ≤ ncomp n by omega))
      rw [stableAll_succ]
      exact (List.prefix_append_right_inj _).2 (by simp [stableBlock])
    have hl : (stableAll c ++ [(c, c)]).length ≤ n := by rw [List.length_append, stableAll_length]; simpa using hc
    have : (i, i) ∈ stableAll c ++ [(c, c)] := by
      rcases Nat.lt_or_ge i c with h | h
      · exact List.mem_append_left _ (mem_stableAll.2 ⟨le_refl _, h⟩)
      · have : i = c := by omega
        simp [this]
    obtain ⟨t, ht⟩ := hpre
    rw [← ht, List.take_append]
    exact List.mem_append_left _ (by rw [List.take_of_length_le hl]; exact this)
  | row =>
    rw [order_row, List.take_of_length_le (by rw [selRow_order_length])]
    have : ∀ (L : List (Nat × Nat)) (k : Nat), (i, i) ∈ L → (i, i) ∈ selRow L k := by
      intro L
      induction L with
      | nil => simp
      | cons p L ih =>
        intro k h
        simp only [selRow]
        rcases List.mem_cons.1 h with rfl | h
        · simp
        · split
          · exact List.mem_cons_of_mem _ (ih _ h)
          · split
            · exact ih _ h
            · exact List.mem_cons_of_mem _ (ih _ h)
    exact this _ _ (mem_rowPairs.2 ⟨le_refl _, by simpa using (by omega : i < ncomp n)⟩)
  | diag =>
    obtain ⟨k, hk⟩ : ∃ k, ncomp n = k + 1 := ⟨ncomp n - 1, by omega⟩
    rw [compressedOrder, diagPairs, hk, List.range_succ_eq_map, List.flatMap_cons, List.take_append]
    refine List.mem_append_left _ ?_
    rw [List.take_of_length_le (by simp; omega)]
    simp only [List.mem_map, List.mem_range]
    exact ⟨i, by omega, rfl⟩

/-- C46: in the stable scheme dropping elements from the end keeps the meaning of the others: the order for `n` is an
initial part of the order for every larger count. -/
theorem C46_stable_prefix (n k : Nat) : compressedOrder n .stable <+: compressedOrder (n + k) .stable := by
  have h1 := (ncomp_le_iff n (ncomp n)).1 (le_refl _)
  have h2 := (ncomp_le_iff (n + k) (ncomp (n + k))).1 (le_refl _)
  rw [order_stable, order_stable, stableAll_take h1 (by omega : n ≤ ncomp (n + k) * (ncomp (n + k) + 1) / 2)]
  rw [show n = min n (n + k) by omega, ← List.take_take]
  simpa using List.take_prefix n ((stableAll (ncomp (n + k))).take (n + k))

/-- The other schemes do not have this property. -/
theorem C46_diag_not_stable : ¬ compressedOrder 3 .diag <+: compressedOrder 4 .diag := by decide +kernel

/-- The docstring's tables. -/
example : compressedOrder 4 .row = [(0,0),(0,1),(1,1),(2,2)] ∧ compressedOrder 5 .diag = [(0,0),(1,1),(2,2),(0,1),(1,2)] := by
  decide +kernel
example : compressedOrder 5 .stable = [(0,0),(1,1),(0,1),(2,2),(0,2)] := by
  rw [order_stable]; decide +kernel

/-! ### C47: sym_compress and sym_expand -/

variable {α : Type}

/-- Entry `(i,j)` after the assignments of sym_expand, for a list of distinct unordered pairs. -/
theorem expand_entry [Zero α] (l : List ((Nat × Nat) × α)) (m0 : Nat → Nat → α)
    (hnd : (l.map fun x => s(x.1.1, x.1.2)).Nodup) (i j : Nat) :
    (∀ v, (∃ x ∈ l, s(x.1.1, x.1.2) = s(i, j) ∧ x.2 = v) → l.foldl expandStep m0 i j = v) ∧
    ((∀ x ∈ l, s(x.1.1, x.1.2) ≠ s(i, j)) → l.foldl expandStep m0 i j = m0 i j) := by
  induction l generalizing m0 with
  | nil => simp
  | cons x l ih =>
    have hnd' := List.nodup_cons.1 hnd
    obtain ⟨ih1, ih2⟩ := ih (expandStep m0 x) hnd'.2
    rw [List.foldl_cons]
    have hstep : (s(x.1.1, x.1.2) = s(i, j) → expandStep m0 x i j = x.2) ∧
        (s(x.1.1, x.1.2) ≠ s(i, j) → expandStep m0 x i j = m0 i j) := by
      unfold expandStep setEntry
      constructor
      · intro e
        rw [Sym2.eq_iff] at e
        by_cases hne : x.1.1 = x.1.2
        · simp only [hne, ne_eq, not_true_eq_false, if_false]
          rw [if_pos (by omega)]
        · simp only [ne_eq, hne, not_false_eq_true, if_true]
          rcases e with ⟨e1, e2⟩ | ⟨e1, e2⟩
          · rw [if_neg (by omega), if_pos (by omega)]
          · rw [if_pos (by omega)]
      · intro e
        rw [Ne, Sym2.eq_iff] at e
        by_cases hne : x.1.1 = x.1.2
        · simp only [hne, ne_eq, not_true_eq_false, if_false]
          rw [if_neg (by omega)]
        · simp only [ne_eq, hne, not_false_eq_true, if_true]
          rw [if_neg (by omega), if_neg (by omega)]
    constructor
    · rintro v ⟨y, hy, e, rfl⟩
      rcases List.mem_cons.1 hy with rfl | hy
      · rw [ih2, hstep.1 e]
        intro z hz ez
        apply hnd'.1
        rw [List.mem_map]
        exact ⟨z, hz, by rw [ez, ← e]⟩
      · exact ih1 _ ⟨y, hy, e, rfl⟩
    · intro h
      rw [ih2 fun z hz => h z (List.mem_cons_of_mem _ hz), hstep.2 (h x (by simp))]

theorem foldl_max_eq (l : List Nat) (m a : Nat) (hle : ∀ x ∈ l, x ≤ m) (ha : a ≤ m) (hmem : m ∈ l) :
    l.foldl max a = m := by
  have key : ∀ (l : List Nat) (a : Nat), (∀ x ∈ l, x ≤ l.foldl max a) ∧ a ≤ l.foldl max a ∧
      ∀ b, a ≤ b → (∀ x ∈ l, x ≤ b) → l.foldl max a ≤ b := by
    intro l
    induction l with
    | nil => intro a; simp
    | cons x l ih =>
      intro a
      obtain ⟨h1, h2, h3⟩ := ih (max a x)
      refine ⟨?_, ?_, ?_⟩
      · intro y hy
        rcases List.mem_cons.1 hy with rfl | hy
        · exact (le_max_right _ _).trans h2
        · exact h1 y hy
      · exact (le_max_left _ _).trans h2
      · intro b hab hb
        exact h3 b (max_le hab (hb x (by simp))) fun y hy => hb y (List.mem_cons_of_mem _ hy)
  obtain ⟨h1, h2, h3⟩ := key l a
  exact Nat.le_antisymm (h3 m ha hle) (h1 m hmem)

theorem zip_map_self {β γ : Type} (l : List β) (f : β → γ) : l.zip (l.map f) = l.map fun x => (x, f x) := by
  induction l with
  | nil => rfl
  | cons x l ih => simp [ih]

/-- What expanding a compressed matrix gives in general, with or without `combined`. -/
theorem expand_compress [AddMonoid α] (N : Nat) (hN : 0 < N) (mat : Nat → Nat → α)
    (hsym : ∀ i j, mat i j = mat j i) (sch : Scheme) (combined comb2 : Bool) :
    ∃ res, symExpand (symCompress N mat sch combined) sch comb2 = some (N, res) ∧
      ∀ i j, i < N → j < N → res i j = if combined = true ∧ i ≠ j then mat i j + mat i j else mat i j := by
  set which := compressedOrder (N * (N + 1) / 2) sch with hw
  obtain ⟨h1, h2⟩ := C46_distinct (N * (N + 1) / 2) sch
  have hT : 0 < N * (N + 1) / 2 := by
    have := tri_two N
    have : 0 < N * (N + 1) := by positivity
    omega
  set vals := symCompress N mat sch combined with hv
  have hvl : vals.length = N * (N + 1) / 2 := by rw [hv, symCompress]; simp [h1]
  have hne : which ≠ [] := by intro h; rw [← hw, h] at h1; simp at h1; omega
  unfold symExpand
  simp only [hvl, ← hw, if_neg hne]
  have hmax : (which.map fun w => max w.1 w.2).foldl max 0 + 1 = N := by
    rw [foldl_max_eq _ (N - 1) 0]
    · omega
    · intro x hx
      rw [List.mem_map] at hx
      obtain ⟨w, hwm, rfl⟩ := hx
      have := C46_components _ sch N (le_refl _) w hwm
      omega
    · omega
    · rw [List.mem_map]
      exact ⟨(N - 1, N - 1), order_full N sch _ _ (le_refl _) (by omega), by simp⟩
  refine ⟨_, by rw [hmax], ?_⟩
  intro i j hi hj
  have hzip : which.zip vals = which.map fun w => (w, if combined then mat w.2 w.1 + (if w.2 ≠ w.1 then mat w.1 w.2 else 0)
      else mat w.2 w.1) := by
    rw [hv, symCompress]
    simp only [← hw]
    exact zip_map_self _ _
  have hnd : ((which.zip vals).map fun x => s(x.1.1, x.1.2)).Nodup := by
    rw [hzip, List.map_map]; exact h2
  apply (expand_entry (which.zip vals) _ hnd j i).1
  have hmem := order_full N sch (min i j) (max i j) (by omega) (by omega)
  refine ⟨((min i j, max i j), _), by rw [hzip]; exact List.mem_map.2 ⟨_, hmem, rfl⟩, ?_, ?_⟩
  · simp only [Sym2.eq_iff]
    omega
  · simp only
    have e : mat (max i j) (min i j) = mat i j ∧ mat (min i j) (max i j) = mat i j := by
      rcases Nat.le_total i j with h | h
      · rw [Nat.min_eq_left h, Nat.max_eq_right h]; exact ⟨hsym _ _, rfl⟩
      · rw [Nat.min_eq_right h, Nat.max_eq_left h]; exact ⟨rfl, hsym _ _⟩
    rw [e.1, e.2]
    have e2 : (max i j ≠ min i j) ↔ i ≠ j := by omega
    simp only [e2]
    cases combined <;> by_cases hij : i = j <;> simp [hij]

/-- C47: expanding a compressed symmetric matrix of any positive size gives the matrix back, in every scheme. -/
theorem C47_round_trip [AddMonoid α] (N : Nat) (hN : 0 < N) (mat : Nat → Nat → α) (hsym : ∀ i j, mat i j = mat j i)
    (sch : Scheme) :
    ∃ res, symExpand (symCompress N mat sch false) sch false = some (N, res) ∧ ∀ i j, i < N → j < N → res i j = mat i j := by
  obtain ⟨res, h1, h2⟩ := expand_compress N hN mat hsym sch false false
  exact ⟨res, h1, fun i j hi hj => by rw [h2 i j hi hj]; simp⟩

/-- C47: compressing an expanded list gives the list back, and the expanded matrix is symmetric, for every list with the
length of a full matrix. -/
theorem C47_back [AddMonoid α] (N : Nat) (hN : 0 < N) (v : List α) (hv : v.length = N * (N + 1) / 2) (sch : Scheme) :
    ∃ res, symExpand v sch false = some (N, res) ∧ symCompress N res sch false = v ∧ ∀ i j, res i j = res j i := by
  obtain ⟨h1, h2⟩ := C46_distinct (N * (N + 1) / 2) sch
  obtain ⟨r0, hr0, _⟩ := expand_compress N hN (fun _ _ => (0 : α)) (fun _ _ => rfl) sch false false
  have hT : 0 < N * (N + 1) / 2 := by
    have := tri_two N
    have : 0 < N * (N + 1) := by positivity
    omega
  have hne : compressedOrder (N * (N + 1) / 2) sch ≠ [] := by intro h; rw [h] at h1; simp at h1; omega
  unfold symExpand at hr0 ⊢
  have hl0 : (symCompress N (fun _ _ => (0 : α)) sch false).length = N * (N + 1) / 2 := by rw [symCompress]; simp [h1]
  simp only [hl0, hv, if_neg hne, Option.some.injEq, Prod.mk.injEq] at hr0 ⊢
  set which := compressedOrder (N * (N + 1) / 2) sch with hw
  refine ⟨_, ⟨hr0.1, rfl⟩, ?_, ?_⟩
  · have hzl : (which.zip v).map Prod.fst = which := List.map_fst_zip (by omega)
    have hnd : ((which.zip v).map fun x => s(x.1.1, x.1.2)).Nodup := by
      have : (which.zip v).map (fun x => s(x.1.1, x.1.2)) = ((which.zip v).map Prod.fst).map fun p => s(p.1, p.2) := by
        rw [List.map_map]; rfl
      rw [this, hzl]; exact h2
    rw [symCompress]
    simp only [← hw, Bool.false_eq_true, if_false]
    apply List.ext_getElem (by simp [h1, hv])
    intro k hk1 hk2
    rw [List.getElem_map]
    have hkw : k < which.length := by simpa using hk1
    refine (expand_entry (which.zip v) _ hnd _ _).1 _ ⟨(which[k], v[k]), ?_, rfl, rfl⟩
    exact List.mem_iff_getElem.2 ⟨k, by simp; omega, by simp⟩
  · intro i j
    show (which.zip v).foldl expandStep _ j i = (which.zip v).foldl expandStep _ i j
    have hzl : (which.zip v).map Prod.fst = which := List.map_fst_zip (by omega)
    have hnd : ((which.zip v).map fun x => s(x.1.1, x.1.2)).Nodup := by
      have : (which.zip v).map (fun x => s(x.1.1, x.1.2)) = ((which.zip v).map Prod.fst).map fun p => s(p.1, p.2) := by
        rw [List.map_map]; rfl
      rw [this, hzl]; exact h2
    obtain ⟨a1, a2⟩ := expand_entry (which.zip v) (fun _ _ => 0) hnd j i
    obtain ⟨b1, b2⟩ := expand_entry (which.zip v) (fun _ _ => 0) hnd i j
    by_cases h : ∃ x ∈ which.zip v, s(x.1.1, x.1.2) = s(i, j)
    · obtain ⟨x, hx, e⟩ := h
      rw [a1 x.2 ⟨x, hx, by rw [e, Sym2.eq_swap], rfl⟩, b1 x.2 ⟨x, hx, e, rfl⟩]
    · push Not at h
      rw [a2 fun x hx => by rw [Sym2.eq_swap (a := j)]; exact h x hx, b2 h]

/-- C47 fails with `combined=True`: for every symmetric matrix the round trip doubles all off-diagonal elements (the
halved value computed by sym_expand is not used). -/
theorem C47_combined_refuted [AddMonoid α] (N : Nat) (hN : 0 < N) (mat : Nat → Nat → α)
    (hsym : ∀ i j, mat i j = mat j i) (sch : Scheme) :
    ∃ res, symExpand (symCompress N mat sch true) sch true = some (N, res) ∧
      ∀ i j, i < N → j < N → res i j = if i = j then mat i j else mat i j + mat i j := by
  obtain ⟨res, h1, h2⟩ := expand_compress N hN mat hsym sch true true
  refine ⟨res, h1, fun i j hi hj => ?_⟩
  rw [h2 i j hi hj]
  by_cases h : i = j <;> simp [h]

/-- C47 for `combined=True` only holds for diagonal matrices. -/
theorem C47_combined_partial [AddMonoid α] (N : Nat) (hN : 0 < N) (mat : Nat → Nat → α)
    (hsym : ∀ i j, mat i j = mat j i) (hdiag : ∀ i j, i ≠ j → mat i j = 0) (sch : Scheme) :
    ∃ res, symExpand (symCompress N mat sch true) sch true = some (N, res) ∧ ∀ i j, i < N → j < N → res i j = mat i j := by
  obtain ⟨res, h1, h2⟩ := C47_combined_refuted N hN mat hsym sch
  refine ⟨res, h1, fun i j hi hj => ?_⟩
  rw [h2 i j hi hj]
  by_cases h : i = j
  · simp [h]
  · simp [h, hdiag i j h]

/-- A matrix of size zero is compressed to an empty list, which cannot be expanded (np.max of nothing raises). -/
theorem C47_empty_refuted (mat : Nat → Nat → ℚ) (sch : Scheme) : symExpand (symCompress 0 mat sch false) sch false = none := by
  have h := (order_basic 0 sch).1
  have h2 : compressedOrder (0 * (0 + 1) / 2) sch = [] := List.eq_nil_of_length_eq_zero h
  simp [symExpand, symCompress, h2]

example : symCompress 2 (fun i j => (i + j : ℚ)) .diag false = [0, 2, 1] ∧ symCompress 2 (fun i j => (i + j : ℚ)) .diag true = [0, 2, 2] := by
  decide +kernel

end Pixell
