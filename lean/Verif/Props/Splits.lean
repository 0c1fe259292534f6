import Verif.Lemmas.Splits

/-
C27, C28: splitting lists into groups.
-/
namespace Pixell

/-- C27: greedy_split_simple and equal_split hand out every index exactly once, whatever the weights:
the `n` groups together are a permutation of `0 … len-1`. -/
theorem C27_greedy_simple (w : List ℚ) (n : Nat) (hn : 0 < n) :
    ∃ g, greedySimple w n = some g ∧ g.length = n ∧ g.flatten.Perm (List.range w.length) := by
  unfold greedySimple
  rw [if_neg (by omega)]
  obtain ⟨_, h2, h3⟩ := greedy_fold_perm (w := w) hn (argsort (fun a b => decide (a ≤ b)) w).reverse
    (List.replicate n 0, List.replicate n []) (by simp) (by simp)
  refine ⟨_, rfl, h2, ?_⟩
  simp only [List.flatten_replicate_nil, List.append_nil] at h3
  exact h3.trans ((List.reverse_perm _).trans (argsort_perm _ _))

example : greedySimple [5, 1, 3, 4, 2] 2 = some [[0, 4, 1], [3, 2]] := by decide +kernel

/-- C27: asking for zero groups of non-empty data raises. -/
theorem C27_no_groups (w : List ℚ) (h : w ≠ []) : greedySimple w 0 = none := by
  simp [greedySimple, h]

/-- C27: greedy_split hands out every index exactly once for any work and cost functions that do not
raise. -/
theorem C27_greedy_split_partial {W D : Type} (costfun : List W → Option ℚ) (workfun : W → D → W) (nowork : W)
    (data : List D) (n : Nat) (hn : 0 < n) (hc : ∀ l : List W, l.length = n → ∃ c, costfun l = some c) :
    ∃ g, greedySplit costfun workfun nowork data n = some g ∧ g.length = n ∧
      g.flatten.Perm (List.range data.length) := by
  have hm : ∃ cs, (data.mapM fun d => if n = 0 then none
      else costfun ((List.replicate n nowork).set 0 (workfun nowork d))) = some cs ∧ cs.length = data.length := by
    induction data with
    | nil => exact ⟨[], rfl, rfl⟩
    | cons d data ih =>
      obtain ⟨cs, h1, h2⟩ := ih
      have h0 : n ≠ 0 := by omega
      obtain ⟨c, hcc⟩ := hc ((List.replicate n nowork).set 0 (workfun nowork d)) (by simp)
      refine ⟨c :: cs, ?_, by simp [h2]⟩
      rw [List.mapM_cons, h1, if_neg h0, hcc]
      rfl
  obtain ⟨cs, h1, h2⟩ := hm
  obtain ⟨st, e1, e2, e3⟩ := greedyLoop_spec costfun workfun data n hn hc
    (argsort (fun a b => decide (a ≤ b)) cs).reverse
    (by intro i hi; rw [← h2]; exact (mem_argsort _ _ _).1 (List.mem_reverse.1 hi))
    (List.replicate n nowork) (List.replicate n []) (by simp) (by simp)
  refine ⟨st.2, ?_, e2, ?_⟩
  · unfold greedySplit
    rw [h1]
    simp [e1]
  · simp only [List.flatten_replicate_nil, List.append_nil] at e3
    rw [← h2]
    exact e3.trans ((List.reverse_perm _).trans (argsort_perm _ _))

example : greedySplit (fun l => some (l.foldl max 0)) (fun a b => a + b) 0 [(5 : ℚ), 1, 3, 4, 2] 2 =
    some [[0, 4, 1], [3, 2]] := by decide +kernel

/-- C27 fails for greedy_split as it is called by default: with `costfun=max` and `nowork=None` every call
with at least two groups and some data raises (Python 3 cannot compare `None` with a number). -/
theorem C27_greedy_split_refuted (data : List ℚ) (h : data ≠ []) (n : Nat) (hn : 2 ≤ n) :
    greedySplit defaultCost defaultWork none data n = none := by
  obtain ⟨d, data, rfl⟩ := List.exists_cons_of_ne_nil h
  have : defaultCost ((List.replicate n none).set 0 (defaultWork none d)) = none := by
    obtain ⟨k, rfl⟩ : ∃ k, n = k + 2 := ⟨n - 2, by omega⟩
    simp [defaultCost, List.replicate_succ, defaultWork]
  simp [greedySplit, List.mapM_cons, this]

example : greedySplit defaultCost defaultWork none [1, 2, 3] 2 = none := by decide +kernel
example : greedySplit defaultCost defaultWork none [1, 2, 3] 1 = some [[2, 1, 0]] := by decide +kernel

/-- C27: cumsplit cuts the list of sizes at the first item whose running total exceeds the running total of
the capacities: everything before the `j`-th cut fits, and one item more would not. -/
theorem C27_cumsplit (sizes caps : List ℚ) (hs : ∀ x ∈ sizes, 0 ≤ x) (hc : ∀ x ∈ caps, 0 ≤ x) :
    (cumsplit sizes caps).length = caps.length ∧
    ∀ j k, (cumsplit sizes caps)[j]? = some k →
      k ≤ sizes.length ∧ (sizes.take k).sum ≤ (caps.take (j + 1)).sum ∧
      (k < sizes.length → (caps.take (j + 1)).sum < (sizes.take (k + 1)).sum) := by
  refine ⟨by simp [cumsplit, cumsumQ_eq], fun j k hjk => ?_⟩
  unfold cumsplit at hjk
  rw [List.getElem?_map, Option.map_eq_some_iff] at hjk
  obtain ⟨v, hv, hk⟩ := hjk
  rw [cumsumQ_eq, List.getElem?_map, Option.map_eq_some_iff] at hv
  obtain ⟨j', hj', hv⟩ := hv
  have : j' = j := by
    obtain ⟨h, e⟩ := List.getElem?_eq_some_iff.1 hj'
    simpa using e.symm
  subst this
  obtain ⟨h1, h2, h3⟩ := searchRight_spec hs v
  rw [hk] at h1 h2 h3
  rw [← hv] at h2 h3
  refine ⟨h1, ?_, h3⟩
  rcases h2 with h2 | h2
  · subst h2
    simp only [List.take_zero, List.sum_nil]
    exact List.sum_nonneg fun x hx => hc x (List.mem_of_mem_take hx)
  · exact h2

/-- C27: the cuts of cumsplit do not decrease, so the pieces between them, with the rest after the last,
are consecutive. -/
theorem C27_cumsplit_sorted (sizes caps : List ℚ) (hc : ∀ x ∈ caps, 0 ≤ x) :
    (cumsplit sizes caps).Pairwise (· ≤ ·) := by
  unfold cumsplit
  rw [cumsumQ_eq caps, List.map_map, List.pairwise_map]
  refine List.Pairwise.imp ?_ (List.pairwise_lt_range)
  intro a b hab
  simp only [Function.comp, searchRight]
  apply List.countP_mono_left
  intro x _ hx
  simp only [decide_eq_true_eq] at hx ⊢
  exact le_trans hx (prefix_sum_mono hc (by omega))

/-- Pieces delimited by a list of cut positions: `x[0:c0], x[c0:c1], …, x[clast:]`. -/
def pieces {β : Type} (x : List β) : Nat → List Nat → List (List β)
  | a, [] => [x.drop a]
  | a, c :: r => (x.drop a).take (c - a) :: pieces x c r

theorem pieces_flatten {β : Type} (x : List β) (cuts : List Nat) (a : Nat) (h : (a :: cuts).Pairwise (· ≤ ·)) :
    (pieces x a cuts).flatten = x.drop a := by
  induction cuts generalizing a with
  | nil => simp [pieces]
  | cons c r ih =>
    rw [List.pairwise_cons] at h
    have hac := h.1 c (by simp)
    rw [pieces, List.flatten_cons, ih c h.2]
    conv_rhs => rw [← List.take_append_drop (c - a) (x.drop a)]
    rw [List.drop_drop, show a + (c - a) = c by omega]

/-- C27: cutting any list at the positions from cumsplit and joining the pieces gives the list back. -/
theorem C27_cumsplit_join {β : Type} (x : List β) (sizes caps : List ℚ) (hc : ∀ v ∈ caps, 0 ≤ v) :
    (pieces x 0 (cumsplit sizes caps)).flatten = x := by
  rw [pieces_flatten x _ 0 (List.pairwise_cons.2 ⟨fun _ _ => Nat.zero_le _, C27_cumsplit_sorted sizes caps hc⟩)]
  rfl

example : cumsplit [1, 2, 3, 4, 5] [4, 6] = [2, 4] := by decide +kernel
example : pieces [1, 2, 3, 4, 5] 0 (cumsplit [1, 2, 3, 4, 5] [4, 6]) = [[1, 2], [3, 4], [5]] := by decide +kernel

/-- C27: listsplit behaves like `str.split`: joining the pieces with the separator gives the list back and no
piece contains the separator. -/
theorem C27_listsplit {β : Type} [DecidableEq β] (seq : List β) (elem : β) :
    [elem].intercalate (listsplit seq elem) = seq ∧ ∀ p ∈ listsplit seq elem, elem ∉ p := by
  induction seq with
  | nil =>
    have : listsplit ([] : List β) elem = [[]] := rfl
    rw [this]; simp [List.intercalate]
  | cons x s ih =>
    obtain ⟨h, t, e⟩ := listsplit_ne_nil s elem
    by_cases hx : x = elem
    · rw [listsplit_cons_eq s hx, e]
      rw [e] at ih
      refine ⟨?_, ?_⟩
      · rw [intercalate_nil_cons, ih.1, hx]
      · intro p hp
        rcases List.mem_cons.1 hp with h1 | h1
        · rw [h1]; simp
        · exact ih.2 p h1
    · rw [listsplit_cons_ne s hx e]
      rw [e] at ih
      refine ⟨?_, ?_⟩
      · rw [intercalate_cons_cons, ih.1]
      · intro p hp
        rcases List.mem_cons.1 hp with h1 | h1
        · rw [h1]
          have := ih.2 h (by simp)
          simp [this, Ne.symm hx]
        · exact ih.2 p (by simp [h1])

example : listsplit [1, 2, 3, 4, 5, 6, 7] 4 = [[1, 2, 3], [5, 6, 7]] := by decide
example : listsplit [4, 4, 1, 4] 4 = [[], [], [1], []] := by decide

/-- C28: with non-negative weights none of which exceeds `W`, any two groups differ by at most `W`. -/
theorem C28_balance (w : List ℚ) (n : Nat) (hn : 0 < n) (W : ℚ) (hW : 0 ≤ W) (hw : ∀ x ∈ w, 0 ≤ x ∧ x ≤ W)
    (g : List (List Nat)) (hg : greedySimple w n = some g) (a b : List Nat) (ha : a ∈ g) (hb : b ∈ g) :
    (a.map fun i => w.getD i 0).sum ≤ (b.map fun i => w.getD i 0).sum + W := by
  obtain ⟨j, k, hj, hk, rfl, rfl⟩ : ∃ j k, ∃ (hj : j < g.length) (hk : k < g.length), g[j] = a ∧ g[k] = b := by
    obtain ⟨j, hj, e1⟩ := List.getElem_of_mem ha
    obtain ⟨k, hk, e2⟩ := List.getElem_of_mem hb
    exact ⟨j, k, hj, hk, e1, e2⟩
  have inv := greedy_inv hn hW hw hg
  obtain ⟨sums, inv⟩ := inv
  have b1 := inv.bal j (by rw [← inv.len2]; exact hj) k (by rw [← inv.len2]; exact hk)
  rw [inv.sums] at b1
  simpa [List.getD_eq_getElem?_getD, hj, hk, groupWeight] using b1

/-- C28: hence no group is heavier than the average by more than `(n-1)/n` of the largest weight: with `n`
groups, `n * heaviest ≤ total + (n-1) * W`. -/
theorem C28_heaviest (w : List ℚ) (n : Nat) (hn : 0 < n) (W : ℚ) (hW : 0 ≤ W) (hw : ∀ x ∈ w, 0 ≤ x ∧ x ≤ W)
    (g : List (List Nat)) (hg : greedySimple w n = some g) (a : List Nat) (ha : a ∈ g) :
    (n : ℚ) * (a.map fun i => w.getD i 0).sum ≤ w.sum + (n - 1) * W := by
  obtain ⟨g', e1, e2, e3⟩ := C27_greedy_simple w n hn
  rw [hg, Option.some.injEq] at e1
  subst e1
  have tot : (g.map (groupWeight w)).sum = w.sum := by
    have h1 : (g.map (groupWeight w)).sum = ((g.flatten).map fun i => w.getD i 0).sum := by
      rw [List.map_flatten, List.sum_flatten, List.map_map]; rfl
    rw [h1, (e3.map _).sum_eq]
    congr 1
    apply List.ext_getElem
    · simp
    · intro i h2 h3
      simp [List.getD_eq_getElem?_getD, h3]
  obtain ⟨j, hj, rfl⟩ := List.getElem_of_mem ha
  rw [← tot]
  have hperm : g.Perm (g[j] :: g.eraseIdx j) := (List.getElem_cons_eraseIdx_perm hj).symm
  rw [(hperm.map (groupWeight w)).sum_eq, List.map_cons, List.sum_cons]
  have hlow : ∀ (l : List (List Nat)), (∀ x ∈ l, groupWeight w g[j] - W ≤ groupWeight w x) →
      (l.length : ℚ) * (groupWeight w g[j] - W) ≤ (l.map (groupWeight w)).sum := by
    intro l hl
    induction l with
    | nil => simp
    | cons x l ih =>
      have := ih (fun y hy => hl y (by simp [hy]))
      have h0 := hl x (by simp)
      simp only [List.length_cons, List.map_cons, List.sum_cons, Nat.cast_add, Nat.cast_one]
      linarith
  have h4 := hlow (g.eraseIdx j) (by
    intro x hx
    have := C28_balance w n hn W hW hw g hg g[j] x ha (List.mem_of_mem_eraseIdx hx)
    unfold groupWeight
    linarith)
  have hlen : ((g.eraseIdx j).length : ℚ) = n - 1 := by
    rw [List.length_eraseIdx_of_lt hj, e2, Nat.cast_sub hn]; simp
  rw [hlen] at h4
  have : groupWeight w g[j] = (g[j].map fun i => w.getD i 0).sum := rfl
  rw [← this]
  linarith

example : ∀ x ∈ [(5 : ℚ), 1, 3, 4, 2], 0 ≤ x ∧ x ≤ 5 := by decide +kernel

end Pixell
